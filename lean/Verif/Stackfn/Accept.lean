import Verif.Stackfn.Jumps
/-
When the C compiler accepts the generated function.
-/
namespace Verif.Stackfn
open Verif.Core
variable {W : Type}

mutual
/-- calls of the function have `k` arguments, primitives do not allocate. -/
def okC (k : Nat) : CExp → Bool
  | .var _ => true
  | .cond a b c => okC k a && okC k b && okC k c
  | .call es => decide (es.length = k) && okCs k es
  | .prim gc _ es => !gc && okCs k es
@[inherit_doc okC]
def okCs (k : Nat) : List CExp → Bool
  | [] => true
  | e :: es => okC k e && okCs k es
end

mutual
/-- no compiler error, calls have `k` arguments, primitives do not allocate, and all labels exist. -/
def okS (k : Nat) (lab : Lab → Bool) : Stmt → Bool
  | .put _ e => okC k e
  | .decl _ none => true
  | .decl _ (some e) => okC k e
  | .ite e a b => okC k e && okSs k lab a && okSs k lab b
  | .block ss => okSs k lab ss
  | .label _ => true
  | .goto l => lab l
  | .bad => false
@[inherit_doc okS]
def okSs (k : Nat) (lab : Lab → Bool) : List Stmt → Bool
  | [] => true
  | s :: ss => okS k lab s && okSs k lab ss
end

/-- The function is well-formed: it has no compiler error, calls have the right number of arguments, labels of `goto` exist, and nothing is allocated while values are in
C variables. -/
def Accepted (P : Fn) : Prop := okSs P.params.length (fun l => (findLabel l P.code).isSome) P.code = true

/-! ### accepted code -/

theorem Res.bind_nb {α β : Type} {r : Res W α} {k : α → Res W β} (h : r ≠ .bad) (hk : ∀ a, r = .ok a → k a ≠ .bad) : r.bind k ≠ .bad := by
  cases r with
  | ok a => exact hk a rfl
  | fail => simp [Res.bind]
  | stop v w => simp [Res.bind]
  | more => simp [Res.bind]
  | bad => exact absurd rfl h

theorem Res.bind_ok {α β : Type} {r : Res W α} {k : α → Res W β} {b : β} (h : r.bind k = .ok b) : ∃ a, r = .ok a ∧ k a = .ok b := by
  cases r with
  | ok a => exact ⟨a, rfl, h⟩
  | fail => simp [Res.bind] at h
  | stop v w => simp [Res.bind] at h
  | more => simp [Res.bind] at h
  | bad => simp [Res.bind] at h

theorem evalCs_length (M : Sem W) (F : Callee W) (fr : Frame) : ∀ es σ r, evalCs M F fr es σ = .ok r → r.1.length = es.length
  | [], σ, r, h => by
    simp only [evalCs, Res.ok.injEq] at h; subst h; rfl
  | e :: es, σ, r, h => by
    simp only [evalCs] at h
    obtain ⟨a, h1, h2⟩ := Res.bind_ok h
    obtain ⟨b, h3, h4⟩ := Res.bind_ok h2
    injection h4 with h4; subst h4
    simp [evalCs_length M F fr es a.2 b h3]

mutual
theorem evalC_nb (M : Sem W) (F : Callee W) (k : Nat) (hF : ∀ vs σ, vs.length = k → F vs σ ≠ .bad) (fr : Frame) : ∀ e σ, okC k e = true → evalC M F fr e σ ≠ .bad
  | .var x, σ, _ => by
    simp only [evalC]
    split <;> simp
  | .cond a b c, σ, h => by
    simp only [okC, Bool.and_eq_true] at h
    simp only [evalC]
    refine Res.bind_nb (evalC_nb M F k hF fr a σ h.1.1) (fun r _ => ?_)
    split
    · exact evalC_nb M F k hF fr c _ h.2
    · exact evalC_nb M F k hF fr b _ h.1.2
  | .call es, σ, h => by
    simp only [okC, Bool.and_eq_true, decide_eq_true_eq] at h
    simp only [evalC]
    exact Res.bind_nb (evalCs_nb M F k hF fr es σ h.2) (fun r hr => hF _ _ (by rw [evalCs_length M F fr es σ r hr, h.1]))
  | .prim gc p es, σ, h => by
    simp only [okC, Bool.and_eq_true, Bool.not_eq_true'] at h
    simp only [evalC]
    refine Res.bind_nb (evalCs_nb M F k hF fr es σ h.2) (fun r hr => ?_)
    rw [h.1, if_neg (by simp)]
    split <;> simp
theorem evalCs_nb (M : Sem W) (F : Callee W) (k : Nat) (hF : ∀ vs σ, vs.length = k → F vs σ ≠ .bad) (fr : Frame) : ∀ es σ, okCs k es = true → evalCs M F fr es σ ≠ .bad
  | [], σ, _ => by simp [evalCs]
  | e :: es, σ, h => by
    simp only [okCs, Bool.and_eq_true] at h
    simp only [evalCs]
    exact Res.bind_nb (evalC_nb M F k hF fr e σ h.1) (fun r _ => Res.bind_nb (evalCs_nb M F k hF fr es r.2 h.2) (fun r' _ => by simp))
end

/-- jumps go to labels. -/
def Jumps (lab : Lab → Bool) (fl : Flow W) : Prop := ∀ l fr σ, fl = .jump l fr σ → lab l = true

mutual
theorem exec_nb (M : Sem W) (F : Callee W) (k : Nat) (lab : Lab → Bool) (hF : ∀ vs σ, vs.length = k → F vs σ ≠ .bad) : ∀ s fr σ, okS k lab s = true →
    exec M F s fr σ ≠ .bad ∧ ∀ fl, exec M F s fr σ = .ok fl → Jumps lab fl
  | .put t e, fr, σ, h => by
    simp only [okS] at h
    simp only [exec]
    refine ⟨Res.bind_nb (evalC_nb M F k hF fr e σ h) (fun r _ => by simp), fun fl hf => ?_⟩
    obtain ⟨a, -, h2⟩ := Res.bind_ok hf
    injection h2 with h2; subst h2
    intro l fr' σ' e
    cases t <;> simp [put] at e
  | .decl x none, fr, σ, h => by
    simp only [exec]
    refine ⟨by simp, fun fl hf => ?_⟩
    injection hf with hf; subst hf
    intro l fr' σ' e; cases e
  | .decl x (some e), fr, σ, h => by
    simp only [okS] at h
    simp only [exec]
    refine ⟨Res.bind_nb (evalC_nb M F k hF fr e σ h) (fun r _ => by simp), fun fl hf => ?_⟩
    obtain ⟨a, -, h2⟩ := Res.bind_ok hf
    injection h2 with h2; subst h2
    intro l fr' σ' e; cases e
  | .ite e a b, fr, σ, h => by
    simp only [okS, Bool.and_eq_true] at h
    simp only [exec]
    refine ⟨Res.bind_nb (evalC_nb M F k hF fr e σ h.1.1) (fun r _ => ?_), fun fl hf => ?_⟩
    · split
      · exact (execs_nb M F k lab hF b fr r.2 h.2).1
      · exact (execs_nb M F k lab hF a fr r.2 h.1.2).1
    · obtain ⟨r, -, h2⟩ := Res.bind_ok hf
      split at h2
      · exact (execs_nb M F k lab hF b fr r.2 h.2).2 fl h2
      · exact (execs_nb M F k lab hF a fr r.2 h.1.2).2 fl h2
  | .block ss, fr, σ, h => by
    simp only [okS] at h
    simp only [exec]
    exact execs_nb M F k lab hF ss fr σ h
  | .label l, fr, σ, h => by
    simp only [exec]
    refine ⟨by simp, fun fl hf => ?_⟩
    injection hf with hf; subst hf
    intro l fr' σ' e; cases e
  | .goto l, fr, σ, h => by
    simp only [okS] at h
    simp only [exec]
    refine ⟨by simp, fun fl hf => ?_⟩
    injection hf with hf; subst hf
    intro l fr' σ' e; injection e with e; subst e; exact h
  | .bad, fr, σ, h => by simp [okS] at h
theorem execs_nb (M : Sem W) (F : Callee W) (k : Nat) (lab : Lab → Bool) (hF : ∀ vs σ, vs.length = k → F vs σ ≠ .bad) : ∀ ss fr σ, okSs k lab ss = true →
    execs M F ss fr σ ≠ .bad ∧ ∀ fl, execs M F ss fr σ = .ok fl → Jumps lab fl
  | [], fr, σ, h => by
    simp only [execs]
    refine ⟨by simp, fun fl hf => ?_⟩
    injection hf with hf; subst hf
    intro l fr' σ' e; cases e
  | s :: ss, fr, σ, h => by
    simp only [okSs, Bool.and_eq_true] at h
    simp only [execs]
    have h1 := exec_nb M F k lab hF s fr σ h.1
    refine ⟨Res.bind_nb h1.1 (fun fl hf => ?_), fun fl hf => ?_⟩
    · cases fl with
      | next fr' σ' => exact (execs_nb M F k lab hF ss fr' σ' h.2).1
      | ret v σ' => simp
      | jump l fr' σ' => simp
    · obtain ⟨fl', h2, h3⟩ := Res.bind_ok hf
      cases fl' with
      | next fr' σ' => exact (execs_nb M F k lab hF ss fr' σ' h.2).2 fl h3
      | ret v σ' => injection h3 with h3; subst h3; intro l fr' σ' e; cases e
      | jump l fr' σ' => injection h3 with h3; subst h3; exact h1.2 _ h2
end

theorem okSs_append {k : Nat} {lab : Lab → Bool} (a b : List Stmt) : okSs k lab (a ++ b) = (okSs k lab a && okSs k lab b) := by
  induction a with
  | nil => simp [okSs]
  | cons s a ih => simp [okSs, ih, Bool.and_assoc]

mutual
theorem findStmt_ok (k : Nat) (lab : Lab → Bool) (l : Lab) : ∀ s c, okS k lab s = true → findStmt l s = some c → okSs k lab c = true
  | .ite e a b, c, h, hf => by
    simp only [okS, Bool.and_eq_true] at h
    simp only [findStmt] at hf
    cases ha : findLabel l a with
    | some c' =>
      rw [ha] at hf; injection hf with hf; subst hf
      exact findLabel_ok k lab l a c' h.1.2 ha
    | none => rw [ha] at hf; exact findLabel_ok k lab l b c h.2 hf
  | .block ss, c, h, hf => findLabel_ok k lab l ss c (by simpa [okS] using h) (by simpa [findStmt] using hf)
  | .label l', c, h, hf => by
    simp only [findStmt] at hf
    split at hf
    · injection hf with hf; subst hf; rfl
    · cases hf
  | .put t e, c, h, hf => by simp [findStmt] at hf
  | .decl x e, c, h, hf => by simp [findStmt] at hf
  | .goto l', c, h, hf => by simp [findStmt] at hf
  | .bad, c, h, hf => by simp [findStmt] at hf
theorem findLabel_ok (k : Nat) (lab : Lab → Bool) (l : Lab) : ∀ ss c, okSs k lab ss = true → findLabel l ss = some c → okSs k lab c = true
  | [], c, h, hf => by simp [findLabel] at hf
  | s :: ss, c, h, hf => by
    simp only [okSs, Bool.and_eq_true] at h
    simp only [findLabel] at hf
    cases hs : findStmt l s with
    | some c' =>
      rw [hs] at hf; injection hf with hf; subst hf
      rw [okSs_append, findStmt_ok k lab l s c' h.1 hs, h.2]; rfl
    | none => rw [hs] at hf; exact findLabel_ok k lab l ss c h.2 hf
end

theorem run_nb (M : Sem W) {P : Fn} (hP : Accepted P) : ∀ n code (fr : Frame) (σ : Store W), okSs P.params.length (fun l => (findLabel l P.code).isSome) code = true → run M P n code fr σ ≠ .bad
  | 0, code, fr, σ, h => by simp [run]
  | n + 1, code, fr, σ, h => by
    simp only [run]
    have := execs_nb M (fun vs σ => if P.params.length = vs.length then run M P n P.code (initFrame P.params vs) σ else .bad) P.params.length (fun l => (findLabel l P.code).isSome)
      (fun vs σ hl => by rw [if_pos hl.symm]; exact run_nb M hP n P.code _ σ hP) code fr σ h
    refine Res.bind_nb this.1 (fun fl hf => ?_)
    cases fl with
    | ret v σ' => simp
    | next fr' σ' => simp
    | jump l fr' σ' =>
      have hl := this.2 _ hf l fr' σ' rfl
      simp only at hl ⊢
      cases hc : findLabel l P.code with
      | none => rw [hc] at hl; cases hl
      | some c => exact run_nb M hP n c fr' σ' (findLabel_ok _ _ l P.code c hP hc)

/-! ### which procedures are accepted -/

mutual
/-- ids called in tail position. -/
def targets : Exp → List Id
  | .ite _ b c => targets b ++ targets c
  | .app (.lam [x] (.var y)) es => if x = y then targetsOne es else []
  | .app (.lam ids b) es => if ids.length = es.length then targets b else []
  | .app (.var g) _ => [g]
  | .app (.fix [_] [.lam _ b] (.var _)) _ => targets b
  | .fix _ lams b => targets b ++ targetsLams lams
  | _ => []
@[inherit_doc targets]
def targetsOne : List Exp → List Id
  | [e] => targets e
  | _ => []
@[inherit_doc targets]
def targetsLams : List Exp → List Id
  | [] => []
  | .lam _ b :: es => targets b ++ targetsLams es
  | _ :: es => targetsLams es
end

mutual
/-- Tail calls in the body of a named `let` go to this `let` or to procedures bound in its body, not to the function or to outer labels. -/
def closed : Exp → Bool
  | .ite a b c => closed a && closed b && closed c
  | .prim _ _ es => closeds es
  | .app (.lam _ b) es => closeds es && closed b
  | .app (.fix [x] [.lam _ b] (.var _)) es => closeds es && closed b && (targets b).all (fun g => decide (g = x) || (binders b).contains g)
  | .app (.var _) es => closeds es
  | .fix _ lams b => closed b && closedLams lams
  | _ => true
@[inherit_doc closed]
def closeds : List Exp → Bool
  | [] => true
  | e :: es => closed e && closeds es
@[inherit_doc closed]
def closedLams : List Exp → Bool
  | [] => true
  | .lam _ b :: es => closed b && closedLams es
  | _ :: es => closedLams es
end

theorem closeds_mem {es : List Exp} (h : closeds es = true) : ∀ e ∈ es, closed e = true := by
  induction es with
  | nil => intro e he; cases he
  | cons a es ih =>
    simp only [closeds, Bool.and_eq_true] at h
    intro e he
    rcases List.mem_cons.1 he with rfl | he
    · exact h.1
    · exact ih h.2 e he

theorem closedLams_mem {lams : List Exp} (h : closedLams lams = true) : ∀ ps b, .lam ps b ∈ lams → closed b = true := by
  induction lams with
  | nil => intro ps b he; cases he
  | cons a es ih =>
    intro ps b he
    cases a with
    | lam qs c =>
      simp only [closedLams, Bool.and_eq_true] at h
      rcases List.mem_cons.1 he with e | he
      · injection e with e1 e2; subst e2; exact h.1
      · exact ih h.2 ps b he
    | _ =>
      simp only [closedLams] at h
      rcases List.mem_cons.1 he with e | he
      · cases e
      · exact ih h ps b he

/-- the compiler sees these tail calls. -/
theorem tc_targets (g : Id) : ∀ e : Exp, closed e = true → g ∈ targets e → g ∉ binders e → tc g e = true := by
  apply targets.induct (motive_1 := fun e => closed e = true → g ∈ targets e → g ∉ binders e → tc g e = true)
    (motive_2 := fun lams => closedLams lams = true → g ∈ targetsLams lams → g ∉ bindersAll lams → tcLams g lams = true)
    (motive_3 := fun es => closeds es = true → g ∈ targetsOne es → g ∉ bindersAll es → ∃ e, es = [e] ∧ tc g e = true)
  · intro a b c ib ic h1 h2 h3
    simp only [closed, Bool.and_eq_true] at h1
    simp only [targets, List.mem_append] at h2
    simp only [binders, List.mem_append, not_or] at h3
    simp only [tc, Bool.or_eq_true]
    exact h2.imp (fun h => ib h1.1.2 h h3.2.1) (fun h => ic h1.2 h h3.2.2)
  · intro y es ih h1 h2 h3
    simp only [closed, Bool.and_eq_true] at h1
    simp only [targets, if_true] at h2
    simp only [binders, List.mem_append, not_or] at h3
    obtain ⟨e, rfl, h⟩ := ih h1.1 h2 h3.2
    simp [tc, h]
  · intro x y es hne h1 h2
    simp [targets, hne] at h2
  · intro ids b es hne hl ih h1 h2 h3
    simp only [closed, Bool.and_eq_true] at h1
    rw [targets, if_pos hl] at h2
    · simp only [binders, List.mem_append, not_or] at h3
      have hb := ih h1.2 h2 h3.1.2
      unfold tc
      split
      all_goals first
        | (rename_i heq; cases heq; done)
        | skip
      · rename_i heq; injection heq with e1 e2; injection e1 with e3 e4; subst e4; exact hb
      · rename_i heq; injection heq with e1 e2; injection e1 with e3 e4; exact (hne _ _ e3 e4).elim
      · rename_i heq; injection heq with e1 e2; injection e1 with e3 e4; subst e2; subst e3; subst e4; simp [hl, hb]
      all_goals simp_all
    · exact hne
  · intro ids b es hne hl h1 h2
    rw [targets, if_neg hl] at h2
    · cases h2
    · exact hne
  · intro h es h1 h2 h3
    simp only [targets, List.mem_singleton] at h2
    simp [tc, h2]
  · intro x ps b y es ih h1 h2 h3
    simp only [closed, Bool.and_eq_true, List.all_eq_true, Bool.or_eq_true, decide_eq_true_eq, List.contains_iff_mem] at h1
    simp only [targets] at h2
    simp only [binders, bindersAll, List.mem_append, not_or, List.mem_singleton] at h3
    rcases h1.2 g h2 with h | h
    · exact (h3.1.1 h).elim
    · exact (h3.1.2.1.1.2 h).elim
  · intro ids lams b ib il h1 h2 h3
    simp only [closed, Bool.and_eq_true] at h1
    simp only [targets, List.mem_append] at h2
    simp only [binders, List.mem_append, not_or] at h3
    simp only [tc, Bool.or_eq_true]
    exact h2.imp (fun h => ib h1.1 h h3.2.2) (fun h => il h1.2 h h3.2.1)
  · intro e h1 h2 h3 h4 h5 h6 h7 h8
    rw [targets] at h8
    · cases h8
    all_goals first
      | assumption
      | (intros; simp_all; done)
      | skip
  · intro h1 h2; simp [targetsLams] at h2
  · intro ps b es ib il h1 h2 h3
    simp only [closedLams, Bool.and_eq_true] at h1
    simp only [targetsLams, List.mem_append] at h2
    simp only [bindersAll, binders, List.mem_append, not_or] at h3
    simp only [tcLams, Bool.or_eq_true]
    exact h2.imp (fun h => ib h1.1 h h3.1.2) (fun h => il h1.2 h h3.2)
  · intro e es hne il h1 h2 h3
    cases e with
    | lam ps b => exact (hne _ _ rfl).elim
    | _ =>
      simp only [closedLams, targetsLams, tcLams, bindersAll, List.mem_append, not_or] at *
      exact il h1 h2 h3.2
  · intro e ih h1 h2 h3
    simp only [closeds, Bool.and_true] at h1
    simp only [targetsOne] at h2
    simp only [bindersAll, List.append_nil] at h3
    exact ⟨e, rfl, ih h1 h2 h3⟩
  · intro es hne h1 h2
    rw [targetsOne] at h2
    · cases h2
    · exact hne

/-! ### C expressions -/

theorem cgCexp_ok {T : Texts} {f : Id} {known : Id → Bool} {k : Nat} : ∀ (e : Exp) (xs ls : List Id) (Γ : Labels) (t t' : Bool), isCexp T f e = true → agStack f known e xs ls t = true →
    sane e Γ t' = true → (params f Γ).map List.length = some k → okC k (cgCexp e) = true
  | .var x, xs, ls, Γ, t, t', hc, ha, hs, hk => by simp [cgCexp, okC]
  | .ite a b c, xs, ls, Γ, t, t', hc, ha, hs, hk => by
    simp only [isCexp, Bool.and_eq_true] at hc
    simp only [agStack, Bool.and_eq_true] at ha
    simp only [sane, Bool.and_eq_true] at hs
    simp only [cgCexp, okC, Bool.and_eq_true]
    exact ⟨⟨cgCexp_ok a xs ls Γ _ _ hc.1.1 ha.1.1 hs.1.1 hk, cgCexp_ok b xs ls Γ _ _ hc.1.2 ha.1.2 hs.1.2 hk⟩, cgCexp_ok c xs ls Γ _ _ hc.2 ha.2 hs.2 hk⟩
  | .prim eff p es, xs, ls, Γ, t, t', hc, ha, hs, hk => by
    simp only [isCexp, Bool.and_eq_true] at hc
    simp only [agStack, Bool.and_eq_true] at ha
    simp only [sane] at hs
    simp only [cgCexp, okC, Bool.and_eq_true]
    exact ⟨ha.1, cgCexps_ok es xs ls Γ hc.2 ha.2 hs hk⟩
  | .app (.var g) es, xs, ls, Γ, t, t', hc, ha, hs, hk => by
    simp only [isCexp, Bool.and_eq_true, decide_eq_true_eq] at hc
    obtain ⟨rfl, hc⟩ := hc
    simp only [agStack, Bool.and_eq_true] at ha
    simp only [sane, Bool.and_eq_true] at hs
    simp only [cgCexp, okC, Bool.and_eq_true, decide_eq_true_eq]
    refine ⟨?_, cgCexps_ok es xs ls Γ hc ha.2 hs.2 hk⟩
    rw [Option.map_eq_some_iff] at hk
    obtain ⟨ps, h1, h2⟩ := hk
    have := hs.1
    simp only [arity, h1, decide_eq_true_eq] at this
    rw [← h2, this]
    clear hc ha hs this h1 h2
    induction es with
    | nil => rfl
    | cons e es ih => simp [cgCexps, ih]
  | .app (.lam [] b) [], xs, ls, Γ, t, t', hc, ha, hs, hk => by
    simp only [isCexp] at hc
    simp only [agStack, Bool.and_eq_true] at ha
    simp only [sane, Bool.and_eq_true] at hs
    simp only [cgCexp]
    exact cgCexp_ok b _ ls Γ _ _ hc ha.2 hs.2 hk
  | .app (.lam [x] (.var y)) [e], xs, ls, Γ, t, t', hc, ha, hs, hk => by
    simp only [isCexp, Bool.and_eq_true] at hc
    simp only [agStack, agStacks, Bool.and_eq_true] at ha
    simp only [sane, sanes, Bool.and_eq_true] at hs
    simp only [cgCexp]
    exact cgCexp_ok e xs ls Γ _ _ hc.2 ha.1.2.1 hs.1.1 hk
where
  /-- the same for lists. -/
  cgCexps_ok {T : Texts} {f : Id} {known : Id → Bool} {k : Nat} : ∀ (es : List Exp) (xs ls : List Id) (Γ : Labels), areCexp T f es = true → agStacks f known es xs ls = true →
    sanes es Γ = true → (params f Γ).map List.length = some k → okCs k (cgCexps es) = true
  | [], xs, ls, Γ, hc, ha, hs, hk => rfl
  | e :: es, xs, ls, Γ, hc, ha, hs, hk => by
    simp only [areCexp, Bool.and_eq_true] at hc
    simp only [agStacks, Bool.and_eq_true] at ha
    simp only [sanes, Bool.and_eq_true] at hs
    simp only [cgCexps, okCs, Bool.and_eq_true]
    exact ⟨cgCexp_ok e xs ls Γ _ _ hc.1 ha.1 hs.1 hk, cgCexps_ok es xs ls Γ hc.2 ha.2 hs.2 hk⟩

/-! ### statements -/

/-- Static conditions for acceptance. -/
structure AccS (f : Id) (known : Id → Bool) (k : Nat) (e : Exp) (t : Bool) (xs ls : List Id) (Γ : Labels) : Prop where
  ag : agStack f known e xs ls t = true
  sn : sane e Γ t = true
  cl : closed e = true
  nd : (binders e).Nodup
  fb : f ∉ binders e
  lb : ∀ g ∈ ls, g ∉ binders e
  pg : ∀ g, g = f ∨ g ∈ ls → ∃ ps, params g Γ = some ps
  pf : (params f Γ).map List.length = some k

/-- the labels the code needs exist. -/
structure LabS (lab : Lab → Bool) (f : Id) (e : Exp) (ls : List Id) (code : List Stmt) : Prop where
  tg : ∀ g ∈ targets e, g = f ∨ g ∈ ls → lab (.id g) = true
  fd : ∀ x, findLabel (.id x) code ≠ none → lab (.id x) = true

/-- the code for `e` is accepted. -/
def AccOK (T : Texts) (f : Id) (known : Id → Bool) (k : Nat) (lab : Lab → Bool) (e : Exp) : Prop :=
  ∀ t xs ls Γ N, AccS f known k e (decide (t = .ret)) xs ls Γ → (t = .ret → LabS lab f e ls (cgBody T f e t Γ N).1) → okSs k lab (cgBody T f e t Γ N).1 = true

section
variable {T : Texts} {f : Id} {known : Id → Bool} {k : Nat} {lab : Lab → Bool}

theorem okSs_one {s : Stmt} : okSs k lab [s] = okS k lab s := by simp [okSs]

theorem declsI_acc {xs ls : List Id} {Γ : Labels} (L : List Item) (h : ∀ a ∈ L, AccS f known k a.e false xs ls Γ) : okSs k lab (declsI T f L) = true := by
  induction L with
  | nil => rfl
  | cons a L ih =>
    have ha := h a (by simp)
    simp only [declsI, List.map_cons, okSs, Bool.and_eq_true]
    refine ⟨?_, ih (fun b hb => h b (by simp [hb]))⟩
    split
    · rename_i hc; exact cgCexp_ok a.e xs ls Γ _ _ hc ha.ag ha.sn ha.pf
    · rfl

theorem initsI_acc {xs ls : List Id} {Γ : Labels} : ∀ (L : List Item) (N : Nat), (∀ a ∈ L, AccS f known k a.e false xs ls Γ) → (∀ a ∈ L, AccOK T f known k lab a.e) →
    okSs k lab (initsI T f L Γ N).1 = true
  | [], N, _, _ => rfl
  | a :: L, N, h, hi => by
    simp only [initsI]
    split
    · exact initsI_acc L N (fun b hb => h b (by simp [hb])) (fun b hb => hi b (by simp [hb]))
    · simp only [okSs_append, Bool.and_eq_true]
      exact ⟨hi a (by simp) (.var a.id) xs ls Γ N (by simpa using h a (by simp)) (by simp), initsI_acc L _ (fun b hb => h b (by simp [hb])) (fun b hb => hi b (by simp [hb]))⟩

theorem decl_none_acc (ps : List Id) : okSs k lab (ps.map (Stmt.decl · none)) = true := by
  induction ps with
  | nil => rfl
  | cons p ps ih => simp [okSs, okS, ih]

theorem okCs_vars (ys : List Id) : okCs k (ys.map .var) = true := by
  induction ys with
  | nil => rfl
  | cons p ps ih => simp [okCs, okC, ih]

theorem okCs_hoisted {xs ls : List Id} {Γ : Labels} : ∀ (es : List Exp) (i : Nat), (∀ a ∈ es, AccS f known k a false xs ls Γ) → okCs k (hoisted T f es i) = true
  | [], i, _ => rfl
  | e :: es, i, h => by
    have ha := h e (by simp)
    simp only [hoisted]
    split
    · rename_i hc
      simp only [okCs, Bool.and_eq_true]
      exact ⟨cgCexp_ok e xs ls Γ _ _ hc ha.ag ha.sn ha.pf, okCs_hoisted es i (fun a h' => h a (by simp [h']))⟩
    · simp only [okCs, okC, Bool.true_and]
      exact okCs_hoisted es _ (fun a h' => h a (by simp [h']))

theorem nodup_bindersAll {es : List Exp} (h : (bindersAll es).Nodup) : ∀ e ∈ es, (binders e).Nodup := by
  induction es with
  | nil => intro e he; cases he
  | cons a es ih =>
    simp only [bindersAll] at h
    have h := List.nodup_append.1 h
    intro e he
    rcases List.mem_cons.1 he with rfl | he
    · exact h.1
    · exact ih h.2.1 e he

/-- operands. -/
theorem AccS.rands {es : List Exp} {xs ls : List Id} {Γ : Labels} (ag : agStacks f known es xs ls = true) (sn : sanes es Γ = true) (cl : closeds es = true) (nd : (bindersAll es).Nodup)
    (fb : f ∉ bindersAll es) (lb : ∀ g ∈ ls, g ∉ bindersAll es) (pg : ∀ g, g = f ∨ g ∈ ls → ∃ ps, params g Γ = some ps) (pf : (params f Γ).map List.length = some k) :
    ∀ e ∈ es, AccS f known k e false xs ls Γ := fun e he =>
  ⟨agStacks_mem ag e he, sanes_mem sn e he, closeds_mem cl e he, nodup_bindersAll nd e he, fun h => fb (mem_bindersAll.2 ⟨e, he, h⟩), fun g hg h => lb g hg (mem_bindersAll.2 ⟨e, he, h⟩), pg, pf⟩

theorem LabS.sub {e e' : Exp} {ls : List Id} {code code' : List Stmt} (h : LabS lab f e ls code) (ht : targets e' ⊆ targets e) (hf : ∀ x, findLabel (.id x) code = none → findLabel (.id x) code' = none) :
    LabS lab f e' ls code' :=
  ⟨fun g hg hl => h.tg g (ht hg) hl, fun x hx => h.fd x (fun h' => hx (hf x h'))⟩

theorem none_append {l : Lab} {a b : List Stmt} : findLabel l (a ++ b) = none ↔ findLabel l a = none ∧ findLabel l b = none := by
  rw [findLabel_append]
  cases findLabel l a with
  | some c => simp
  | none => simp

theorem none_ite {l : Lab} {e : CExp} {a b : List Stmt} : findLabel l [.ite e a b] = none ↔ findLabel l a = none ∧ findLabel l b = none := by
  rw [findLabel_ite]
  cases findLabel l a with
  | some c => simp
  | none => simp

theorem none_cons {l : Lab} {s : Stmt} {b : List Stmt} : findLabel l (s :: b) = none ↔ findStmt l s = none ∧ findLabel l b = none := by
  rw [findLabel]
  cases findStmt l s with
  | some c => simp
  | none => simp

theorem cexp_acc {e : Exp} {t : Tgt} {b : Bool} {xs ls : List Id} {Γ : Labels} (hc : isCexp T f e = true) (h : AccS f known k e b xs ls Γ) : okSs k lab [.put t (cgCexp e)] = true := by
  rw [okSs_one, okS]
  exact cgCexp_ok e xs ls Γ _ _ hc h.ag h.sn h.pf

theorem ite_acc {a b c : Exp} (ia : AccOK T f known k lab a) (ib : AccOK T f known k lab b) (ic : AccOK T f known k lab c) : AccOK T f known k lab (.ite a b c) := by
  intro t xs ls Γ N h hl
  have hag := h.ag; have hsn := h.sn; have hcl := h.cl; have hnd := h.nd; have hfb := h.fb; have hlb := h.lb
  simp only [agStack, Bool.and_eq_true] at hag
  simp only [sane, Bool.and_eq_true] at hsn
  simp only [closed, Bool.and_eq_true] at hcl
  simp only [binders] at hnd
  simp only [binders, List.mem_append, not_or] at hfb hlb
  have n1 := List.nodup_append.1 hnd
  have n2 := List.nodup_append.1 n1.2.1
  have ha : AccS f known k a false xs ls Γ := ⟨hag.1.1, hsn.1.1, hcl.1.1, n1.1, hfb.1, fun g hg => (hlb g hg).1, h.pg, h.pf⟩
  have hb : AccS f known k b (decide (t = .ret)) xs ls Γ := ⟨hag.1.2, hsn.1.2, hcl.1.2, n2.1, hfb.2.1, fun g hg => (hlb g hg).2.1, h.pg, h.pf⟩
  have hc : AccS f known k c (decide (t = .ret)) xs ls Γ := ⟨hag.2, hsn.2, hcl.2, n2.2.1, hfb.2.2, fun g hg => (hlb g hg).2.2, h.pg, h.pf⟩
  simp only [cgBody] at hl ⊢
  split
  · rename_i h1
    simp only [Bool.and_eq_true] at h1
    exact cexp_acc h1.1 h
  · rename_i h1
    rw [if_neg h1] at hl
    split
    · rename_i h2
      rw [if_pos h2] at hl
      rw [okSs_one, okS]
      simp only [Bool.and_eq_true]
      refine ⟨⟨cgCexp_ok a xs ls Γ _ _ h2 ha.ag ha.sn ha.pf, ib t xs ls Γ _ hb (fun ht => ?_)⟩, ic t xs ls Γ _ hc (fun ht => ?_)⟩
      · exact (hl ht).sub (by simp [targets]) (fun x hx => (none_ite.1 hx).1)
      · exact (hl ht).sub (by simp [targets]) (fun x hx => (none_ite.1 hx).2)
    · rename_i h2
      rw [if_neg h2] at hl
      have hca := ia (.var (lexId N)) xs ls Γ (N + 1) (by simpa using ha) (by simp)
      split
      · rename_i h3
        simp only [Bool.and_eq_true] at h3
        rw [okSs_one, okS, okSs, okS, okSs_append, hca, okSs_one, okS, okC]
        simp only [Bool.and_eq_true]
        exact ⟨trivial, trivial, ⟨rfl, cgCexp_ok b xs ls Γ _ _ h3.1.1 hb.ag hb.sn hb.pf⟩, cgCexp_ok c xs ls Γ _ _ h3.1.2 hc.ag hc.sn hc.pf⟩
      · rename_i h3
        rw [if_neg h3] at hl
        rw [okSs_one, okS, okSs, okS, okSs_append, hca, okSs_one, okS, okC]
        simp only [Bool.and_eq_true]
        refine ⟨trivial, trivial, ⟨trivial, ib t xs ls Γ _ hb (fun ht => ?_)⟩, ic t xs ls Γ _ hc (fun ht => ?_)⟩
        · refine (hl ht).sub (by simp [targets]) (fun x hx => ?_)
          rw [findLabel_block, none_cons, none_append] at hx
          exact (none_ite.1 hx.2.2).1
        · refine (hl ht).sub (by simp [targets]) (fun x hx => ?_)
          rw [findLabel_block, none_cons, none_append] at hx
          exact (none_ite.1 hx.2.2).2

theorem prim_acc {eff : Effect} {p : PrimName} {es : List Exp} (ie : ∀ e ∈ es, AccOK T f known k lab e) : AccOK T f known k lab (.prim eff p es) := by
  intro t xs ls Γ N h hl
  have hag := h.ag; have hsn := h.sn; have hcl := h.cl; have hnd := h.nd; have hfb := h.fb; have hlb := h.lb
  simp only [agStack, Bool.and_eq_true] at hag
  simp only [sane] at hsn
  simp only [closed] at hcl
  simp only [binders] at hnd hfb hlb
  have hr := AccS.rands hag.2 hsn hcl hnd hfb hlb h.pg h.pf
  simp only [cgBody]
  split
  · rename_i hc
    rw [okSs_one, okS, okC, hag.1]
    exact cgCexp_ok.cgCexps_ok es xs ls Γ hc hag.2 hsn h.pf
  · have hL : ∀ a ∈ cplx T f es N 0, a.e ∈ es := fun a ha => (cplx_mem es N 0 a ha).2.1
    rw [okSs_one, okS, okSs_append, decl_none_acc, okSs_append, cplx_inits es N 0, okSs_one, okS, okC, hag.1, okCs_hoisted es N hr,
      initsI_acc _ _ (fun a ha => hr _ (hL a (List.mem_reverse.1 ha))) (fun a ha => ie _ (hL a (List.mem_reverse.1 ha)))]
    rfl

theorem assigns_acc : ∀ (ps : List Id) (es : List CExp), okCs k es = true → okSs k lab (assigns ps es) = true
  | [], _, _ => by simp [assigns, okSs]
  | _ :: _, [], _ => by simp [assigns, okSs]
  | p :: ps, e :: es, h => by
    simp only [okCs, Bool.and_eq_true] at h
    simp only [assigns, okSs, okS, Bool.and_eq_true]
    exact ⟨h.1, assigns_acc ps es h.2⟩

theorem jumpTo_acc {g : Id} {ps : List Id} {args : List CExp} {t : Tgt} (ha : okCs k args = true) (h1 : t = .ret → lab (.id g) = true) (h2 : t ≠ .ret → g = f ∧ args.length = k) :
    okSs k lab (jumpTo f g ps args t) = true := by
  cases t with
  | ret => rw [jumpTo, okSs_append, assigns_acc ps args ha, okSs_one, okS, h1 rfl]; rfl
  | var x =>
    have := h2 (by simp)
    simp [jumpTo, this.1, okSs, okS, okC, this.2, ha]
  | void =>
    have := h2 (by simp)
    simp [jumpTo, this.1, okSs, okS, okC, this.2, ha]

theorem appCode_acc {g : Id} {es : List Exp} {t : Tgt} {xs ls : List Id} {Γ : Labels} {N N' : Nat} (hr : ∀ e ∈ es, AccS f known k e false xs ls Γ) (ie : ∀ e ∈ es, AccOK T f known k lab e)
    (hp : ∃ ps, params g Γ = some ps) (h1 : t = .ret → lab (.id g) = true) (h2 : t ≠ .ret → g = f ∧ es.length = k) :
    okSs k lab (appCode T f g es t Γ N (cgRevApp T f es N Γ N')).1 = true := by
  obtain ⟨ps, hp⟩ := hp
  simp only [appCode, hp]
  split
  · rename_i hv
    rw [Option.any_eq_true] at hv
    obtain ⟨ys, hy, -⟩ := hv
    obtain rfl := varIds_eq hy
    rw [cgCexps_vars]
    exact jumpTo_acc (okCs_vars ys) h1 (by simpa using h2)
  · have hL : ∀ a ∈ pairs (temps N es.length) es 1, a.e ∈ es := fun a ha => (pairs_mem _ es 1 a ha).1
    rw [okSs_one, okS, decls_rev _ es 1 (temps_length _ _), inits_rev es N 1, okSs_append, okSs_append,
      declsI_acc _ (fun a ha => hr _ (hL a (List.mem_reverse.1 ha))),
      initsI_acc _ _ (fun a ha => hr _ (hL a (List.mem_reverse.1 ha))) (fun a ha => ie _ (hL a (List.mem_reverse.1 ha)))]
    simp only [Bool.true_and]
    exact jumpTo_acc (okCs_vars _) h1 (by simpa [temps_length] using h2)

theorem call_acc {g : Id} {es : List Exp} (ie : ∀ e ∈ es, AccOK T f known k lab e) : AccOK T f known k lab (.app (.var g) es) := by
  intro t xs ls Γ N h hl
  have hag := h.ag; have hsn := h.sn; have hcl := h.cl; have hnd := h.nd; have hfb := h.fb; have hlb := h.lb
  simp only [agStack, Bool.and_eq_true, Bool.or_eq_true, decide_eq_true_eq, List.contains_iff_mem] at hag
  simp only [sane, Bool.and_eq_true] at hsn
  simp only [closed] at hcl
  simp only [binders, List.nil_append] at hnd hfb hlb
  have hr := AccS.rands hag.2 hsn.2 hcl hnd hfb hlb h.pg h.pf
  rw [cgBody]
  refine appCode_acc hr ie (h.pg g (hag.1.imp id And.right)) (fun ht => ?_) (fun ht => ?_)
  · exact (hl ht).tg g (by simp [targets]) (hag.1.imp id And.right)
  · rcases hag.1 with e | e
    · subst e
      refine ⟨rfl, ?_⟩
      have hk := h.pf
      rw [Option.map_eq_some_iff] at hk
      obtain ⟨ps, h1, h2⟩ := hk
      have := hsn.1
      simp only [arity, h1, decide_eq_true_eq] at this
      omega
    · exact absurd e.1 ht

theorem let_acc {ids : List Id} {b : Exp} {es : List Exp} (ib : AccOK T f known k lab b) (ie : ∀ e ∈ es, AccOK T f known k lab e) : AccOK T f known k lab (.app (.lam ids b) es) := by
  intro t xs ls Γ N h hl
  have hag := h.ag; have hsn := h.sn; have hcl := h.cl; have hnd := h.nd; have hfb := h.fb; have hlb := h.lb
  simp only [agStack, Bool.and_eq_true, decide_eq_true_eq] at hag
  simp only [sane, Bool.and_eq_true] at hsn
  simp only [closed, Bool.and_eq_true] at hcl
  simp only [binders] at hnd
  simp only [binders, List.mem_append, not_or] at hfb hlb
  have n1 := List.nodup_append.1 hnd
  have n2 := List.nodup_append.1 n1.1
  have hr := AccS.rands hag.1.2 hsn.1 hcl.1 n1.2.1 hfb.2 (fun g hg => (hlb g hg).2) h.pg h.pf
  have hb : AccS f known k b (decide (t = .ret)) (ids ++ xs) ls Γ := ⟨hag.2, hsn.2, hcl.2, n2.2.1, hfb.1.2, fun g hg => (hlb g hg).1.2, h.pg, h.pf⟩
  have htb : targets b ⊆ targets (.app (.lam ids b) es) := by
    by_cases hp : ∃ x y, ids = [x] ∧ b = .var y
    · obtain ⟨x, y, -, rfl⟩ := hp
      simp [targets]
    · rw [targets, if_pos hag.1.1]
      · exact fun _ h => h
      · intro x y h1 h2; exact hp ⟨x, y, h1, h2⟩
  by_cases h0 : ids = [] ∧ es = []
  · obtain ⟨rfl, rfl⟩ := h0
    simp only [cgBody] at hl ⊢
    exact ib t _ ls Γ N hb (fun ht => (hl ht).sub htb (fun x hx => hx))
  have h0' : ids = [] → es = [] → False := fun h1 h2 => h0 ⟨h1, h2⟩
  have h0'' : es = [] → ids = [] → False := fun h1 h2 => h0 ⟨h2, h1⟩
  rw [cgBody] at hl ⊢
  · split
    · rename_i h1
      rw [if_pos h1] at hl
      unfold isIdLet at h1
      split at h1
      · rename_i x y e heq
        injection heq with h3 h4; injection h3 with h5 h6
        subst h4; subst h5; subst h6
        simp only [decide_eq_true_eq] at h1; subst h1
        simp only [cgOne] at hl ⊢
        refine ie e (by simp) t xs ls Γ N ?_ (fun ht => (hl ht).sub (by simp [targets, targetsOne]) (fun x hx => hx))
        have he := hr e (by simp)
        cases ht : decide (t = .ret) with
        | false => exact he
        | true => exact ⟨ag_tail _ _ _ _ _ he.ag, sane_tail _ _ he.sn, he.cl, he.nd, he.fb, he.lb, he.pg, he.pf⟩
      · cases h1
    · rename_i h1
      rw [if_neg h1] at hl
      split
      · rename_i h2
        rw [if_pos h2] at hl
        unfold isBegin at h2
        split at h2
        · rename_i x y e heq
          injection heq with h3 h4; injection h3 with h5 h6
          subst h4; subst h5; subst h6
          simp only [cgOne] at hl ⊢
          rw [okSs_append, ie e (by simp) .void xs ls Γ N (by simpa using hr e (by simp)) (by simp), Bool.true_and]
          exact ib t _ ls Γ _ hb (fun ht => (hl ht).sub htb (fun x hx => (none_append.1 hx).2))
        · cases h2
      · rename_i h2
        rw [if_neg h2, if_pos hag.1.1] at hl
        rw [if_pos hag.1.1]
        have hL : ∀ a ∈ pairs ids es 1, a.e ∈ es := fun a ha => (pairs_mem _ es 1 a ha).1
        simp only [pairs_decls ids es 1, pairs_inits ids es 1] at hl ⊢
        rw [okSs_one, okS, okSs_append, okSs_append, declsI_acc _ (fun a ha => hr _ (hL a ha)), initsI_acc _ _ (fun a ha => hr _ (hL a ha)) (fun a ha => ie _ (hL a ha))]
        simp only [Bool.true_and]
        refine ib t _ ls Γ _ hb (fun ht => (hl ht).sub htb (fun x hx => ?_))
        rw [findLabel_block, none_append, none_append] at hx
        exact hx.2.2
  all_goals first | exact h0' | exact h0''

theorem params_some {g : Id} : ∀ {Γ : Labels} {ps : List Id}, (g, ps) ∈ Γ → ∃ qs, params g Γ = some qs
  | (h, qs) :: Γ, ps, hm => by
    rw [params]
    split
    · exact ⟨_, rfl⟩
    · rename_i hne
      rcases List.mem_cons.1 hm with e | hm
      · injection e with e; exact absurd e.symm hne
      · exact params_some hm

theorem params_new {g : Id} {A Γ : Labels} (h : ∀ p ∈ A, p.1 ≠ g) : params g (A ++ Γ) = params g Γ := by
  induction A with
  | nil => rfl
  | cons a A ih =>
    rw [List.cons_append, params, if_neg (h a (by simp)), ih (fun p hp => h p (by simp [hp]))]

theorem params_old {g : Id} {A Γ : Labels} (h : ∃ ps, params g Γ = some ps) : ∃ ps, params g (A ++ Γ) = some ps := by
  induction A with
  | nil => exact h
  | cons a A ih =>
    rw [List.cons_append, params]
    split
    · exact ⟨_, rfl⟩
    · exact ih

theorem register_some {g : Id} {ids : List Id} {lams : List Exp} {Γ : Labels} (hl : ids.length = lams.length) (hg : g ∈ ids) : ∃ ps, params g (register ids lams Γ) = some ps := by
  obtain ⟨i, hi, rfl⟩ := List.getElem_of_mem hg
  refine params_some (ps := lamIds (lams[i]'(hl ▸ hi))) (List.mem_append_left _ (List.mem_reverse.2 ?_))
  have : (ids.zip (lams.map lamIds))[i]'(by simp; omega) = (ids[i], lamIds (lams[i]'(hl ▸ hi))) := by simp
  rw [← this]
  exact List.getElem_mem _

theorem register_keep {g : Id} {ids : List Id} {lams : List Exp} {Γ : Labels} (hg : g ∉ ids) : params g (register ids lams Γ) = params g Γ := by
  refine params_new (fun p hp e => hg ?_)
  subst e
  have := (List.of_mem_zip (a := p.1) (b := p.2) (List.mem_reverse.1 hp)).1
  exact this

theorem loop_acc {x y : Id} {ps : List Id} {b : Exp} {es : List Exp} (ib : AccOK T f known k lab b) (ie : ∀ e ∈ es, AccOK T f known k lab e) : AccOK T f known k lab (.app (.fix [x] [.lam ps b] (.var y)) es) := by
  intro t xs ls Γ N h hl
  have hag := h.ag; have hsn := h.sn; have hcl := h.cl; have hnd := h.nd; have hfb := h.fb; have hlb := h.lb
  simp only [agStack, Bool.and_eq_true, decide_eq_true_eq] at hag
  simp only [sane, Bool.and_eq_true, decide_eq_true_eq] at hsn
  simp only [closed, Bool.and_eq_true] at hcl
  simp only [binders, bindersAll, List.append_nil] at hnd
  simp only [binders, bindersAll, List.append_nil, List.mem_append, not_or, List.mem_singleton] at hfb hlb
  obtain ⟨⟨⟨rfl, rfl⟩, he⟩, hb⟩ := hag
  have n1 := List.nodup_append.1 hnd
  have n2 := List.nodup_append.1 n1.1
  have n3 := List.nodup_append.1 n2.2.1
  have pg : ∀ g, g = f ∨ g ∈ x :: ls → ∃ qs, params g (register [x] [.lam ps b] Γ) = some qs := by
    intro g hg
    rw [List.mem_cons] at hg
    rcases hg with hg | hg | hg
    · exact params_old (h.pg g (.inl hg))
    · exact register_some rfl (by simp [hg])
    · exact params_old (h.pg g (.inr hg))
  have pf : (params f (register [x] [.lam ps b] Γ)).map List.length = some k := by
    rw [register_keep (by simpa using hfb.1.1)]; exact h.pf
  have hr := AccS.rands (xs := xs) (ls := x :: ls) he hsn.1.2 hcl.1.1 n1.2.1 hfb.2
    (fun g hg => by
      rcases List.mem_cons.1 hg with rfl | hg
      · exact fun h' => n1.2.2 g (by simp) g h' rfl
      · exact (hlb g hg).2) pg pf
  have hb : AccS f known k b true (ps ++ xs) (x :: ls) (register [x] [.lam ps b] Γ) := ⟨hb, hsn.2, hcl.1.2, n3.2.1, hfb.1.2.2,
    fun g hg => by
      rcases List.mem_cons.1 hg with rfl | hg
      · exact fun h' => n2.2.2 g (by simp) g (by simp [h']) rfl
      · exact (hlb g hg).1.2.2, pg, pf⟩
  have hl := hl rfl
  simp only [cgBody, if_true, gotoDone, labelDone, List.append_nil] at hl ⊢
  have hlx : lab (.id x) = true := by
    refine hl.fd x ?_
    rw [findLabel_block, Ne, none_append, none_append, none_cons]
    intro hx
    have := hx.2.2.1
    simp [findStmt] at this
  rw [okSs_one, okS, okSs_append, okSs_append, decl_none_acc, okSs, okS, Bool.true_and, Bool.true_and]
  simp only [Bool.and_eq_true]
  refine ⟨appCode_acc hr ie (pg x (by simp)) (fun _ => hlx) (fun ht => absurd rfl ht), ?_⟩
  refine ib .ret _ _ _ _ (by simpa using hb) (fun _ => ⟨fun g hg hg' => ?_, fun z hz => hl.fd z ?_⟩)
  · rw [List.mem_cons] at hg'
    rcases hg' with hg' | hg' | hg'
    · exact hl.tg g hg (.inl hg')
    · rw [hg']; exact hlx
    · exact hl.tg g hg (.inr hg')
  · rw [findLabel_block, Ne, none_append, none_append, none_cons]
    exact fun hx => hz hx.2.2.2

theorem tcLams_mem {g : Id} : ∀ {lams : List Exp} {ps : List Id} {b : Exp}, .lam ps b ∈ lams → tc g b = true → tcLams g lams = true
  | [], _, _, h, _ => by cases h
  | l :: lams, ps, b, h, ht => by
    rcases List.mem_cons.1 h with e | h
    · subst e; simp [tcLams, ht]
    · have := tcLams_mem h ht
      cases l <;> simp [tcLams, this]

theorem targetsLams_mem {ps : List Id} {b : Exp} : ∀ {lams : List Exp}, .lam ps b ∈ lams → targets b ⊆ targetsLams lams
  | [], h => by cases h
  | l :: lams, h => by
    rcases List.mem_cons.1 h with e | h
    · subst e; simp [targetsLams]
    · have := targetsLams_mem h
      cases l <;> simp [targetsLams, this]

/-- the labels of a group that are used are there. -/
theorem cgLams_label {u : Id → Bool} {d : Option Nat} {t : Tgt} {Γ : Labels} {g : Id} (hu : u g = true) : ∀ (ids : List Id) (lams : List Exp) (n : Nat), ids.length = lams.length →
    (∀ l ∈ lams, ∃ ps b, l = .lam ps b) → g ∈ ids → findLabel (.id g) (cgLams T f u d ids lams t Γ n).1 ≠ none
  | [], _, _, _, _, h => by cases h
  | _ :: _, [], _, h, _, _ => by simp at h
  | x :: ids, l :: lams, n, hl, hlam, hg => by
    obtain ⟨ps, b, rfl⟩ := hlam l (by simp)
    rw [cgLams]
    rcases List.mem_cons.1 hg with rfl | hg
    · rw [if_pos hu, Ne]
      simp only [List.cons_append]
      rw [none_cons]
      simp [findStmt]
    · split
      · rw [Ne, none_append]
        exact fun h => cgLams_label hu ids lams _ (by simpa using hl) (fun l h => hlam l (by simp [h])) hg h.2
      · exact cgLams_label hu ids lams _ (by simpa using hl) (fun l h => hlam l (by simp [h])) hg

/-- the code of a group. -/
theorem cgLams_acc {u : Id → Bool} {Γ : Labels} {xs ls : List Id} : ∀ (ids : List Id) (lams : List Exp) (n : Nat), 
    (∀ ps b, .lam ps b ∈ lams → AccOK T f known k lab b ∧ AccS f known k b true (ps ++ xs) ls Γ ∧ ∀ g ∈ targets b, g = f ∨ g ∈ ls → lab (.id g) = true) →
    (∀ x, findLabel (.id x) (cgLams T f u none ids lams .ret Γ n).1 ≠ none → lab (.id x) = true) → okSs k lab (cgLams T f u none ids lams .ret Γ n).1 = true
  | [], _, _, _, _ => by simp [cgLams, okSs]
  | _ :: _, [], _, _, _ => by simp [cgLams, okSs]
  | x :: ids, l :: lams, n, h, hf => by
    cases l with
    | lam ps b =>
      rw [cgLams] at hf ⊢
      split
      · rename_i hu
        rw [if_pos hu] at hf
        simp only [gotoDone, List.append_nil, List.cons_append] at hf ⊢
        have hb := h ps b (by simp)
        rw [okSs, okS, okSs_append, Bool.true_and]
        simp only [Bool.and_eq_true]
        refine ⟨hb.1 .ret _ _ _ _ (by simpa using hb.2.1) (fun _ => ⟨hb.2.2, fun z hz => hf z ?_⟩), cgLams_acc ids lams _ (fun ps b h' => h ps b (by simp [h'])) (fun z hz => hf z ?_)⟩
        · rw [Ne, none_cons, none_append]; exact fun h' => hz h'.2.1
        · rw [Ne, none_cons, none_append]; exact fun h' => hz h'.2.2
      · rename_i hu
        rw [if_neg hu] at hf
        exact cgLams_acc ids lams n (fun ps b h' => h ps b (by simp [h'])) hf
    | _ => simp [cgLams, okSs]

theorem fix_acc {ids : List Id} {lams : List Exp} {b : Exp} (ib : AccOK T f known k lab b) (il : ∀ ps b, .lam ps b ∈ lams → AccOK T f known k lab b) : AccOK T f known k lab (.fix ids lams b) := by
  intro t xs ls Γ N h hl
  have hag := h.ag; have hsn := h.sn; have hcl := h.cl; have hnd := h.nd; have hfb := h.fb; have hlb := h.lb
  simp only [agStack, Bool.and_eq_true] at hag
  simp only [sane, Bool.and_eq_true, decide_eq_true_eq] at hsn
  simp only [closed, Bool.and_eq_true] at hcl
  simp only [binders] at hnd
  simp only [binders, List.mem_append, not_or] at hfb hlb
  obtain ⟨⟨⟨rfl, hlen⟩, hsb⟩, hsl⟩ := hsn
  have n1 := List.nodup_append.1 hnd
  have n2 := List.nodup_append.1 n1.2.1
  have hlam := agLams_mem hag.2
  have hbl : ∀ g ps b', .lam ps b' ∈ lams → g ∉ bindersAll lams → g ∉ binders b' := fun g ps b' hm hg h' => hg (mem_bindersAll.2 ⟨_, hm, by simp [binders, h']⟩)
  have pg : ∀ g, g = f ∨ g ∈ ids ++ ls → ∃ qs, params g (register ids lams Γ) = some qs := by
    intro g hg
    rw [List.mem_append] at hg
    rcases hg with hg | hg | hg
    · exact params_old (h.pg g (.inl hg))
    · exact register_some hlen hg
    · exact params_old (h.pg g (.inr hg))
  have pf : (params f (register ids lams Γ)).map List.length = some k := by
    rw [register_keep hfb.1]; exact h.pf
  have hl := hl rfl
  simp only [cgBody, if_true, gotoDone, labelDone, List.append_nil] at hl ⊢
  have hlab : ∀ g ∈ ids, (g ∈ targets b ∨ ∃ ps b', .lam ps b' ∈ lams ∧ g ∈ targets b') → lab (.id g) = true := by
    intro g hg ht
    refine hl.fd g ?_
    rw [findLabel_block, Ne, none_append, none_append]
    intro hx
    refine cgLams_label (T := T) (f := f) ?_ ids lams _ hlen (fun l hl => by obtain ⟨ps, b, e, -⟩ := hlam l hl; exact ⟨ps, b, e⟩) hg hx.2.2
    rw [Bool.or_eq_true]
    rcases ht with ht | ⟨ps, b', hm, ht⟩
    · exact .inl (tc_targets g b hcl.1 ht (fun h' => n1.2.2 g hg g (by simp [h']) rfl))
    · exact .inr (tcLams_mem hm (tc_targets g b' (closedLams_mem hcl.2 _ _ hm) ht (hbl g ps b' hm (fun h' => n1.2.2 g hg g (by simp [h']) rfl))))
  rw [okSs_one, okS, okSs_append, okSs_append, decl_none_acc, Bool.true_and]
  simp only [Bool.and_eq_true]
  have hd : ∀ g ∈ ids ++ ls, g ∉ binders b ∧ g ∉ bindersAll lams := by
    intro g hg
    rcases List.mem_append.1 hg with hg | hg
    · exact ⟨fun h' => n1.2.2 g hg g (by simp [h']) rfl, fun h' => n1.2.2 g hg g (by simp [h']) rfl⟩
    · exact ⟨(hlb g hg).2.2, (hlb g hg).2.1⟩
  constructor
  · refine ib .ret xs (ids ++ ls) _ _ ⟨by simpa using hag.1, by simpa using hsb, hcl.1, n2.2.1, hfb.2.2, fun g hg => (hd g hg).1, pg, pf⟩ (fun _ => ⟨fun g hg hg' => ?_, fun z hz => hl.fd z ?_⟩)
    · rw [List.mem_append] at hg'
      rcases hg' with hg' | hg' | hg'
      · exact hl.tg g (by simp [targets, hg]) (.inl hg')
      · exact hlab g hg' (.inl hg)
      · exact hl.tg g (by simp [targets, hg]) (.inr hg')
    · rw [findLabel_block, Ne, none_append, none_append]; exact fun hx => hz hx.2.1
  · refine cgLams_acc (known := known) (xs := xs) (ls := ids ++ ls) ids lams _ (fun ps b' hm => ⟨il ps b' hm, ?_, fun g hg hg' => ?_⟩) (fun z hz => hl.fd z ?_)
    · obtain ⟨ps', b'', e, ha⟩ := hlam _ hm
      injection e with e1 e2; subst e1; subst e2
      have hnd' := nodup_bindersAll n2.1 _ hm
      simp only [binders] at hnd'
      exact ⟨ha, saneLams_mem hsl _ _ hm, closedLams_mem hcl.2 _ _ hm, (List.nodup_append.1 hnd').2.1, hbl f ps b' hm hfb.2.1, fun g hg => hbl g ps b' hm (hd g hg).2, pg, pf⟩
    · have hg2 : g ∈ targetsLams lams := targetsLams_mem hm hg
      rw [List.mem_append] at hg'
      rcases hg' with hg' | hg' | hg'
      · exact hl.tg g (by simp [targets, hg2]) (.inl hg')
      · exact hlab g hg' (.inr ⟨ps, b', hm, hg⟩)
      · exact hl.tg g (by simp [targets, hg2]) (.inr hg')
    · rw [findLabel_block, Ne, none_append, none_append]; exact fun hx => hz hx.2.2

/-- **The code for an expression is accepted.** -/
theorem body_acc : ∀ e : Exp, AccOK T f known k lab e
  | .var x => fun t xs ls Γ N h hl => by simp [cgBody, okSs, okS, okC]
  | .ite a b c => ite_acc (body_acc a) (body_acc b) (body_acc c)
  | .prim eff p es => prim_acc (fun e he => body_acc e)
  | .fix ids lams b => fix_acc (body_acc b) (fun ps b' h => body_acc b')
  | .app g es => by
    intro t xs ls Γ N h hl
    rcases ag_app h.ag with ⟨ids, b, hg⟩ | ⟨x, hg⟩ | ⟨x, ps, b, y, hg⟩
    · have hlt : sizeOf b < sizeOf g := by rw [hg]; simp; omega
      rw [hg] at h hl ⊢
      exact let_acc (body_acc b) (fun e he => body_acc e) t xs ls Γ N h hl
    · rw [hg] at h hl ⊢
      exact call_acc (fun e he => body_acc e) t xs ls Γ N h hl
    · have hlt : sizeOf b < sizeOf g := by rw [hg]; simp; omega
      rw [hg] at h hl ⊢
      exact loop_acc (body_acc b) (fun e he => body_acc e) t xs ls Γ N h hl
  | .set x e => fun t xs ls Γ N h hl => by have := h.ag; simp [agStack] at this
  | .lam ids b => fun t xs ls Γ N h hl => by have := h.ag; simp [agStack] at this
  | .letcc x b => fun t xs ls Γ N h hl => by have := h.ag; simp [agStack] at this
  | .withcc k e => fun t xs ls Γ N h hl => by have := h.ag; simp [agStack] at this
termination_by e => sizeOf e
decreasing_by
  all_goals simp_wf
  all_goals first
    | omega
    | (have := List.sizeOf_lt_of_mem he; omega)
    | (have := List.sizeOf_lt_of_mem h; simp at this; omega)

end

end Verif.Stackfn

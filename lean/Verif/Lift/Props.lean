import Verif.Lift.Extra
/-
C37, second part: after lambda lifting every lifted procedure is closed, and closures are created only by
applying lifted procedures to the extra variables.
-/
namespace Verif.Lift
open Verif.Core Verif.Sets

/-! ### specification -/

mutual
/-- Input of the pass: assignments to globals only, no `letcc`/`withcc`, parameters distinct, names of a group
distinct, binders of a group unique (no name or parameter of a procedure is reused in another procedure of the
group), all time stamps below `n`. -/
def Wf (n : Nat) : Exp → Prop
  | .var x => x.ts < n
  | .set x e => x.isGlobal = true ∧ Wf n e
  | .ite a b c => Wf n a ∧ Wf n b ∧ Wf n c
  | .prim _ _ es => WfAll n es
  | .app f es => Wf n f ∧ WfAll n es
  | .lam ids b => ids.Nodup ∧ (∀ x ∈ ids, x.ts < n) ∧ Wf n b
  | .fix ids ls b => (ids.Nodup ∧ ids.length = ls.length ∧
      ∀ ps c, .lam ps c ∈ ls → ∀ x ∈ ps, ∀ l ∈ ls, ¬ Free x l) ∧
      (∀ x ∈ ids, x.ts < n ∧ x.isGlobal = false) ∧ WfLams n ids ls ∧ Wf n b
  | .letcc _ _ => False
  | .withcc _ _ => False
/-- all expressions of a list. -/
def WfAll (n : Nat) : List Exp → Prop
  | [] => True
  | e :: es => Wf n e ∧ WfAll n es
/-- the procedures of a group. -/
def WfLams (n : Nat) (ids : List Id) : List Exp → Prop
  | [] => True
  | .lam ps b :: ls => (ps.Nodup ∧ (∀ x ∈ ps, x.ts < n ∧ x ∉ ids) ∧ Wf n b) ∧ WfLams n ids ls
  | _ :: _ => False
end

/-- An expression needs a variable: like a free occurrence, except that in `(let ([x (lambda …)] …) body)` the
lambda only counts if the body needs `x` (the next pass removes it otherwise). -/
inductive Needs : Id → Exp → Prop
  | var (x : Id) : Needs x (.var x)
  | setTarget (x : Id) (e : Exp) : Needs x (.set x e)
  | set {x : Id} (y : Id) {e : Exp} : Needs x e → Needs x (.set y e)
  | iteA {x : Id} {a : Exp} (b c : Exp) : Needs x a → Needs x (.ite a b c)
  | iteB {x : Id} (a : Exp) {b : Exp} (c : Exp) : Needs x b → Needs x (.ite a b c)
  | iteC {x : Id} (a b : Exp) {c : Exp} : Needs x c → Needs x (.ite a b c)
  | prim {x : Id} (eff : Effect) (p : PrimName) {es : List Exp} {e : Exp} : e ∈ es → Needs x e →
      Needs x (.prim eff p es)
  | letB {x : Id} {ids : List Id} {b : Exp} {es : List Exp} : ids.length = es.length → x ∉ ids → Needs x b →
      Needs x (.app (.lam ids b) es)
  | letA {x : Id} {ids : List Id} {b : Exp} {es : List Exp} {i : Nat} {y : Id} {e : Exp} :
      ids.length = es.length → ids[i]? = some y → es[i]? = some e →
      ((∃ ps c, e = .lam ps c) → Needs y b) → Needs x e → Needs x (.app (.lam ids b) es)
  | appF {x : Id} {f : Exp} {es : List Exp} : isLet (.app f es) = false → Needs x f → Needs x (.app f es)
  | appA {x : Id} {f : Exp} {es : List Exp} {e : Exp} : isLet (.app f es) = false → e ∈ es → Needs x e →
      Needs x (.app f es)
  | lam {x : Id} {ids : List Id} {b : Exp} : x ∉ ids → Needs x b → Needs x (.lam ids b)
  | fixL {x : Id} {ids : List Id} {ls : List Exp} (b : Exp) {l : Exp} : x ∉ ids → l ∈ ls → Needs x l →
      Needs x (.fix ids ls b)
  | fixB {x : Id} {ids : List Id} (ls : List Exp) {b : Exp} : x ∉ ids → Needs x b → Needs x (.fix ids ls b)
  | letcc {x y : Id} {b : Exp} : x ≠ y → Needs x b → Needs x (.letcc y b)
  | withccK {x : Id} {k : Exp} (e : Exp) : Needs x k → Needs x (.withcc k e)
  | withccE {x : Id} (k : Exp) {e : Exp} : Needs x e → Needs x (.withcc k e)

/-- Shape of lifted code: the only lambdas, apart from those of `let`, are closures over a lifted procedure,
which is called with the arguments of the closure followed by exactly its extra parameters. -/
inductive Lifted (top : List (Id × Exp)) : Exp → Prop
  | var (x : Id) : Lifted top (.var x)
  | set {x : Id} {e : Exp} : x.isGlobal = true → Lifted top e → Lifted top (.set x e)
  | ite {a b c : Exp} : Lifted top a → Lifted top b → Lifted top c → Lifted top (.ite a b c)
  | prim (eff : Effect) (p : PrimName) {es : List Exp} : (∀ e ∈ es, Lifted top e) → Lifted top (.prim eff p es)
  | letE {ids : List Id} {es : List Exp} {b : Exp} : ids.length = es.length → (∀ e ∈ es, Lifted top e) →
      Lifted top b → Lifted top (.app (.lam ids b) es)
  | app {f : Exp} {es : List Exp} : Lifted top f → (∀ e ∈ es, Lifted top e) → Lifted top (.app f es)
  | curry {t : Id} {ps args xs : List Id} {b : Exp} : (t, .lam (ps ++ xs) b) ∈ top → ps.length = args.length →
      args.Nodup → (∀ x ∈ xs, x ∉ args) → t ∉ args →
      Lifted top (.lam args (.app (.var t) (args.map .var ++ xs.map .var)))

/-- A lifted procedure is closed: it needs only its parameters, globals and lifted procedures. -/
def Closed (top : List (Id × Exp)) (p : Exp) : Prop :=
  ∃ ps c, p = .lam ps c ∧ ps.Nodup ∧ Lifted top c ∧
    ∀ x, Needs x c → x ∈ ps ∨ x.isGlobal = true ∨ x ∈ top.map Prod.fst

/-! ### lemmas -/

mutual
theorem wf_mono {n m : Nat} (h : n ≤ m) : (e : Exp) → Wf n e → Wf m e
  | .var x, w => by simp only [Wf] at w ⊢; omega
  | .set x e, w => by simp only [Wf] at w ⊢; exact ⟨w.1, wf_mono h e w.2⟩
  | .ite a b c, w => by
    simp only [Wf] at w ⊢; exact ⟨wf_mono h a w.1, wf_mono h b w.2.1, wf_mono h c w.2.2⟩
  | .prim _ _ es, w => by simp only [Wf] at w ⊢; exact wfAll_mono h es w
  | .app f es, w => by simp only [Wf] at w ⊢; exact ⟨wf_mono h f w.1, wfAll_mono h es w.2⟩
  | .lam ids b, w => by
    simp only [Wf] at w ⊢
    exact ⟨w.1, fun x hx => by have := w.2.1 x hx; omega, wf_mono h b w.2.2⟩
  | .fix ids ls b, w => by
    simp only [Wf] at w ⊢
    exact ⟨w.1, fun x hx => by have := w.2.1 x hx; exact ⟨by omega, this.2⟩, wfLams_mono h ids ls w.2.2.1,
      wf_mono h b w.2.2.2⟩
  | .letcc _ _, w => by simp only [Wf] at w
  | .withcc _ _, w => by simp only [Wf] at w
theorem wfAll_mono {n m : Nat} (h : n ≤ m) : (es : List Exp) → WfAll n es → WfAll m es
  | [], _ => by simp only [WfAll]
  | e :: es, w => by simp only [WfAll] at w ⊢; exact ⟨wf_mono h e w.1, wfAll_mono h es w.2⟩
theorem wfLams_mono {n m : Nat} (h : n ≤ m) (ids : List Id) : (ls : List Exp) → WfLams n ids ls → WfLams m ids ls
  | [], _ => by simp only [WfLams]
  | .lam ps b :: ls, w => by
    simp only [WfLams] at w ⊢
    exact ⟨⟨w.1.1, fun x hx => by have := w.1.2.1 x hx; exact ⟨by omega, this.2⟩, wf_mono h b w.1.2.2⟩,
      wfLams_mono h ids ls w.2⟩
  | .var _ :: _, w => by simp only [WfLams] at w
  | .set _ _ :: _, w => by simp only [WfLams] at w
  | .ite _ _ _ :: _, w => by simp only [WfLams] at w
  | .prim _ _ _ :: _, w => by simp only [WfLams] at w
  | .app _ _ :: _, w => by simp only [WfLams] at w
  | .fix _ _ _ :: _, w => by simp only [WfLams] at w
  | .letcc _ _ :: _, w => by simp only [WfLams] at w
  | .withcc _ _ :: _, w => by simp only [WfLams] at w
end

theorem global_lt {x : Id} {n : Nat} (h : x.isGlobal = true) : x.ts < n := by
  simp only [Id.isGlobal, decide_eq_true_eq] at h
  omega

mutual
theorem free_lt {n : Nat} {x : Id} : (e : Exp) → Wf n e → Free x e → x.ts < n
  | .var y, w, h => by cases h; simpa only [Wf] using w
  | .set y e, w, h => by
    simp only [Wf] at w
    cases h with
    | setTarget => exact global_lt w.1
    | set _ h => exact free_lt e w.2 h
  | .ite a b c, w, h => by
    simp only [Wf] at w
    cases h with
    | iteA _ _ h => exact free_lt a w.1 h
    | iteB _ _ h => exact free_lt b w.2.1 h
    | iteC _ _ h => exact free_lt c w.2.2 h
  | .prim _ _ es, w, h => by
    simp only [Wf] at w
    cases h with
    | prim _ _ he h => exact freeAll_lt es w _ he h
  | .app f es, w, h => by
    simp only [Wf] at w
    cases h with
    | appF _ h => exact free_lt f w.1 h
    | appA _ he h => exact freeAll_lt es w.2 _ he h
  | .lam ids b, w, h => by
    simp only [Wf] at w
    cases h with
    | lam _ h => exact free_lt b w.2.2 h
  | .fix ids ls b, w, h => by
    simp only [Wf] at w
    cases h with
    | fixL _ _ hl h => exact freeLams_lt ids ls w.2.2.1 _ hl h
    | fixB _ _ h => exact free_lt b w.2.2.2 h
  | .letcc _ _, w, _ => by simp only [Wf] at w
  | .withcc _ _, w, _ => by simp only [Wf] at w
theorem freeAll_lt {n : Nat} {x : Id} : (es : List Exp) → WfAll n es → ∀ e ∈ es, Free x e → x.ts < n
  | [], _ => by intro e he; cases he
  | e :: es, w => by
    simp only [WfAll] at w
    intro e' he'
    rcases List.mem_cons.mp he' with h | h
    · rw [h]; exact free_lt e w.1
    · exact freeAll_lt es w.2 e' h
theorem freeLams_lt {n : Nat} {x : Id} (ids : List Id) : (ls : List Exp) → WfLams n ids ls → ∀ l ∈ ls, Free x l → x.ts < n
  | [], _ => by intro e he; cases he
  | .lam ps b :: ls, w => by
    simp only [WfLams] at w
    intro e' he'
    rcases List.mem_cons.mp he' with h | h
    · rw [h]
      intro hf
      cases hf with
      | lam _ hf => exact free_lt b w.1.2.2 hf
    · exact freeLams_lt ids ls w.2 e' h
  | .var _ :: _, w => by simp only [WfLams] at w
  | .set _ _ :: _, w => by simp only [WfLams] at w
  | .ite _ _ _ :: _, w => by simp only [WfLams] at w
  | .prim _ _ _ :: _, w => by simp only [WfLams] at w
  | .app _ _ :: _, w => by simp only [WfLams] at w
  | .fix _ _ _ :: _, w => by simp only [WfLams] at w
  | .letcc _ _ :: _, w => by simp only [WfLams] at w
  | .withcc _ _ :: _, w => by simp only [WfLams] at w
end

/-- a well-formed group consists of lambdas. -/
theorem wfLams_get {n : Nat} {ids : List Id} : ∀ {ls : List Exp}, WfLams n ids ls → ∀ {i : Nat} {l : Exp}, ls[i]? = some l →
    ∃ ps b, l = .lam ps b ∧ ps.Nodup ∧ (∀ x ∈ ps, x.ts < n ∧ x ∉ ids) ∧ Wf n b := by
  intro ls
  induction ls with
  | nil => intro _ i l h; simp at h
  | cons e ls ih =>
    intro w i l h
    cases e with
    | lam ps b =>
      simp only [WfLams] at w
      cases i with
      | zero => simp at h; exact ⟨ps, b, h.symm, w.1⟩
      | succ i => exact ih w.2 (by simpa using h)
    | _ => simp only [WfLams] at w

theorem renameIds_spec (ids : List Id) (n : Nat) :
    (renameIds ids n).1.length = ids.length ∧ (renameIds ids n).2 = n + ids.length ∧
    (∀ x ∈ (renameIds ids n).1, ∃ m, x = lexId m ∧ n ≤ m) ∧ (renameIds ids n).1.Nodup := by
  induction ids generalizing n with
  | nil => simp [renameIds]
  | cons a ids ih =>
    obtain ⟨h1, h2, h3, h4⟩ := ih (n + 1)
    simp only [renameIds]
    refine ⟨by simp [h1], by simp only [List.length_cons]; omega, ?_, ?_⟩
    · intro x hx
      rcases List.mem_cons.mp hx with e | hx
      · exact ⟨n, e, Nat.le_refl n⟩
      · obtain ⟨m, hm, hl⟩ := h3 x hx; exact ⟨m, hm, by omega⟩
    · refine List.nodup_cons.mpr ⟨fun hx => ?_, h4⟩
      obtain ⟨m, hm, hl⟩ := h3 _ hx
      simp only [lexId, Id.mk.injEq, and_true] at hm
      omega

theorem labels_spec (ids : List Id) (n : Nat) :
    (labels ids n).1.length = ids.length ∧ (labels ids n).2 = n + ids.length ∧
    (∀ x ∈ (labels ids n).1, ∃ m, x = labelId m ∧ n ≤ m ∧ m < n + ids.length) ∧ (labels ids n).1.Nodup := by
  induction ids generalizing n with
  | nil => simp [labels]
  | cons a ids ih =>
    obtain ⟨h1, h2, h3, h4⟩ := ih (n + 1)
    simp only [labels]
    refine ⟨by simp [h1], by simp only [List.length_cons]; omega, ?_, ?_⟩
    · intro x hx
      rcases List.mem_cons.mp hx with e | hx
      · exact ⟨n, e, Nat.le_refl n, by simp⟩
      · obtain ⟨m, hm, hl⟩ := h3 x hx; exact ⟨m, hm, by omega, by simp only [List.length_cons]; omega⟩
    · refine List.nodup_cons.mpr ⟨fun hx => ?_, h4⟩
      obtain ⟨m, hm, hl⟩ := h3 _ hx
      simp only [labelId, Id.mk.injEq, and_true] at hm
      omega

/-- the group fits together: as many parameter lists, extra variables and labels as names; extra variables and
labels are older than `n`. -/
structure GroupWf (g : Group) (n : Nat) : Prop where
  lp : g.pss.length = g.ids.length
  lx : g.xss.length = g.ids.length
  lt : g.tids.length = g.ids.length
  xs : ∀ xs ∈ g.xss, ∀ x ∈ xs, x.ts < n
  ts : ∀ t ∈ g.tids, ∃ m, t = labelId m ∧ m < n

theorem GroupWf.mono {g n m} (h : GroupWf g n) (hm : n ≤ m) : GroupWf g m :=
  ⟨h.lp, h.lx, h.lt, fun xs hxs x hx => by have := h.xs xs hxs x hx; omega,
   fun t ht => by obtain ⟨k, e, hk⟩ := h.ts t ht; exact ⟨k, e, by omega⟩⟩

theorem curryLams_spec : ∀ (pss xss : List (List Id)) (ts : List Id) (n : Nat),
    pss.length = ts.length → xss.length = ts.length → (∀ xs ∈ xss, ∀ x ∈ xs, x.ts < n) →
    (∀ t ∈ ts, ∃ m, t = labelId m ∧ m < n) →
    (curryLams pss xss ts n).1.length = ts.length ∧ n ≤ (curryLams pss xss ts n).2 ∧
    ∀ (i : Nat) (c : Exp), (curryLams pss xss ts n).1[i]? = some c → ∃ (ps xs : List Id) (t : Id) (args : List Id), pss[i]? = some ps ∧ xss[i]? = some xs ∧
      ts[i]? = some t ∧ c = .lam args (.app (.var t) (args.map .var ++ xs.map .var)) ∧ ps.length = args.length ∧
      args.Nodup ∧ (∀ x ∈ xs, x ∉ args) ∧ t ∉ args := by
  intro pss
  induction pss with
  | nil =>
    intro xss ts n h1 h2 _ _
    have : ts = [] := List.eq_nil_of_length_eq_zero (by simpa using h1.symm)
    subst this
    refine ⟨by simp [curryLams], by simp [curryLams], ?_⟩
    intro i c h; simp [curryLams] at h
  | cons ps pss ih =>
    intro xss ts n h1 h2 h3 h4
    cases ts with
    | nil => simp at h1
    | cons t ts =>
      cases xss with
      | nil => simp at h2
      | cons xs xss =>
        obtain ⟨r1, r2, r3, r4⟩ := renameIds_spec ps n
        simp only [curryLams, curryLam]
        obtain ⟨i1, i2, i3⟩ := ih xss ts (renameIds ps n).2 (by simpa using h1) (by simpa using h2)
          (fun xs' hxs' x hx => by have := h3 xs' (List.mem_cons_of_mem _ hxs') x hx; omega)
          (fun t' ht' => by
            obtain ⟨m, e, hm⟩ := h4 t' (List.mem_cons_of_mem _ ht'); exact ⟨m, e, by omega⟩)
        refine ⟨by simp [i1], by omega, ?_⟩
        intro i c h
        cases i with
        | zero =>
          simp only [List.getElem?_cons_zero, Option.some.injEq] at h
          refine ⟨ps, xs, t, (renameIds ps n).1, rfl, rfl, rfl, h.symm, r1.symm, r4, ?_, ?_⟩
          · intro x hx hxa
            obtain ⟨m, e, hm⟩ := r3 x hxa
            have := h3 xs List.mem_cons_self x hx
            rw [e] at this
            simp only [lexId] at this
            omega
          · intro hxa
            obtain ⟨m, e, hm⟩ := r3 t hxa
            obtain ⟨k, e', _⟩ := h4 t List.mem_cons_self
            rw [e'] at e
            simp [labelId, lexId] at e
        | succ i => exact i3 i c (by simpa using h)

/-- what a closure over a lifted procedure needs. -/
theorem needs_curry {x t : Id} {args xs : List Id}
    (h : Needs x (.lam args (.app (.var t) (args.map .var ++ xs.map .var)))) : x = t ∨ x ∈ xs := by
  cases h with
  | lam hn h =>
    cases h with
    | appF _ h => cases h; exact Or.inl rfl
    | appA _ he h =>
      rcases List.mem_append.mp he with he | he
      · obtain ⟨y, hy, rfl⟩ := List.mem_map.mp he
        cases h
        exact absurd hy hn
      · obtain ⟨y, hy, rfl⟩ := List.mem_map.mp he
        cases h
        exact Or.inr hy

/-- needs of a `let` binding closures over lifted procedures. -/
theorem needs_group {g : Group} {n : Nat} (hg : GroupWf g n) {b : Exp} {x : Id}
    (h : Needs x (letExp g.ids (curryLams g.pss g.xss g.tids n).1 b)) :
    (x ∉ g.ids ∧ Needs x b) ∨ (∃ (i : Nat) (y t : Id) (xs : List Id), g.ids[i]? = some y ∧ Needs y b ∧ g.tids[i]? = some t ∧
      g.xss[i]? = some xs ∧ (x = t ∨ x ∈ xs)) := by
  obtain ⟨c1, _, c3⟩ := curryLams_spec g.pss g.xss g.tids n (hg.lp.trans hg.lt.symm) (hg.lx.trans hg.lt.symm) hg.xs hg.ts
  have hl : isLet (.app (.lam g.ids b) (curryLams g.pss g.xss g.tids n).1) = true := by
    simp [isLet, c1, hg.lt]
  unfold letExp at h
  cases h with
  | letB _ hn h => exact Or.inl ⟨hn, h⟩
  | letA _ hi he hlam h =>
    obtain ⟨ps, xs, t, args, _, hxs, ht, rfl, _⟩ := c3 _ _ he
    exact Or.inr ⟨_, _, t, xs, hi, hlam ⟨_, _, rfl⟩, ht, hxs, needs_curry h⟩
  | appF hf _ => rw [hl] at hf; cases hf
  | appA hf _ _ => rw [hl] at hf; cases hf

/-- every member of the group has been lifted. -/
def GroupIn (g : Group) (top : List (Id × Exp)) : Prop :=
  ∀ (i : Nat) (t : Id) (ps xs : List Id), g.tids[i]? = some t → g.pss[i]? = some ps → g.xss[i]? = some xs → ∃ b, (t, Exp.lam (ps ++ xs) b) ∈ top

theorem lifted_group {g : Group} {n : Nat} (hg : GroupWf g n) {b : Exp} {top : List (Id × Exp)} (hb : Lifted top b)
    (ht : GroupIn g top) : Lifted top (letExp g.ids (curryLams g.pss g.xss g.tids n).1 b) := by
  obtain ⟨c1, _, c3⟩ := curryLams_spec g.pss g.xss g.tids n (hg.lp.trans hg.lt.symm) (hg.lx.trans hg.lt.symm) hg.xs hg.ts
  refine .letE (by rw [c1, hg.lt]) (fun e he => ?_) hb
  obtain ⟨i, hi⟩ := List.getElem?_of_mem he
  obtain ⟨ps, xs, t, args, hps, hxs, htt, rfl, hl, hnd, hx, hta⟩ := c3 i e hi
  obtain ⟨b', hb'⟩ := ht i t ps xs htt hps hxs
  exact .curry hb' hl hnd hx hta

/-- the outcome of lifting an expression. -/
structure Ok (P : Id → Prop) (s : LSt) (needs : Id → Prop) (lifted : List (Id × Exp) → Prop) (s' : LSt) : Prop where
  mono : s.next ≤ s'.next
  ext : ∃ new, s'.top = new ++ s.top ∧ (new.map Prod.fst).Nodup ∧
    (∀ t ∈ new.map Prod.fst, ∃ m, t = labelId m ∧ s.next ≤ m ∧ m < s'.next) ∧
    (∀ x, needs x → P x ∨ x ∈ new.map Prod.fst) ∧
    ∀ top : List (Id × Exp), (∀ p ∈ s'.top, p ∈ top) → lifted top ∧ ∀ p ∈ new, Closed top p.2

theorem Ok.refl {P : Id → Prop} {s : LSt} {needs : Id → Prop} {lifted : List (Id × Exp) → Prop} (h : ∀ x, needs x → P x)
    (hl : ∀ top, lifted top) : Ok P s needs lifted s :=
  ⟨Nat.le_refl _, [], rfl, List.nodup_nil, (fun t ht => by cases ht), (fun x hx => Or.inl (h x hx)),
   (fun top _ => ⟨hl top, (fun p hp => by cases hp)⟩)⟩

/-- two steps in sequence. -/
theorem Ok.seq {P Q R : Id → Prop} {s s1 s2 : LSt} {n1 n2 n3 : Id → Prop} {l1 l2 l3 : List (Id × Exp) → Prop}
    (h1 : Ok P s n1 l1 s1) (h2 : Ok Q s1 n2 l2 s2)
    (hn : ∀ (N : Id → Prop), (∀ x, n1 x → P x ∨ N x) → (∀ x, n2 x → Q x ∨ N x) → ∀ x, n3 x → R x ∨ N x)
    (hl : ∀ top, l1 top → l2 top → l3 top) : Ok R s n3 l3 s2 := by
  obtain ⟨m1, new1, e1, d1, f1, a1, b1⟩ := h1
  obtain ⟨m2, new2, e2, d2, f2, a2, b2⟩ := h2
  refine ⟨Nat.le_trans m1 m2, new2 ++ new1, by rw [e2, e1, List.append_assoc], ?_, ?_, ?_, ?_⟩
  · rw [List.map_append]
    refine List.nodup_append.mpr ⟨d2, d1, fun t ht u hu e => ?_⟩
    obtain ⟨m, hm, hl, _⟩ := f2 t ht
    obtain ⟨k, hk, _, hk'⟩ := f1 u hu
    rw [hm, hk] at e
    simp only [labelId, Id.mk.injEq, and_true] at e
    omega
  · intro t ht
    rw [List.map_append] at ht
    rcases List.mem_append.mp ht with ht | ht
    · obtain ⟨m, hm, hl, hh⟩ := f2 t ht; exact ⟨m, hm, by omega, hh⟩
    · obtain ⟨m, hm, hl, hh⟩ := f1 t ht; exact ⟨m, hm, hl, by omega⟩
  · intro x hx
    refine hn (fun x => x ∈ (new2 ++ new1).map Prod.fst) (fun x hx => ?_) (fun x hx => ?_) x hx
    · rcases a1 x hx with h | h
      · exact Or.inl h
      · right; rw [List.map_append]; exact List.mem_append.mpr (Or.inr h)
    · rcases a2 x hx with h | h
      · exact Or.inl h
      · right; rw [List.map_append]; exact List.mem_append.mpr (Or.inl h)
  · intro top ht
    have hs1 : ∀ p ∈ s1.top, p ∈ top := fun p hp => ht p (by rw [e2]; exact List.mem_append.mpr (Or.inr hp))
    obtain ⟨q1, q2⟩ := b1 top hs1
    obtain ⟨q3, q4⟩ := b2 top ht
    refine ⟨hl top q1 q3, fun p hp => ?_⟩
    rcases List.mem_append.mp hp with hp | hp
    · exact q4 p hp
    · exact q2 p hp

theorem Ok.weaken {P R : Id → Prop} {s s1 : LSt} {n1 n3 : Id → Prop} {l1 l3 : List (Id × Exp) → Prop}
    (h1 : Ok P s n1 l1 s1) (hn : ∀ x, n3 x → n1 x) (hp : ∀ x, n3 x → P x → R x)
    (hl : ∀ top, l1 top → l3 top) : Ok R s n3 l3 s1 := by
  obtain ⟨m1, new1, e1, d1, f1, a1, b1⟩ := h1
  refine ⟨m1, new1, e1, d1, f1, fun x hx => ?_, fun top ht => ⟨hl top (b1 top ht).1, (b1 top ht).2⟩⟩
  rcases a1 x (hn x hx) with h | h
  · exact Or.inl (hp x hx h)
  · exact Or.inr h

/-- extra variables of a group of lambdas. -/
theorem extraVars_spec (ids : List Id) (lams : List Exp) (hi : ids.Nodup) :
    (extraVars ids lams).length = lams.length ∧ (∀ i, ((extraVars ids lams).getD i []).Nodup) ∧
    ∀ i x, x ∈ (extraVars ids lams).getD i [] ↔ Needed ids (lams.map freeLexvars) i x := by
  obtain ⟨av, e, h1, h2, h3⟩ := c37_extra_vars ids (lams.map freeLexvars) hi
    (fun f hf => by obtain ⟨l, _, rfl⟩ := List.mem_map.mp hf; exact (c47_free_lexvars ⟨0, false⟩ l).2)
    (evBudget (lams.map freeLexvars)) (Nat.le_refl _)
  unfold extraVars
  rw [e]
  exact ⟨by simpa using h1, h2, h3⟩

theorem needed_free {ids : List Id} {lams : List Exp} {i : Nat} {x : Id} (h : Needed ids (lams.map freeLexvars) i x) :
    x ∉ ids ∧ ∃ l ∈ lams, Free x l := by
  induction h with
  | own hf hx hn =>
    rw [List.getElem?_map] at hf
    obtain ⟨l, hl, rfl⟩ := Option.map_eq_some_iff.mp hf
    exact ⟨hn, l, List.mem_of_getElem? hl, ((c47_free_lexvars _ l).1.1 hx).2⟩
  | call _ _ _ _ ih => exact ih

theorem getD_of_getElem? {l : List (List Id)} {i : Nat} {xs : List Id} (h : l[i]? = some xs) : l.getD i [] = xs := by
  rw [List.getD_eq_getElem?_getD, h]; rfl

theorem isLet_other {f : Exp} {es : List Exp} (h : ∀ ids b, f ≠ .lam ids b) : isLet (.app f es) = false := by
  cases f <;> first | rfl | exact absurd rfl (h _ _)

/-- the body of a lifted procedure, wrapped in the closures of its group, needs only its parameters. -/
theorem floatOne_ok {g : Group} {lams : List Exp} {ps : List Id} {b : Exp} {i : Nat} {xs : List Id} {t : Id}
    (hids : g.ids.Nodup) (hxss : g.xss = extraVars g.ids lams) (hl : lams[i]? = some (.lam ps b))
    (hps : ps.Nodup) (hpi : ∀ x ∈ ps, x ∉ g.ids)
    (hpf : ∀ x ∈ ps, ∀ l ∈ lams, ¬ Free x l)
    (hxs : g.xss[i]? = some xs) {s s' : LSt} {b' : Exp}
    (hw : ∀ x ∈ g.ids, x.ts < s.next ∧ x.isGlobal = false)
    (hg : GroupWf g s.next)
    (h : Ok (fun x => Free x b) s (fun x => Needs x b') (fun top => Lifted top b') s') :
    ∃ e n', floatOne g ps xs t b' s' = ⟨n', (t, e) :: s'.top⟩ ∧ s'.next ≤ n' ∧ (∃ c, e = .lam (ps ++ xs) c) ∧
      ∀ top : List (Id × Exp), (∀ p ∈ (t, e) :: s'.top, p ∈ top) → GroupIn g top → (∀ t ∈ g.tids, t ∈ top.map Prod.fst) →
        Closed top e := by
  obtain ⟨m1, new, e1, d1, f1, a1, b1⟩ := h
  have hg' := hg.mono m1
  obtain ⟨q1, q2, q3⟩ := extraVars_spec g.ids lams hids
  have hxg : xs = (extraVars g.ids lams).getD i [] := by rw [← hxss]; exact (getD_of_getElem? hxs).symm
  have hxin : ∀ x, x ∈ xs ↔ Needed g.ids (lams.map freeLexvars) i x := fun x => by rw [hxg]; exact q3 i x
  obtain ⟨_, c2, _⟩ := curryLams_spec g.pss g.xss g.tids s'.next (hg'.lp.trans hg'.lt.symm) (hg'.lx.trans hg'.lt.symm) hg'.xs hg'.ts
  have hfi : (lams.map freeLexvars)[i]? = some (freeLexvars (.lam ps b)) := by rw [List.getElem?_map, hl]; rfl
  refine ⟨_, _, rfl, c2, ⟨_, rfl⟩, ?_⟩
  intro top htop hgi htids
  have hs' : ∀ p ∈ s'.top, p ∈ top := fun p hp => htop p (List.mem_cons_of_mem _ hp)
  refine ⟨_, _, rfl, ?_, lifted_group hg' (b1 top hs').1 hgi, ?_⟩
  · refine List.nodup_append.mpr ⟨hps, by rw [hxg]; exact q2 i, fun x hx y hy e => ?_⟩
    subst e
    obtain ⟨_, l, hl', hf⟩ := needed_free ((hxin x).1 hy)
    exact hpf x hx l hl' hf
  · intro x hx
    have hnew : ∀ y, y ∈ new.map Prod.fst → y ∈ top.map Prod.fst := by
      intro y hy
      obtain ⟨p, hp, rfl⟩ := List.mem_map.mp hy
      exact List.mem_map.mpr ⟨p, hs' p (by rw [e1]; exact List.mem_append.mpr (Or.inl hp)), rfl⟩
    rcases needs_group hg' hx with ⟨hn, hb⟩ | ⟨j, y, t', xs', hj, hy, ht', hxs', hx'⟩
    · rcases a1 x hb with hf | hnw
      · by_cases hp : x ∈ ps
        · exact Or.inl (List.mem_append.mpr (Or.inl hp))
        · cases hgl : x.isGlobal with
          | true => exact Or.inr (Or.inl rfl)
          | false =>
            left
            refine List.mem_append.mpr (Or.inr ((hxin x).2 (.own hfi ?_ hn)))
            exact (c47_free_lexvars x _).1.2 ⟨hgl, .lam hp hf⟩
      · exact Or.inr (Or.inr (hnew x hnw))
    · rcases hx' with rfl | hx'
      · exact Or.inr (Or.inr (htids _ (List.mem_of_getElem? ht')))
      · rcases a1 y hy with hf | hnw
        · have hyi := List.mem_of_getElem? hj
          by_cases hp : y ∈ ps
          · exact absurd hyi (hpi y hp)
          · left
            refine List.mem_append.mpr (Or.inr ((hxin x).2 (.call hfi hj ?_ ?_)))
            · refine (c47_free_lexvars y _).1.2 ⟨(hw y hyi).2, .lam hp hf⟩
            · rw [← getD_of_getElem? hxs', hxss, q3] at hx'
              exact hx'
        · obtain ⟨m', e, hm', _⟩ := f1 y hnw
          have := (hw y (List.mem_of_getElem? hj)).1
          rw [e] at this
          simp only [labelId] at this
          omega

/-- the outcome of lifting the procedures of a group. -/
structure LamsRes (g : Group) (ls : List Exp) (xss : List (List Id)) (ts : List Id) (s s' : LSt) : Prop where
  mono : s.next ≤ s'.next
  ext : ∃ new, s'.top = new ++ s.top ∧ (new.map Prod.fst).Nodup ∧
    (∀ t ∈ new.map Prod.fst, t ∈ ts ∨ ∃ m, t = labelId m ∧ s.next ≤ m ∧ m < s'.next) ∧
    (∀ (i : Nat) (l : Exp) (xs : List Id) (t : Id), ls[i]? = some l → xss[i]? = some xs → ts[i]? = some t →
      ∃ b, (t, Exp.lam (params l ++ xs) b) ∈ new) ∧
    ∀ top : List (Id × Exp), (∀ p ∈ s'.top, p ∈ top) → GroupIn g top → (∀ t ∈ g.tids, t ∈ top.map Prod.fst) →
      ∀ p ∈ new, Closed top p.2

theorem LamsRes.nil (g : Group) (xss : List (List Id)) (ts : List Id) (s : LSt) : LamsRes g [] xss ts s s :=
  ⟨Nat.le_refl _, [], rfl, List.nodup_nil, (fun t ht => by cases ht), (fun i l xs t h => by simp at h),
   (fun _ _ _ _ p hp => by cases hp)⟩

theorem LamsRes.cons {g : Group} {lams : List Exp} {ps : List Id} {b : Exp} {i : Nat} {xs : List Id} {t : Id}
    (hids : g.ids.Nodup) (hxss : g.xss = extraVars g.ids lams) (hl : lams[i]? = some (.lam ps b))
    (hps : ps.Nodup) (hpi : ∀ x ∈ ps, x ∉ g.ids) (hpf : ∀ x ∈ ps, ∀ l ∈ lams, ¬ Free x l)
    (hxs : g.xss[i]? = some xs) {s s1 s' : LSt} {b' : Exp}
    (hw : ∀ x ∈ g.ids, x.ts < s.next ∧ x.isGlobal = false)
    (hg : GroupWf g s.next)
    (h : Ok (fun x => Free x b) s (fun x => Needs x b') (fun top => Lifted top b') s1)
    {ls : List Exp} {xss : List (List Id)} {ts : List Id} (hnd : (t :: ts).Nodup)
    (hlab : ∀ u ∈ t :: ts, ∃ m, u = labelId m ∧ m < s.next)
    (h2 : LamsRes g ls xss ts (floatOne g ps xs t b' s1) s') :
    LamsRes g (.lam ps b :: ls) (xs :: xss) (t :: ts) s s' := by
  obtain ⟨e, n', ef, hn', ⟨c, rfl⟩, hcl⟩ := floatOne_ok (t := t) hids hxss hl hps hpi hpf hxs hw hg h
  rw [ef] at h2
  obtain ⟨m1, new1, e1, d1, f1, _, b1⟩ := h
  obtain ⟨m2, new2, e2, d2, f2, a2, b2⟩ := h2
  simp only at m2 e2 f2
  obtain ⟨mt, rfl, hmt⟩ := hlab t List.mem_cons_self
  refine ⟨by omega, new2 ++ ((labelId mt, .lam (ps ++ xs) c) :: new1), ?_, ?_, ?_, ?_, ?_⟩
  · rw [e2, e1]; simp
  · rw [List.map_append, List.map_cons]
    refine List.nodup_append.mpr ⟨d2, List.nodup_cons.mpr ⟨fun ht => ?_, d1⟩, fun u hu v hv e => ?_⟩
    · obtain ⟨k, ek, hk, _⟩ := f1 _ ht
      simp only [labelId, Id.mk.injEq, and_true] at ek
      omega
    · subst e
      have hv' : (∃ m, u = labelId m ∧ s.next ≤ m ∧ m < s1.next) ∨ u = labelId mt := by
        rcases List.mem_cons.mp hv with e | hv
        · exact Or.inr e
        · exact Or.inl (f1 u hv)
      rcases f2 u hu with hu | ⟨k, ek, hk, _⟩
      · rcases hv' with ⟨m, em, hm, _⟩ | em
        · obtain ⟨k, ek, hk⟩ := hlab u (List.mem_cons_of_mem _ hu)
          rw [em] at ek
          simp only [labelId, Id.mk.injEq, and_true] at ek
          omega
        · rw [em] at hu
          exact (List.nodup_cons.mp hnd).1 hu
      · rcases hv' with ⟨m, em, hm, _⟩ | em
        · rw [em] at ek
          simp only [labelId, Id.mk.injEq, and_true] at ek
          omega
        · rw [em] at ek
          simp only [labelId, Id.mk.injEq, and_true] at ek
          omega
  · intro u hu
    rw [List.map_append, List.map_cons] at hu
    rcases List.mem_append.mp hu with hu | hu
    · rcases f2 u hu with hu | ⟨k, ek, hk, hk'⟩
      · exact Or.inl (List.mem_cons_of_mem _ hu)
      · exact Or.inr ⟨k, ek, by omega, hk'⟩
    · rcases List.mem_cons.mp hu with e | hu
      · exact Or.inl (by rw [e]; exact List.mem_cons_self)
      · obtain ⟨k, ek, hk, hk'⟩ := f1 u hu
        exact Or.inr ⟨k, ek, hk, by omega⟩
  · intro j l ys u hj hy hu
    cases j with
    | zero =>
      simp only [List.getElem?_cons_zero, Option.some.injEq] at hj hy hu
      subst hj; subst hy; subst hu
      exact ⟨c, by simp [params]⟩
    | succ j =>
      obtain ⟨b, hb⟩ := a2 j l ys u (by simpa using hj) (by simpa using hy) (by simpa using hu)
      exact ⟨b, List.mem_append.mpr (Or.inl hb)⟩
  · intro top ht hgi htids p hp
    rcases List.mem_append.mp hp with hp | hp
    · exact b2 top ht hgi htids p hp
    · have hsub : ∀ q ∈ (labelId mt, Exp.lam (ps ++ xs) c) :: s1.top, q ∈ top := fun q hq =>
        ht q (by rw [e2]; exact List.mem_append.mpr (Or.inr hq))
      rcases List.mem_cons.mp hp with rfl | hp
      · exact hcl top hsub hgi htids
      · exact (b1 top (fun q hq => hsub q (List.mem_cons_of_mem _ hq))).2 p hp

/-- putting a group together. -/
theorem group_ok {ids : List Id} {lams : List Exp} {body body' : Exp} {s s1 s2 : LSt}
    (hids : ids.Nodup) (hlen : ids.length = lams.length) 
    (hfree : ∀ l ∈ lams, ∀ x, Free x l → x.ts < s.next)
    (hL : LamsRes ⟨ids, lams.map params, extraVars ids lams, (labels ids s.next).1⟩ lams (extraVars ids lams)
      (labels ids s.next).1 ⟨(labels ids s.next).2, s.top⟩ s1)
    (hB : Ok (fun x => Free x body) s1 (fun x => Needs x body') (fun top => Lifted top body') s2)
    :
    Ok (fun x => Free x (.fix ids lams body)) s
      (fun x => Needs x (closeGroup ⟨ids, lams.map params, extraVars ids lams, (labels ids s.next).1⟩ body' s2).1)
      (fun top => Lifted top (closeGroup ⟨ids, lams.map params, extraVars ids lams, (labels ids s.next).1⟩ body' s2).1)
      (closeGroup ⟨ids, lams.map params, extraVars ids lams, (labels ids s.next).1⟩ body' s2).2 := by
  obtain ⟨q1, q2, q3⟩ := extraVars_spec ids lams hids
  obtain ⟨l1, l2, l3, l4⟩ := labels_spec ids s.next
  generalize hgdef : (⟨ids, lams.map params, extraVars ids lams, (labels ids s.next).1⟩ : Group) = g at hL ⊢
  have hgi : g.ids = ids := by rw [← hgdef]
  have hgp : g.pss = lams.map params := by rw [← hgdef]
  have hgx : g.xss = extraVars ids lams := by rw [← hgdef]
  have hgt : g.tids = (labels ids s.next).1 := by rw [← hgdef]
  have hxneed : ∀ xs ∈ g.xss, ∀ x ∈ xs, x ∉ ids ∧ ∃ l ∈ lams, Free x l := by
    intro xs hxs x hx
    rw [hgx] at hxs
    obtain ⟨i, hi⟩ := List.getElem?_of_mem hxs
    rw [← getD_of_getElem? hi, q3] at hx
    exact needed_free hx
  have hg : GroupWf g (labels ids s.next).2 := by
    refine ⟨by rw [hgp, hgi]; simp [hlen], by rw [hgx, hgi, q1, hlen], by rw [hgt, hgi, l1], ?_, ?_⟩
    · intro xs hxs x hx
      obtain ⟨_, l, hl, hf⟩ := hxneed xs hxs x hx
      have := hfree l hl x hf
      rw [l2]
      omega
    · intro t ht
      rw [hgt] at ht
      obtain ⟨m, e, _, hm⟩ := l3 t ht
      exact ⟨m, e, by rw [l2]; exact hm⟩
  obtain ⟨m1, new1, e1, d1, f1, a1, b1⟩ := hL
  obtain ⟨m2, new2, e2, d2, f2, a2, b2⟩ := hB
  simp only at m1 e1 f1
  rw [l2] at m1 f1
  have hg2 : GroupWf g s2.next := hg.mono (by rw [l2]; omega)
  obtain ⟨_, c2, _⟩ := curryLams_spec g.pss g.xss g.tids s2.next (hg2.lp.trans hg2.lt.symm) (hg2.lx.trans hg2.lt.symm) hg2.xs hg2.ts
  have hgin : ∀ top : List (Id × Exp), (∀ p ∈ s2.top, p ∈ top) → GroupIn g top := by
    intro top ht i t ps xs hti hpi hxi
    rw [hgt] at hti; rw [hgp, List.getElem?_map] at hpi; rw [hgx] at hxi
    obtain ⟨l, hl, rfl⟩ := Option.map_eq_some_iff.mp hpi
    obtain ⟨b, hb⟩ := a1 i l xs t hl hxi hti
    exact ⟨b, ht _ (by rw [e2, e1]; simp [hb])⟩
  have htin : ∀ t ∈ g.tids, t ∈ new1.map Prod.fst := by
    intro t ht
    obtain ⟨i, hi⟩ := List.getElem?_of_mem ht
    have hli : i < lams.length := by
      have := (List.getElem?_eq_some_iff.mp hi).1
      rw [hg.lt, hgi, hlen] at this
      exact this
    have hxi : i < (extraVars ids lams).length := by rw [q1]; exact hli
    rw [hgt] at hi
    obtain ⟨b, hb⟩ := a1 i _ _ t (List.getElem?_eq_getElem hli) (List.getElem?_eq_getElem hxi) hi
    exact List.mem_map.mpr ⟨_, hb, rfl⟩
  simp only [closeGroup]
  refine ⟨by simp only; omega, new2 ++ new1, by simp only [e2, e1, List.append_assoc], ?_, ?_, ?_, ?_⟩
  · rw [List.map_append]
    refine List.nodup_append.mpr ⟨d2, d1, fun u hu v hv e => ?_⟩
    subst e
    obtain ⟨k, ek, hk, _⟩ := f2 u hu
    rcases f1 u hv with hv | ⟨m, em, hm, hm'⟩
    · obtain ⟨m, em, _, hm⟩ := l3 u hv
      rw [em] at ek
      simp only [labelId, Id.mk.injEq, and_true] at ek
      omega
    · rw [em] at ek
      simp only [labelId, Id.mk.injEq, and_true] at ek
      omega
  · intro u hu
    rw [List.map_append] at hu
    simp only
    rcases List.mem_append.mp hu with hu | hu
    · obtain ⟨k, ek, hk, hk'⟩ := f2 u hu
      exact ⟨k, ek, by omega, by omega⟩
    · rcases f1 u hu with hu | ⟨m, em, hm, hm'⟩
      · obtain ⟨m, em, hm, hm'⟩ := l3 u hu
        exact ⟨m, em, by omega, by omega⟩
      · exact ⟨m, em, by omega, by omega⟩
  · intro x hx
    rw [List.map_append]
    rcases needs_group hg2 hx with ⟨hn, hb⟩ | ⟨j, y, t, xs, hj, hy, ht, hxs, hx⟩
    · rcases a2 x hb with hf | hf
      · exact Or.inl (.fixB _ (by rw [← hgi]; exact hn) hf)
      · exact Or.inr (List.mem_append.mpr (Or.inl hf))
    · rcases hx with rfl | hx
      · exact Or.inr (List.mem_append.mpr (Or.inr (htin _ (List.mem_of_getElem? ht))))
      · obtain ⟨hn, l, hl, hf⟩ := hxneed xs (List.mem_of_getElem? hxs) x hx
        exact Or.inl (.fixL _ hn hl hf)
  · intro top ht
    simp only at ht
    have hs1 : ∀ p ∈ s1.top, p ∈ top := fun p hp => ht p (by rw [e2]; exact List.mem_append.mpr (Or.inr hp))
    have hgi' := hgin top ht
    refine ⟨lifted_group hg2 (b2 top ht).1 hgi', fun p hp => ?_⟩
    rcases List.mem_append.mp hp with hp | hp
    · exact (b2 top ht).2 p hp
    · refine b1 top hs1 hgi' (fun t ht' => ?_) p hp
      obtain ⟨q, hq, rfl⟩ := List.mem_map.mp (htin t ht')
      exact List.mem_map.mpr ⟨q, hs1 q (by rw [e1]; exact List.mem_append.mpr (Or.inl hq)), rfl⟩

theorem needs_app {x : Id} {f : Exp} {es : List Exp} (h : Needs x (.app f es)) :
    Needs x f ∨ ∃ e ∈ es, Needs x e := by
  cases h with
  | letB _ hn h => exact Or.inl (.lam hn h)
  | letA _ _ he _ h => exact Or.inr ⟨_, List.mem_of_getElem? he, h⟩
  | appF _ h => exact Or.inl h
  | appA _ he h => exact Or.inr ⟨_, he, h⟩

theorem app_ok {f f' : Exp} {es es' : List Exp} {s s1 s2 : LSt}
    (h1 : Ok (fun x => Free x f) s (fun x => Needs x f') (fun top => Lifted top f') s1)
    (h2 : Ok (fun x => ∃ e ∈ es, Free x e) s1 (fun x => ∃ e ∈ es', Needs x e) (fun top => ∀ e ∈ es', Lifted top e) s2) :
    Ok (fun x => Free x (.app f es)) s (fun x => Needs x (.app f' es')) (fun top => Lifted top (.app f' es')) s2 := by
  refine Ok.seq h1 h2 (fun N hN1 hN2 x hx => ?_) (fun top a b => .app a b)
  rcases needs_app hx with h | h
  · rcases hN1 x h with h | h
    · exact Or.inl (.appF _ h)
    · exact Or.inr h
  · rcases hN2 x h with ⟨e, he, h⟩ | h
    · exact Or.inl (.appA _ he h)
    · exact Or.inr h

theorem let_ok {ids : List Id} {b b' : Exp} {es es' : List Exp} {s s1 s2 : LSt} (hl : ids.length = es'.length)
    (h1 : Ok (fun x => ∃ e ∈ es, Free x e) s (fun x => ∃ e ∈ es', Needs x e) (fun top => ∀ e ∈ es', Lifted top e) s1)
    (h2 : Ok (fun x => Free x b) s1 (fun x => Needs x b') (fun top => Lifted top b') s2) :
    Ok (fun x => Free x (.app (.lam ids b) es)) s (fun x => Needs x (letExp ids es' b'))
      (fun top => Lifted top (letExp ids es' b')) s2 := by
  refine Ok.seq h1 h2 (fun N hN1 hN2 x hx => ?_) (fun top a b => .letE hl a b)
  unfold letExp at hx
  rcases needs_app hx with h | h
  · cases h with
    | lam hn h =>
      rcases hN2 x h with h | h
      · exact Or.inl (.appF _ (.lam hn h))
      · exact Or.inr h
  · rcases hN1 x h with ⟨e, he, h⟩ | h
    · exact Or.inl (.appA _ he h)
    · exact Or.inr h

theorem liftAll_length : ∀ (es : List Exp) (s : LSt), (liftAll es s).1.length = es.length := by
  intro es
  induction es with
  | nil => intro s; simp [liftAll]
  | cons e es ih => intro s; simp [liftAll, ih]

theorem drop_cons {α : Type} {l r : List α} {a : α} {k : Nat} (h : l.drop k = a :: r) :
    l[k]? = some a ∧ l.drop (k + 1) = r := by
  constructor
  · have := List.getElem?_drop (xs := l) (i := k) (j := 0)
    rw [h] at this
    simpa using this.symm
  · rw [← List.drop_drop, h]; rfl

theorem extraVars_single (l : Id) (e : Exp) : extraVars [l] [e] = [(extraVars [l] [e]).getD 0 []] := by
  have h := (extraVars_spec [l] [e] (by simp)).1
  cases hx : extraVars [l] [e] with
  | nil => rw [hx] at h; simp at h
  | cons a as =>
    rw [hx] at h
    cases as with
    | nil => rfl
    | cons _ _ => simp at h

theorem lam_ok (ids : List Id) (b : Exp) (s : LSt) (w : Wf s.next (.lam ids b))
    (hb : Ok (fun x => Free x b) ⟨s.next + 2, s.top⟩ (fun x => Needs x (lift b ⟨s.next + 2, s.top⟩).1)
      (fun top => Lifted top (lift b ⟨s.next + 2, s.top⟩).1) (lift b ⟨s.next + 2, s.top⟩).2) :
    Ok (fun x => Free x (.lam ids b)) s (fun x => Needs x (lift (.lam ids b) s).1)
      (fun top => Lifted top (lift (.lam ids b) s).1) (lift (.lam ids b) s).2 := by
  have hfr : ∀ l ∈ [Exp.lam ids b], ∀ x, Free x l → x.ts < s.next := by
    intro l hl x hf
    rw [List.mem_singleton.mp hl] at hf
    exact free_lt _ w hf
  simp only [Wf] at w
  have hL : LamsRes ⟨[lexId s.next], [Exp.lam ids b].map params, extraVars [lexId s.next] [.lam ids b],
      (labels [lexId s.next] (s.next + 1)).1⟩ [.lam ids b] (extraVars [lexId s.next] [.lam ids b])
      (labels [lexId s.next] (s.next + 1)).1 ⟨(labels [lexId s.next] (s.next + 1)).2, s.top⟩
      (floatOne ⟨[lexId s.next], [ids], extraVars [lexId s.next] [.lam ids b], [labelId (s.next + 1)]⟩ ids
        ((extraVars [lexId s.next] [.lam ids b]).getD 0 []) (labelId (s.next + 1)) (lift b ⟨s.next + 2, s.top⟩).1
        (lift b ⟨s.next + 2, s.top⟩).2) := by
    have hx := extraVars_single (lexId s.next) (.lam ids b)
    generalize hxs : (extraVars [lexId s.next] [.lam ids b]).getD 0 [] = xs at hx ⊢
    simp only [labels, List.map_cons, List.map_nil, params]
    rw [show [xs] = xs :: [] from rfl] at hx
    have hgoal := LamsRes.cons (g := ⟨[lexId s.next], [ids], extraVars [lexId s.next] [.lam ids b], [labelId (s.next + 1)]⟩)
      (lams := [.lam ids b]) (i := 0) (xs := xs) (t := labelId (s.next + 1)) (ls := []) (xss := []) (ts := [])
      (s' := floatOne ⟨[lexId s.next], [ids], extraVars [lexId s.next] [.lam ids b], [labelId (s.next + 1)]⟩ ids
        xs (labelId (s.next + 1)) (lift b ⟨s.next + 2, s.top⟩).1 (lift b ⟨s.next + 2, s.top⟩).2)
      (by simp) rfl rfl w.1
      (fun x hx hx' => by
        have h1 := w.2.1 x hx
        rw [List.mem_singleton.mp hx'] at h1
        simp only [lexId] at h1
        omega)
      (fun x hx l hl hf => by
        rw [List.mem_singleton.mp hl] at hf
        cases hf with
        | lam hn _ => exact hn hx)
      (by rw [hx]; rfl)
      (fun x hx => by
        rw [List.mem_singleton.mp hx]
        exact ⟨by simp only [lexId]; push_cast; omega, by rw [Id.isGlobal]; exact decide_eq_false (by simp [lexId])⟩)
      (by
        refine ⟨rfl, by simp [hx], rfl, ?_, ?_⟩
        · intro ys hys x hxx
          have hys' : ys ∈ extraVars [lexId s.next] [.lam ids b] := hys
          obtain ⟨i, hi⟩ := List.getElem?_of_mem hys'
          rw [← getD_of_getElem? hi, (extraVars_spec [lexId s.next] [.lam ids b] (by simp)).2.2] at hxx
          obtain ⟨_, l, hl, hf⟩ := needed_free hxx
          have := hfr l hl x hf
          push_cast
          omega
        · intro t ht
          exact ⟨s.next + 1, List.mem_singleton.mp ht, by simp⟩)
      hb (by simp) (fun u hu => ⟨s.next + 1, List.mem_singleton.mp hu, by simp⟩)
      (LamsRes.nil _ _ _ _)
    rw [← hx] at hgoal
    exact hgoal
  have hB : Ok (fun x => Free x (.var (lexId s.next))) _ (fun x => Needs x (.var (lexId s.next)))
      (fun top => Lifted top (.var (lexId s.next))) _ :=
    Ok.refl (s := (floatOne ⟨[lexId s.next], [ids], extraVars [lexId s.next] [.lam ids b], [labelId (s.next + 1)]⟩ ids
        ((extraVars [lexId s.next] [.lam ids b]).getD 0 []) (labelId (s.next + 1)) (lift b ⟨s.next + 2, s.top⟩).1
        (lift b ⟨s.next + 2, s.top⟩).2)) (fun x h => by cases h; exact .var) (fun _ => .var _)
  have := group_ok (s := ⟨s.next + 1, s.top⟩) (by simp) (by simp)
    (fun l hl x hf => by have := hfr l hl x hf; push_cast; omega) hL hB
  have hOk : Ok (fun x => Free x (.lam ids b)) ⟨s.next + 1, s.top⟩ (fun x => Needs x (lift (.lam ids b) s).1)
      (fun top => Lifted top (lift (.lam ids b) s).1) (lift (.lam ids b) s).2 := by
    rw [lift]
    refine Ok.weaken this (fun x h => h) (fun x _ h => ?_) (fun top h => h)
    cases h with
    | fixL _ _ hl h => rw [List.mem_singleton.mp hl] at h; exact h
    | fixB _ hn h => cases h; exact absurd List.mem_cons_self hn
  obtain ⟨m1, new, e1, d1, f1, a1, b1⟩ := hOk
  refine ⟨Nat.le_of_succ_le m1, new, e1, d1, fun t ht => ?_, a1, b1⟩
  obtain ⟨m, e, hm, hm'⟩ := f1 t ht
  exact ⟨m, e, Nat.le_of_succ_le hm, hm'⟩

mutual
theorem lift_ok : (e : Exp) → (s : LSt) → Wf s.next e →
    Ok (fun x => Free x e) s (fun x => Needs x (lift e s).1) (fun top => Lifted top (lift e s).1) (lift e s).2
  | .var x, s, _ => by
    simp only [lift]
    exact Ok.refl (fun x h => by cases h; exact .var) (fun _ => .var _)
  | .set y e, s, w => by
    simp only [Wf] at w
    simp only [lift]
    have h := lift_ok e s w.2
    refine Ok.seq h (Ok.refl (P := fun x => x = y) (needs := fun x => x = y) (lifted := fun _ => True) (fun _ h => h) (fun _ => trivial))
      (fun N h1 h2 x hx => ?_) (fun top a _ => .set w.1 a)
    cases hx with
    | setTarget => exact Or.inl (.setTarget _)
    | set _ hx =>
      rcases h1 x hx with h | h
      · exact Or.inl (.set _ h)
      · exact Or.inr h
  | .ite a b c, s, w => by
    simp only [Wf] at w
    simp only [lift]
    have ha := lift_ok a s w.1
    have hb := lift_ok b _ (wf_mono ha.mono b w.2.1)
    have hc := lift_ok c _ (wf_mono (Nat.le_trans ha.mono hb.mono) c w.2.2)
    have hab := Ok.seq (R := fun x => Free x a ∨ Free x b) (n3 := fun x => Needs x (lift a s).1 ∨ Needs x (lift b (lift a s).2).1)
      (l3 := fun top => Lifted top (lift a s).1 ∧ Lifted top (lift b (lift a s).2).1) ha hb
      (fun N h1 h2 x hx => by
        rcases hx with hx | hx
        · rcases h1 x hx with h | h
          · exact Or.inl (Or.inl h)
          · exact Or.inr h
        · rcases h2 x hx with h | h
          · exact Or.inl (Or.inr h)
          · exact Or.inr h) (fun _ p q => ⟨p, q⟩)
    refine Ok.seq hab hc (fun N h1 h2 x hx => ?_) (fun top p q => .ite p.1 p.2 q)
    cases hx with
    | iteA _ _ hx =>
      rcases h1 x (Or.inl hx) with (h | h) | h
      · exact Or.inl (.iteA _ _ h)
      · exact Or.inl (.iteB _ _ h)
      · exact Or.inr h
    | iteB _ _ hx =>
      rcases h1 x (Or.inr hx) with (h | h) | h
      · exact Or.inl (.iteA _ _ h)
      · exact Or.inl (.iteB _ _ h)
      · exact Or.inr h
    | iteC _ _ hx =>
      rcases h2 x hx with h | h
      · exact Or.inl (.iteC _ _ h)
      · exact Or.inr h
  | .prim eff p es, s, w => by
    simp only [Wf] at w
    simp only [lift]
    refine Ok.seq (liftAll_ok es s w) (Ok.refl (P := fun _ => False) (needs := fun _ => False) (lifted := fun _ => True)
      (fun _ h => h) (fun _ => trivial)) (fun N h1 h2 x hx => ?_) (fun top a _ => .prim _ _ a)
    cases hx with
    | prim _ _ he hx =>
      rcases h1 x ⟨_, he, hx⟩ with ⟨e, he, h⟩ | h
      · exact Or.inl (.prim _ _ he h)
      · exact Or.inr h
  | .app (.lam ids b) es, s, w => by
    simp only [Wf] at w
    simp only [lift]
    by_cases hl : ids.length = es.length
    · rw [if_pos hl]
      have h1 := liftAll_ok es s w.2
      exact let_ok (by rw [liftAll_length]; exact hl) h1 (lift_ok b _ (wf_mono h1.mono b w.1.2.2))
    · rw [if_neg hl]
      have hb := lift_ok b ⟨s.next + 2, s.top⟩ (wf_mono (Nat.le_add_right _ 2) b w.1.2.2)
      have h1 := lam_ok ids b s (by simp only [Wf]; exact w.1) hb
      have h2 := liftAll_ok es _ (wfAll_mono h1.mono es w.2)
      exact app_ok h1 h2
  | .app (.var y) es, s, w => by
    simp only [Wf] at w
    have h1 := lift_ok (.var y) s (by simp only [Wf]; exact w.1)
    have h2 := liftAll_ok es _ (wfAll_mono h1.mono es w.2)
    have := app_ok h1 h2
    simp only [lift] at this ⊢
    exact this
  | .app (.set y e) es, s, w => by
    rw [Wf] at w
    have h1 := lift_ok (.set y e) s w.1
    have h2 := liftAll_ok es _ (wfAll_mono h1.mono es w.2)
    have := app_ok h1 h2
    simp only [lift] at this ⊢
    exact this
  | .app (.ite a b c) es, s, w => by
    rw [Wf] at w
    have h1 := lift_ok (.ite a b c) s w.1
    have h2 := liftAll_ok es _ (wfAll_mono h1.mono es w.2)
    have := app_ok h1 h2
    simp only [lift] at this ⊢
    exact this
  | .app (.prim eff p rs) es, s, w => by
    rw [Wf] at w
    have h1 := lift_ok (.prim eff p rs) s w.1
    have h2 := liftAll_ok es _ (wfAll_mono h1.mono es w.2)
    have := app_ok h1 h2
    simp only [lift] at this ⊢
    exact this
  | .app (.app f rs) es, s, w => by
    rw [Wf] at w
    have h1 := lift_ok (.app f rs) s w.1
    have h2 := liftAll_ok es _ (wfAll_mono h1.mono es w.2)
    have := app_ok h1 h2
    rw [lift.eq_def (.app (.app f rs) es)]
    exact this
  | .app (.fix ids ls b) es, s, w => by
    rw [Wf] at w
    have h1 := lift_ok (.fix ids ls b) s w.1
    have h2 := liftAll_ok es _ (wfAll_mono h1.mono es w.2)
    have := app_ok h1 h2
    rw [lift.eq_def (.app (.fix ids ls b) es)]
    exact this
  | .app (.letcc _ _) es, s, w => by simp only [Wf, false_and] at w
  | .app (.withcc _ _) es, s, w => by simp only [Wf, false_and] at w
  | .lam ids b, s, w => by
    have w' := w
    simp only [Wf] at w'
    exact lam_ok ids b s w (lift_ok b ⟨s.next + 2, s.top⟩ (wf_mono (Nat.le_add_right _ 2) b w'.2.2))
  | .fix ids ls b, s, w => by
    simp only [Wf] at w
    obtain ⟨⟨w1, w2, w3⟩, w4, w5, w6⟩ := w
    obtain ⟨l1, l2, l3, l4⟩ := labels_spec ids s.next
    have hL := liftLams_ok ls ids ls (extraVars ids ls) (labels ids s.next).1 s.next
      ⟨(labels ids s.next).2, s.top⟩ 0 w1 w2 w3 w5 (by simp only [l2]; omega) (fun x hx => by
        have := w4 x hx; simp only [l2]; exact ⟨by omega, this.2⟩)
      l1 l4 (fun t ht => by obtain ⟨m, e, _, hm⟩ := l3 t ht; exact ⟨m, e, by simp only [l2]; exact hm⟩) rfl _ _ rfl rfl w5
    simp only [lift]
    have hB := lift_ok b _ (wf_mono (Nat.le_trans (by simp only [l2]; omega) hL.mono) b w6)
    exact group_ok w1 w2 (fun l hl x hf => freeLams_lt ids ls w5 l hl hf) hL hB
  | .letcc _ _, _, w => by simp only [Wf] at w
  | .withcc _ _, _, w => by simp only [Wf] at w
theorem liftAll_ok : (es : List Exp) → (s : LSt) → WfAll s.next es →
    Ok (fun x => ∃ e ∈ es, Free x e) s (fun x => ∃ e ∈ (liftAll es s).1, Needs x e)
      (fun top => ∀ e ∈ (liftAll es s).1, Lifted top e) (liftAll es s).2
  | [], s, _ => by
    simp only [liftAll]
    exact Ok.refl (fun x ⟨e, he, _⟩ => by cases he) (fun _ e he => by cases he)
  | e :: es, s, w => by
    simp only [WfAll] at w
    simp only [liftAll]
    have h1 := lift_ok e s w.1
    have h2 := liftAll_ok es _ (wfAll_mono h1.mono es w.2)
    refine Ok.seq h1 h2 (fun N n1 n2 x hx => ?_) (fun top a b e' he' => ?_)
    · obtain ⟨e', he', hx⟩ := hx
      rcases List.mem_cons.mp he' with rfl | he'
      · rcases n1 x hx with h | h
        · exact Or.inl ⟨e, List.mem_cons_self, h⟩
        · exact Or.inr h
      · rcases n2 x ⟨e', he', hx⟩ with ⟨d, hd, h⟩ | h
        · exact Or.inl ⟨d, List.mem_cons_of_mem _ hd, h⟩
        · exact Or.inr h
    · rcases List.mem_cons.mp he' with rfl | he'
      · exact a
      · exact b e' he'
theorem liftLams_ok : (ls : List Exp) → (ids : List Id) → (lams : List Exp) → (xss : List (List Id)) →
    (tids : List Id) → (n : Nat) → (s : LSt) → (k : Nat) → ids.Nodup → ids.length = lams.length →
    (∀ ps c, .lam ps c ∈ lams → ∀ x ∈ ps, ∀ l ∈ lams, ¬ Free x l) → WfLams n ids lams → n ≤ s.next →
    (∀ x ∈ ids, x.ts < s.next ∧ x.isGlobal = false) → tids.length = ids.length → tids.Nodup →
    (∀ t ∈ tids, ∃ m, t = labelId m ∧ m < s.next) → ls = lams.drop k →
    (yss : List (List Id)) → (ts : List Id) → yss = (extraVars ids lams).drop k → ts = tids.drop k → WfLams n ids ls →
    LamsRes ⟨ids, lams.map params, extraVars ids lams, tids⟩ ls yss ts s
      (liftLams ⟨ids, lams.map params, extraVars ids lams, tids⟩ ls yss ts s)
  | [], ids, lams, xss, tids, n, s, k, _, _, _, _, _, _, _, _, _, _, yss, ts, _, _, _ => by
    simp only [liftLams]
    exact LamsRes.nil _ _ _ _
  | .lam ps b :: ls, ids, lams, xss, tids, n, s, k, h1, h2, h3, h4, h5, h6, h7, h8, h9, h10, yss, ts, h11, h12, h13 => by
    simp only [WfLams] at h13
    obtain ⟨q1, q2, q3⟩ := extraVars_spec ids lams h1
    obtain ⟨hk, hk'⟩ := drop_cons h10.symm
    have hkl := (List.getElem?_eq_some_iff.mp hk).1
    cases yss with
    | nil =>
      have := congrArg List.length h11
      simp only [List.length_nil, List.length_drop, q1] at this
      omega
    | cons ys yss =>
      cases ts with
      | nil =>
        have := congrArg List.length h12
        simp only [List.length_nil, List.length_drop, h7, h2] at this
        omega
      | cons t ts =>
        obtain ⟨hy, hy'⟩ := drop_cons h11.symm
        obtain ⟨ht, ht'⟩ := drop_cons h12.symm
        simp only [liftLams]
        have hb := lift_ok b s (wf_mono h5 b h13.1.2.2)
        have hg : GroupWf ⟨ids, lams.map params, extraVars ids lams, tids⟩ s.next := by
          refine ⟨by simp [h2], by simp only [q1, h2], h7, ?_, h9⟩
          intro xs hxs x hx
          simp only at hxs
          obtain ⟨i, hi⟩ := List.getElem?_of_mem hxs
          rw [← getD_of_getElem? hi, q3] at hx
          obtain ⟨_, l, hl, hf⟩ := needed_free hx
          have := freeLams_lt ids lams h4 l hl hf
          omega
        have hm : s.next ≤ (floatOne ⟨ids, lams.map params, extraVars ids lams, tids⟩ ps ys t (lift b s).1 (lift b s).2).next := by
          obtain ⟨e, n', ef, hn', _⟩ := floatOne_ok (t := t) (g := ⟨ids, lams.map params, extraVars ids lams, tids⟩)
            h1 rfl hk h13.1.1 (fun x hx => (h13.1.2.1 x hx).2) (h3 _ _ (List.mem_of_getElem? hk)) hy h6 hg hb
          rw [ef]
          have := hb.mono
          simp only
          omega
        have hrec := liftLams_ok ls ids lams xss tids n
          (floatOne ⟨ids, lams.map params, extraVars ids lams, tids⟩ ps ys t (lift b s).1 (lift b s).2) (k + 1)
          h1 h2 h3 h4 (Nat.le_trans h5 hm) (fun x hx => by have := h6 x hx; exact ⟨by omega, this.2⟩) h7 h8
          (fun t ht => by obtain ⟨m, e, hm'⟩ := h9 t ht; exact ⟨m, e, by omega⟩) hk'.symm yss ts hy'.symm ht'.symm h13.2
        refine LamsRes.cons (g := ⟨ids, lams.map params, extraVars ids lams, tids⟩) h1 rfl hk h13.1.1
          (fun x hx => (h13.1.2.1 x hx).2) (h3 _ _ (List.mem_of_getElem? hk)) hy h6 hg hb ?_ ?_ hrec
        · rw [h12]; exact h8.sublist (List.drop_sublist _ _)
        · intro u hu
          rw [h12] at hu
          exact h9 u (List.mem_of_mem_drop hu)
  | .var _ :: _, _, _, _, _, _, _, _, _, _, _, _, _, _, _, _, _, _, _, _, _, _, h => by simp only [WfLams] at h
  | .set _ _ :: _, _, _, _, _, _, _, _, _, _, _, _, _, _, _, _, _, _, _, _, _, _, h => by simp only [WfLams] at h
  | .ite _ _ _ :: _, _, _, _, _, _, _, _, _, _, _, _, _, _, _, _, _, _, _, _, _, _, h => by simp only [WfLams] at h
  | .prim _ _ _ :: _, _, _, _, _, _, _, _, _, _, _, _, _, _, _, _, _, _, _, _, _, _, h => by simp only [WfLams] at h
  | .app _ _ :: _, _, _, _, _, _, _, _, _, _, _, _, _, _, _, _, _, _, _, _, _, _, h => by simp only [WfLams] at h
  | .fix _ _ _ :: _, _, _, _, _, _, _, _, _, _, _, _, _, _, _, _, _, _, _, _, _, _, h => by simp only [WfLams] at h
  | .letcc _ _ :: _, _, _, _, _, _, _, _, _, _, _, _, _, _, _, _, _, _, _, _, _, _, h => by simp only [WfLams] at h
  | .withcc _ _ :: _, _, _, _, _, _, _, _, _, _, _, _, _, _, _, _, _, _, _, _, _, _, h => by simp only [WfLams] at h
end

/-! ### the property -/

/-- C37: the lifted program is a group of procedures with fresh distinct labels and a body. Every lifted
procedure is closed, i.e. needs only its parameters (own and extra), globals and labels; the body needs only what
the source program had free, and labels; all closures are calls of a lifted procedure that supply its extra
parameters, in order, after the closure's own arguments. -/
theorem c37_closed (e : Exp) (n : Nat) (w : Wf n e) :
    ∃ top b, lambdaLift e n = .fix (top.map Prod.fst) (top.map Prod.snd) b ∧ (top.map Prod.fst).Nodup ∧
      (∀ t ∈ top.map Prod.fst, t.isLabel = true ∧ (n : Int) ≤ t.ts) ∧
      (∀ p ∈ top, Closed top p.2) ∧ Lifted top b ∧ ∀ x, Needs x b → Free x e ∨ x ∈ top.map Prod.fst := by
  have h := lift_ok e ⟨n, []⟩ w
  obtain ⟨m, new, e1, d1, f1, a1, b1⟩ := h
  refine ⟨(lift e ⟨n, []⟩).2.top, (lift e ⟨n, []⟩).1, rfl, ?_⟩
  rw [List.append_nil] at e1
  have := b1 (lift e ⟨n, []⟩).2.top (fun p hp => hp)
  rw [e1] at this ⊢
  refine ⟨d1, ?_, this.2, this.1, a1⟩
  intro t ht
  obtain ⟨k, rfl, hk, _⟩ := f1 t ht
  refine ⟨?_, by simp only [labelId]; exact_mod_cast hk⟩
  have : (labelId k).isGlobal = false := by
    rw [Id.isGlobal]
    exact decide_eq_false (by simp only [labelId]; omega)
  rw [Id.isLabel, this]
  rfl

/-- `(lambda (x) (fix ([f (lambda (a) (g a))] [g (lambda (b) (if b (f x) b))]) (f x)))`. -/
def demo : Exp :=
  .lam [lexId 0] (.fix [lexId 1, lexId 2]
    [.lam [lexId 3] (.app (.var (lexId 2)) [.var (lexId 3)]),
     .lam [lexId 4] (.ite (.var (lexId 4)) (.app (.var (lexId 1)) [.var (lexId 0)]) (.var (lexId 4)))]
    (.app (.var (lexId 1)) [.var (lexId 0)]))

/-- `f` needs the outer variable because it calls `g`; the lifted program has three procedures. -/
example : Wf 5 demo ∧ (lift demo ⟨5, []⟩).2.top.map (fun p => params p.2) =
    [[lexId 0], [lexId 4, lexId 0], [lexId 3, lexId 0]] := by
  refine ⟨?_, by decide +kernel⟩
  simp only [demo, Wf, WfLams, WfAll, lexId, Id.isGlobal]
  refine ⟨by simp, by simp, ⟨by simp, by simp, ?_⟩, by simp, ⟨⟨by simp, by simp, by simp⟩, ⟨by simp, by simp, by simp⟩, trivial⟩, by simp⟩
  intro ps c hm x hx l hl hf
  have hf' := (c47_free_lexvars x l).1.2
  simp only [List.mem_cons, List.not_mem_nil, or_false, Exp.lam.injEq] at hm hl
  rcases hm with ⟨rfl, _⟩ | ⟨rfl, _⟩ <;> rw [List.mem_singleton.mp hx] at hf hf' <;> rcases hl with rfl | rfl <;>
    exact absurd (hf' ⟨by decide, hf⟩) (by decide +kernel)

end Verif.Lift

import Verif.Cgen.Cexps
/-
Evaluation of expressions that are compiled to C expressions.
-/
namespace Verif.Cgen
open Verif.Core Sys
variable {W : Type} {M : Sem W} {T : Texts} {Q : PrimName → Nat → List Nat} {P : Prog} {G : Glob}

/-- the machine for programs, with the order of evaluation of the generated code. -/
abbrev srcSys (M : Sem W) (T : Texts) (Q : PrimName → Nat → List Nat) : Sys W := coreSys M (cgOrder T Q)

theorem srcCons {s s1 s2 : State W} {ws : List W} (h : Core.step M (cgOrder T Q) s = some s1) (hw : s1.world = s.world)
    (h' : (srcSys M T Q).Reaches s1 ws s2) : (srcSys M T Q).Reaches s ws s2 := .cons h hw h'
theorem tgtCons {s s1 s2 : CState W} {ws : List W} (h : cstep M Q P s = some s1) (hw : s1.world = s.world)
    (h' : (cSys M Q P).Reaches s1 ws s2) : (cSys M Q P).Reaches s ws s2 := .cons h hw h'
theorem srcFail {s s' : State W} (h : Core.step M (cgOrder T Q) s = some s') (hf : (srcSys M T Q).Fails s') : (srcSys M T Q).Fails s := .of_step h hf

/-- The C expression for `e` computes the value of `e`. -/
def CexpOk (M : Sem W) (T : Texts) (Q : PrimName → Nat → List Nat) (P : Prog) (G : Glob) (e : Exp) : Prop :=
  ∀ renv ρ r σ σt, ER G renv ρ r (fun x => Free x e) → SR G σ σt →
    (∀ κ, (srcSys M T Q).Fails (.ev e ρ κ σ)) ∨
    ∃ ws v σ' w σt' r', (∀ κ, (srcSys M T Q).Reaches (.ev e ρ κ σ) ws (.ret v κ σ')) ∧
      (∀ fs l, isSafe T e = true ∨ fs.all Frame.clean = true →
        (cSys M Q P).Reaches (.ev (cgCexp T renv e) fs l r σt) ws (.ret w fs l r' σt')) ∧
      VR G v w ∧ SR G σ' σt' ∧ Below renv.length r r' ∧ (isSafe T e = true → r' = r) ∧ (boolE T e = true → v = .atom 0 ∨ v = .atom 2)

/-- an operand that has been compiled: a gc-safe C expression, or a value in a register. -/
def ArgOk (M : Sem W) (T : Texts) (Q : PrimName → Nat → List Nat) (P : Prog) (G : Glob) (ρ : Env) (r : Regs) (d : Nat → Val) (i : Nat) (e : Exp) (a : CExp) : Prop :=
  (isSafe T e = true ∧ CexpOk M T Q P G e ∧ ∃ renv, a = cgCexp T renv e ∧ ER G renv ρ r (fun x => Free x e)) ∨
  (isSafe T e = false ∧ ∃ j w, a = .reg j ∧ r j = some w ∧ VR G (d i) w)

theorem args_ok {op : Op} {es : List Exp} {as : List CExp} {ρ : Env} {r : Regs} {gc : Bool} {live : Nat} {p : PrimName} :
    ∀ (todo : List Nat) (d : Nat → Val) (d' : Nat → CVal) (σ : Store W) (σt : CStore W),
    (∀ i ∈ todo, ∃ e a, es[i]? = some e ∧ as[i]? = some a ∧ ArgOk M T Q P G ρ r d i e a) → todo.Nodup →
    (∀ j, j < es.length → j ∉ todo → VR G (d j) (d' j)) → SR G σ σt →
    (∀ κ, (srcSys M T Q).Fails (.args op es d (todo.filter (safeAt T es)) ρ κ σ)) ∨
    ∃ ws d1 d1' σ' σt', (∀ κ, (srcSys M T Q).Reaches (.args op es d (todo.filter (safeAt T es)) ρ κ σ) ws (.args op es d1 [] ρ κ σ')) ∧
      (∀ fs l, (cSys M Q P).Reaches (.args gc live p as d' todo fs l r σt) ws (.args gc live p as d1' [] fs l r σt')) ∧
      (∀ j, j < es.length → VR G (d1 j) (d1' j)) ∧ SR G σ' σt' := by
  intro todo
  induction todo with
  | nil =>
    intro d d' σ σt _ _ hd hs
    exact Or.inr ⟨[], d, d', σ, σt, fun κ => .refl _, fun fs l => .refl _, fun j hj => hd j hj (by simp), hs⟩
  | cons i todo ih =>
    intro d d' σ σt ha hn hd hs
    obtain ⟨e, a, he, hai, hok⟩ := ha i (List.mem_cons_self ..)
    have hn' := List.nodup_cons.1 hn
    rcases hok with ⟨hsafe, hce, renv, rfl, her⟩ | ⟨hsafe, j, w, rfl, hr, hv⟩
    · have hfi : safeAt T es i = true := by simp [safeAt, he, hsafe]
      rw [List.filter_cons_of_pos hfi]
      rcases hce renv ρ r σ σt her hs with hf | ⟨ws, v, σ1, w, σt1, r1, h1, h2, hvw, hs1, _, hr1, _⟩
      · left; intro κ
        exact srcFail (s' := .ev e ρ (.args op es d i (todo.filter (safeAt T es)) ρ κ) σ) (by simp [srcSys, coreSys, Core.step, he]) (hf _)
      · obtain rfl := hr1 hsafe
        rcases ih (Core.upd d i v) (upd d' i w) σ1 σt1 (fun k hk => by
            obtain ⟨e', a', h1, h2, h3⟩ := ha k (List.mem_cons_of_mem _ hk)
            refine ⟨e', a', h1, h2, ?_⟩
            rcases h3 with h3 | ⟨h3, j, w', h4, h5, h6⟩
            · exact Or.inl h3
            · have : k ≠ i := by rintro rfl; exact hn'.1 hk
              exact Or.inr ⟨h3, j, w', h4, h5, by simpa [Core.upd, this] using h6⟩) hn'.2 (fun k hk hm => by
            by_cases e : k = i
            · simp [Core.upd, upd, e, hvw]
            · simpa [Core.upd, upd, e] using hd k hk (by simp [e, hm])) hs1 with hf | ⟨ws2, d1, d1', σ2, σt2, g1, g2, g3, g4⟩
        · left; intro κ
          refine srcFail (s' := .ev e ρ (.args op es d i (todo.filter (safeAt T es)) ρ κ) σ) (by simp [srcSys, coreSys, Core.step, he]) ?_
          exact (h1 _).fails (srcFail (s' := .args op es (Core.upd d i v) (todo.filter (safeAt T es)) ρ κ σ1) rfl (hf κ))
        · right
          refine ⟨ws ++ ws2, d1, d1', σ2, σt2, fun κ => ?_, fun fs l => ?_, g3, g4⟩
          · refine srcCons (s1 := .ev e ρ (.args op es d i (todo.filter (safeAt T es)) ρ κ) σ) (by simp [srcSys, coreSys, Core.step, he]) rfl ?_
            exact (h1 _).trans (srcCons (s1 := .args op es (Core.upd d i v) (todo.filter (safeAt T es)) ρ κ σ1) rfl rfl (g1 κ))
          · refine tgtCons (s1 := .ev (cgCexp T renv e) (.args gc live p as d' i todo :: fs) l r1 σt) (by simp [cSys, cstep, hai]) rfl ?_
            exact (h2 _ _ (Or.inl hsafe)).trans (tgtCons (s1 := .args gc live p as (upd d' i w) todo fs l r1 σt1) rfl rfl (g2 fs l))
    · have hfi : safeAt T es i = false := by simp [safeAt, he, hsafe]
      rw [List.filter_cons_of_neg (by simp [hfi])]
      rcases ih d (upd d' i w) σ σt (fun k hk => ha k (List.mem_cons_of_mem _ hk)) hn'.2 (fun k hk hm => by
            by_cases e : k = i
            · simp [upd, e, hv]
            · simpa [upd, e] using hd k hk (by simp [e, hm])) hs with hf | ⟨ws2, d1, d1', σ2, σt2, g1, g2, g3, g4⟩
      · exact Or.inl hf
      · refine Or.inr ⟨ws2, d1, d1', σ2, σt2, g1, fun fs l => ?_, g3, g4⟩
        refine tgtCons (s1 := .ev (.reg j) (.args gc live p as d' i todo :: fs) l r σt) (by simp [cSys, cstep, hai]) rfl ?_
        refine tgtCons (s1 := .ret w (.args gc live p as d' i todo :: fs) l r σt) (by simp [cSys, cstep, hr]) rfl ?_
        exact tgtCons (s1 := .args gc live p as (upd d' i w) todo fs l r σt) rfl rfl (g2 fs l)

/-! ### expressions without effects -/

theorem pure_args {op : Op} {es : List Exp} {ρ : Env} {σ : Store W} : ∀ (todo : List Nat) (d : Nat → Val), (∀ i ∈ todo, i < es.length) →
    (∀ e ∈ es, (∀ κ, (srcSys M T Q).Fails (.ev e ρ κ σ)) ∨ ∃ v, ∀ κ, (srcSys M T Q).Reaches (.ev e ρ κ σ) [] (.ret v κ σ)) →
    (∀ κ, (srcSys M T Q).Fails (.args op es d todo ρ κ σ)) ∨
    ∃ d1, ∀ κ, (srcSys M T Q).Reaches (.args op es d todo ρ κ σ) [] (.args op es d1 [] ρ κ σ) := by
  intro todo
  induction todo with
  | nil => intro d _ _; exact Or.inr ⟨d, fun κ => .refl _⟩
  | cons i todo ih =>
    intro d hl he
    have hi := hl i (List.mem_cons_self ..)
    have hg : es[i]? = some es[i] := List.getElem?_eq_getElem hi
    rcases he es[i] (List.getElem_mem hi) with hf | ⟨v, hv⟩
    · left; intro κ
      exact srcFail (s' := .ev es[i] ρ (.args op es d i todo ρ κ) σ) (by simp [srcSys, coreSys, Core.step, hg]) (hf _)
    · rcases ih (Core.upd d i v) (fun j hj => hl j (List.mem_cons_of_mem _ hj)) he with hf | ⟨d1, h1⟩
      · left; intro κ
        refine srcFail (s' := .ev es[i] ρ (.args op es d i todo ρ κ) σ) (by simp [srcSys, coreSys, Core.step, hg]) ?_
        exact (hv _).fails (srcFail (s' := .args op es (Core.upd d i v) todo ρ κ σ) rfl (hf κ))
      · right
        refine ⟨d1, fun κ => ?_⟩
        refine srcCons (s1 := .ev es[i] ρ (.args op es d i todo ρ κ) σ) (by simp [srcSys, coreSys, Core.step, hg]) rfl ?_
        simpa using (hv _).trans (srcCons (s1 := .args op es (Core.upd d i v) todo ρ κ σ) rfl rfl (h1 κ))

/-- every operand is evaluated exactly once. -/
theorem cgOrder_fair (T : Texts) (hQ : ∀ p n, (Q p n).Perm (List.range n)) : FairOrder (cgOrder T Q) := by
  have key : ∀ (l : List Nat) (f : Nat → Bool), (l.filter (fun i => !f i) ++ l.filter f).Perm l := fun l f =>
    List.perm_append_comm.trans (List.filter_append_perm f l)
  intro op es
  cases op with
  | prim eff p =>
    exact ((List.Perm.refl _).append ((hQ p es.length).filter (safeAt T es))).trans (key _ _)
  | call =>
    simp only [cgOrder]
    split
    · exact .refl _
    · exact key _ _

theorem doPrim_pure {M : Sem W} {p : PrimName} (hp : p = .void ∨ p = .car ∨ p = .cdr ∨ ∃ n, p = .op n ∧ PureOp M n) (vs : List Val) (σ : Store W) :
    Core.doPrim M p vs σ = none ∨ ∃ v, Core.doPrim M p vs σ = some (.ok v σ) := by
  rcases hp with rfl | rfl | rfl | ⟨n, rfl, f, hf⟩
  · cases vs with
    | nil => exact Or.inr ⟨_, rfl⟩
    | cons => exact Or.inl rfl
  · cases vs with
    | nil => exact Or.inl rfl
    | cons v vs =>
      cases vs with
      | nil => cases v <;> first | exact Or.inr ⟨_, rfl⟩ | exact Or.inl rfl
      | cons => exact Or.inl (car_two _ _ _ _)
  · cases vs with
    | nil => exact Or.inl rfl
    | cons v vs =>
      cases vs with
      | nil => cases v <;> first | exact Or.inr ⟨_, rfl⟩ | exact Or.inl rfl
      | cons => exact Or.inl (cdr_two _ _ _ _)
  · simp only [Core.doPrim, hf]
    cases f (vs.map Val.view) with
    | none => exact Or.inl rfl
    | some a => exact Or.inr ⟨.atom a, rfl⟩

theorem noEff_eval (hQ : ∀ p n, (Q p n).Perm (List.range n)) {e : Exp} (h : NoEff M e) (ρ : Env) (σ : Store W) :
    (∀ κ, (srcSys M T Q).Fails (.ev e ρ κ σ)) ∨ ∃ v, ∀ κ, (srcSys M T Q).Reaches (.ev e ρ κ σ) [] (.ret v κ σ) := by
  induction h with
  | var x =>
    cases hl : (if x.isGlobal then σ.glob x else ρ.lookup x) with
    | none => left; intro κ; exact .now (by simp only [srcSys, coreSys, Core.step, hl]) rfl
    | some v => right; exact ⟨v, fun κ => .one (by simp only [srcSys, coreSys, Core.step, hl]) rfl⟩
  | @ite a b c _ _ _ iha ihb ihc =>
    rcases iha with hf | ⟨v, hv⟩
    · left; intro κ; exact srcFail (s' := .ev a ρ (.ite b c ρ κ) σ) rfl (hf _)
    · have : (∀ κ, (srcSys M T Q).Fails (.ev (if v.isFalse then c else b) ρ κ σ)) ∨
          ∃ v', ∀ κ, (srcSys M T Q).Reaches (.ev (if v.isFalse then c else b) ρ κ σ) [] (.ret v' κ σ) := by
        cases v.isFalse
        · exact ihb
        · exact ihc
      rcases this with hf | ⟨v', hv'⟩
      · left; intro κ
        exact srcFail (s' := .ev a ρ (.ite b c ρ κ) σ) rfl ((hv _).fails (srcFail (s' := .ev (if v.isFalse then c else b) ρ κ σ) rfl (hf κ)))
      · right; refine ⟨v', fun κ => srcCons (s1 := .ev a ρ (.ite b c ρ κ) σ) rfl rfl ?_⟩
        simpa using (hv _).trans (srcCons (s1 := .ev (if v.isFalse then c else b) ρ κ σ) rfl rfl (hv' κ))
  | @prim eff p es _ hp _ ih =>
    rcases pure_args (M := M) (T := T) (Q := Q) (op := .prim eff p) (σ := σ) (cgOrder T Q (.prim eff p) es) (fun _ => .trap) (fun i hi =>
      List.mem_range.1 ((cgOrder_fair T hQ (.prim eff p) es).subset hi)) ih with hf | ⟨d1, h1⟩
    · left; intro κ
      exact srcFail (s' := .args (.prim eff p) es (fun _ => .trap) (cgOrder T Q (.prim eff p) es) ρ κ σ) rfl (hf κ)
    · rcases doPrim_pure hp (Core.vals d1 es.length) σ with hn | ⟨v, hv⟩
      · left; intro κ
        exact srcFail (s' := .args (.prim eff p) es (fun _ => .trap) (cgOrder T Q (.prim eff p) es) ρ κ σ) rfl
          ((h1 κ).fails (.now (by simp [srcSys, coreSys, Core.step, hn]) rfl))
      · right
        refine ⟨v, fun κ => srcCons (s1 := .args (.prim eff p) es (fun _ => .trap) (cgOrder T Q (.prim eff p) es) ρ κ σ) rfl rfl ?_⟩
        exact (h1 κ).snoc (by simp [srcSys, coreSys, Core.step, hv]) rfl

/-- an evaluation is unique. -/
theorem src_unique {e : Exp} {ρ : Env} {σ σ1 σ2 : Store W} {ws1 ws2 : List W} {v1 v2 : Val}
    (h1 : ∀ κ, (srcSys M T Q).Reaches (.ev e ρ κ σ) ws1 (.ret v1 κ σ1)) (h2 : ∀ κ, (srcSys M T Q).Reaches (.ev e ρ κ σ) ws2 (.ret v2 κ σ2)) :
    ws1 = ws2 ∧ v1 = v2 ∧ σ1 = σ2 := by
  obtain ⟨n, h1⟩ := h1 .trap
  obtain ⟨m, h2⟩ := h2 .trap
  rcases h1.split h2 with ⟨_, ws, e1, e2⟩ | ⟨_, ws, e1, e2⟩
  · obtain ⟨_, rfl, e3⟩ := e2.stuck rfl
    injection e3 with e3 e4 e5
    exact ⟨by simp [e1], e3.symm, e5.symm⟩
  · obtain ⟨_, rfl, e3⟩ := e2.stuck rfl
    injection e3 with e3 e4 e5
    exact ⟨by simp [e1], e3, e5⟩

theorem tgt_unique {e : CExp} {r r1 r2 : Regs} {σ σ1 σ2 : CStore W} {ws1 ws2 : List W} {v1 v2 : CVal}
    (h1 : (cSys M Q P).Reaches (.ev e [] (.set .void []) r σ) ws1 (.ret v1 [] (.set .void []) r1 σ1))
    (h2 : (cSys M Q P).Reaches (.ev e [] (.set .void []) r σ) ws2 (.ret v2 [] (.set .void []) r2 σ2)) : v1 = v2 := by
  have fin : ∀ {n : Nat} {ws : List W} {v v' : CVal} {r r' : Regs} {σ σ' : CStore W},
      Path (cSys M Q P) n (.ret v [] (.set .void []) r σ) ws (.ret v' [] (.set .void []) r' σ') → v = v' := by
    intro n ws v v' r r' σ σ' h
    have s1 : (cSys M Q P).step (.ret v [] (.set .void []) r σ) = some (.run [] r σ) := rfl
    rcases h.inv with e | ⟨s', _, _, h1, h3⟩
    · injection e
    · rw [s1] at h1; injection h1 with h1; subst h1
      obtain ⟨_, _, e⟩ := h3.stuck rfl
      cases e
  obtain ⟨n, h1⟩ := h1
  obtain ⟨m, h2⟩ := h2
  rcases h1.split h2 with ⟨_, ws, e1, e2⟩ | ⟨_, ws, e1, e2⟩
  · exact fin e2
  · exact (fin e2).symm

/-! ### the theorem about C expressions -/

theorem filter_all {α : Type} {p : α → Bool} {l : List α} (h : ∀ x ∈ l, p x = true) : l.filter p = l := List.filter_eq_self.2 h
theorem filter_none {α : Type} {p : α → Bool} {l : List α} (h : ∀ x ∈ l, p x = false) : l.filter p = [] :=
  List.filter_eq_nil_iff.2 (fun x hx => by simp [h x hx])

theorem cexp_var {x : Id} (hx : x.isLabel = false) : CexpOk M T Q P G (.var x) := by
  intro renv ρ r σ σt her hs
  by_cases hg : x.isGlobal = true
  · rcases hs.glob x with ⟨h1, h2⟩ | ⟨v, w, h1, h2, h3⟩
    · left; intro κ; exact .now (by simp [srcSys, coreSys, Core.step, hg, h1]) rfl
    · right
      refine ⟨[], v, σ, w, σt, r, fun κ => .one (by simp [srcSys, coreSys, Core.step, hg, h1]) rfl, fun fs l _ => ?_, h3, hs, .refl _ _, fun _ => rfl, fun h => by simp [boolE] at h⟩
      simp only [cgCexp, cgVar, hx, hg]
      exact .one (by simp [cSys, cstep, h2]) rfl
  · simp only [Bool.not_eq_true] at hg
    obtain ⟨p, v, w, h1, h2, h3, h4⟩ := her.reg x .var ⟨hg, hx⟩
    right
    refine ⟨[], v, σ, w, σt, r, fun κ => .one (by simp [srcSys, coreSys, Core.step, hg, h2]) rfl, fun fs l _ => ?_, h4, hs, .refl _ _, fun _ => rfl, fun h => by simp [boolE] at h⟩
    simp only [cgCexp, cgVar, hx, hg, h1]
    exact .one (by simp [cSys, cstep, h3]) rfl

theorem cexp_prim (hQ : ∀ p n, (Q p n).Perm (List.range n)) (hT : TypesOk M T) {eff : Effect} {p : PrimName} {es : List Exp} (hp : p ≠ .halt)
    (hc : T.cexp p = true) (hsafe : areSafe T es = true) (ih : ∀ e ∈ es, CexpOk M T Q P G e) : CexpOk M T Q P G (.prim eff p es) := by
  intro renv ρ r σ σt her hs
  have hs1 : ∀ i, i < es.length → safeAt T es i = true := fun i hi => by
    simp [safeAt, List.getElem?_eq_getElem hi, areSafe_mem hsafe _ (List.getElem_mem hi)]
  have hord : cgOrder T Q (.prim eff p) es = (Q p es.length).filter (safeAt T es) := by
    simp only [cgOrder]
    rw [filter_none (p := fun i => !safeAt T es i) (fun i hi => by simp [hs1 i (List.mem_range.1 hi)])]
    rfl
  have hmem : ∀ i ∈ Q p es.length, i < es.length := fun i hi => List.mem_range.1 ((hQ p es.length).subset hi)
  rcases args_ok (M := M) (T := T) (Q := Q) (P := P) (G := G) (op := .prim eff p) (es := es) (as := cgCexps T renv es) (ρ := ρ) (r := r) (gc := eff.alloc)
      (live := renv.length) (p := p) (Q p es.length) (fun _ => .trap) (fun _ => .trap) σ σt (fun i hi => by
        have hi' := hmem i hi
        refine ⟨es[i], cgCexp T renv es[i], List.getElem?_eq_getElem hi', by simp [cgCexps_map, List.getElem?_eq_getElem hi'], Or.inl ⟨areSafe_mem hsafe _ (List.getElem_mem hi'), ih _ (List.getElem_mem hi'), renv, rfl, ?_⟩⟩
        exact her.sub (fun x hx _ => .prim eff p (List.getElem_mem hi') hx)) ((hQ p es.length).nodup_iff.2 List.nodup_range)
      (fun j hj hm => absurd ((hQ p es.length).mem_iff.2 (List.mem_range.2 hj)) hm) hs with hf | ⟨ws, d1, d1', σ1, σt1, h1, h2, h3, h4⟩
  · left; intro κ
    exact srcFail (s' := .args (.prim eff p) es (fun _ => .trap) ((Q p es.length).filter (safeAt T es)) ρ κ σ) (by simp only [srcSys, coreSys, Core.step, hord]) (hf κ)
  · rcases doPrim_rel (M := M) (p := p) (f2_vals h3) h4 with hn | ⟨_, _, hh, _⟩ | ⟨v, w, σ2, σt2, g1, g2, g3, g4⟩
    · left; intro κ
      refine srcFail (s' := .args (.prim eff p) es (fun _ => .trap) ((Q p es.length).filter (safeAt T es)) ρ κ σ) (by simp only [srcSys, coreSys, Core.step, hord]) ?_
      exact (h1 κ).fails (.now (by simp [srcSys, coreSys, Core.step, hn]) rfl)
    · exact absurd hh hp
    · right
      refine ⟨ws ++ change σ1.world σ2.world, v, σ2, w, σt2, if eff.alloc then r.gc renv.length else r, fun κ => ?_, fun fs l hfs => ?_, g3, g4, ?_, ?_, ?_⟩
      · refine srcCons (s1 := .args (.prim eff p) es (fun _ => .trap) ((Q p es.length).filter (safeAt T es)) ρ κ σ) (by simp only [srcSys, coreSys, Core.step, hord]) rfl ?_
        exact (h1 κ).trans (.step (A := srcSys M T Q) (s1 := .ret v κ σ2) (by simp [srcSys, coreSys, Core.step, g1]))
      · have hgc : (eff.alloc && !fs.all Frame.clean) = false := by
          rcases hfs with hfs | hfs
          · simp only [isSafe, Bool.and_eq_true] at hfs
            have := hfs.1.2
            simp only [Bool.not_eq_true'] at this
            simp [this]
          · simp [hfs]
        have hlen : (cgCexps T renv es).length = es.length := by simp [cgCexps_map]
        refine tgtCons (s1 := .args eff.alloc renv.length p (cgCexps T renv es) (fun _ => .trap) (Q p es.length) fs l r σt)
          (by simp only [cgCexp, cSys, cstep, hlen]) rfl ?_
        rw [show σ1.world = σt1.world from h4.world, show σ2.world = σt2.world from g4.world]
        refine (h2 fs l).trans (.step (A := cSys M Q P) (s1 := .ret w fs l (if eff.alloc then r.gc renv.length else r) σt2) ?_)
        simp only [cSys, cstep, hlen, g2, hgc, Bool.false_eq_true, if_false]
      · split
        · exact .gc _ _ _ (Nat.le_refl _)
        · exact .refl _ _
      · intro h
        simp only [isSafe, Bool.and_eq_true, Bool.not_eq_true'] at h
        simp [h.1.2]
      · intro h
        obtain ⟨n, rfl, hn⟩ := hT.bool p h
        simp only [Core.doPrim] at g1
        cases ho : M.op n ((Core.vals d1 es.length).map Val.view) σ1.world with
        | none => rw [ho] at g1; simp at g1
        | some q =>
          rw [ho] at g1
          simp only [Option.map_some, Option.some.injEq, PrimRes.ok.injEq] at g1
          rw [← g1.1]
          rcases hn _ _ _ ho with h | h
          · left; rw [h]
          · right; rw [h]

theorem VR.toBool {v : Val} {w : CVal} (h : VR G v w) (hb : v = .atom 0 ∨ v = .atom 2) : w.toBool = w := by
  rcases hb with rfl | rfl <;> cases h <;> rfl

theorem clean_cons {f : Frame} {fs : List Frame} (hf : f.clean = true) (h : fs.all Frame.clean = true) : (f :: fs).all Frame.clean = true := by
  simp only [List.all_cons, hf, h, Bool.and_self]

theorem cexp_ite (hQ : ∀ p n, (Q p n).Perm (List.range n)) (hT : TypesOk M T) {a b c : Exp} (ha : CexpOk M T Q P G a) (hb : CexpOk M T Q P G b) (hc : CexpOk M T Q P G c)
    (hca : isCexp T a = true) (hcb : isCexp T b = true)
    (hor : boolE T b = true → boolE T c = true → ∀ renv, (cgCexp T renv a).same (cgCexp T renv b) = true → NoEff M a ∧ NoEff M b) :
    CexpOk M T Q P G (.ite a b c) := by
  intro renv ρ r σ σt her hs
  have era : ER G renv ρ r (fun x => Free x a) := her.sub (fun x hx _ => .iteA _ _ hx)
  have erb : ER G renv ρ r (fun x => Free x b) := her.sub (fun x hx _ => .iteB _ _ hx)
  have erc : ER G renv ρ r (fun x => Free x c) := her.sub (fun x hx _ => .iteC _ _ hx)
  have safes : isSafe T (.ite a b c) = true → isSafe T a = true ∧ isSafe T b = true ∧ isSafe T c = true := fun h => by
    simp only [isSafe, Bool.and_eq_true] at h; exact ⟨h.1.1, h.1.2, h.2⟩
  rcases ha renv ρ r σ σt era hs with hf | ⟨ws, v, σ1, w, σt1, r1, h1, h2, hvw, hs1, hbl, hr1, _⟩
  · left; intro κ; exact srcFail (s' := .ev a ρ (.ite b c ρ κ) σ) rfl (hf _)
  have fold : ∀ x : Exp, (if v.isFalse then c else b) = x → (∀ κ, (srcSys M T Q).Fails (.ev x ρ κ σ1)) → ∀ κ, (srcSys M T Q).Fails (.ev (.ite a b c) ρ κ σ) := by
    intro x hx hf κ
    refine srcFail (s' := .ev a ρ (.ite b c ρ κ) σ) rfl ((h1 _).fails (srcFail (s' := .ev x ρ κ σ1) ?_ (hf κ)))
    simp only [srcSys, coreSys, Core.step, hx]
  have fold' : ∀ (x : Exp) (ws2 : List W) (v2 : Val) (σ2 : Store W), (if v.isFalse then c else b) = x → (∀ κ, (srcSys M T Q).Reaches (.ev x ρ κ σ1) ws2 (.ret v2 κ σ2)) →
      ∀ κ, (srcSys M T Q).Reaches (.ev (.ite a b c) ρ κ σ) (ws ++ ws2) (.ret v2 κ σ2) := by
    intro x ws2 v2 σ2 hx hf κ
    refine srcCons (s1 := .ev a ρ (.ite b c ρ κ) σ) rfl rfl ((h1 _).trans (srcCons (s1 := .ev x ρ κ σ1) ?_ rfl (hf κ)))
    simp only [srcSys, coreSys, Core.step, hx]
  simp only [cgCexp, mkIte]
  by_cases hboth : ((cgCexp T renv b).isBool T && (cgCexp T renv c).isBool T && (cgCexp T renv c).isFalse T) = true
  · simp only [hboth, if_true]
    simp only [Bool.and_eq_true] at hboth
    cases hv : v.isFalse
    · -- the second part
      rcases hb renv ρ r1 σ1 σt1 (erb.below hbl) hs1 with hf | ⟨ws2, v2, σ2, w2, σt2, r2, g1, g2, g3, g4, g5, g6, g7⟩
      · exact Or.inl (fold b (by simp [hv]) hf)
      · right
        have hbool := g7 (isBool_code _ _ _ hboth.1.1)
        refine ⟨ws ++ ws2, v2, σ2, w2, σt2, r2, fold' b ws2 v2 σ2 (by simp [hv]) g1, fun fs l hfs => ?_, g3, g4, hbl.trans g5 (Nat.le_refl _), fun h => by rw [g6 (safes h).2.1, hr1 (safes h).1], fun _ => hbool⟩
        refine tgtCons (s1 := .ev (cgCexp T renv a) (.both (cgCexp T renv b) :: fs) l r σt) rfl rfl ?_
        refine (h2 _ _ (hfs.imp (fun h => (safes h).1) (clean_cons rfl))).trans ?_
        refine tgtCons (s1 := .ev (cgCexp T renv b) (.bool :: fs) l r1 σt1) (by simp [cSys, cstep, ← hvw.isFalse, hv]) rfl ?_
        refine (g2 _ _ (hfs.imp (fun h => (safes h).2.1) (clean_cons rfl))).snoc ?_ rfl
        simp only [cSys, cstep, g3.toBool hbool]
    · -- false
      obtain ⟨eff, p, rfl, hp⟩ := isFalse_code hboth.2
      obtain ⟨n, rfl, hn⟩ := hT.zero p hp
      right
      refine ⟨ws, .atom 0, σ1, .atom 0, σt1, r1, ?_, fun fs l hfs => ?_, .atom 0, hs1, hbl, fun h => hr1 (safes h).1, fun _ => Or.inl rfl⟩
      · have hord : cgOrder T Q (.prim eff (.op n)) [] = [] := by
          have := cgOrder_fair T hQ (.prim eff (.op n)) []
          exact List.Perm.eq_nil this
        have := fold' (.prim eff (.op n) []) [] (.atom 0) σ1 (by simp [hv]) (fun κ => by
          refine srcCons (s1 := .args (.prim eff (.op n)) [] (fun _ => .trap) [] ρ κ σ1) (by simp only [srcSys, coreSys, Core.step, hord]) rfl ?_
          exact .one (by simp [srcSys, coreSys, Core.step, Core.doPrim, Core.vals, hn]) rfl)
        simpa using this
      · refine tgtCons (s1 := .ev (cgCexp T renv a) (.both (cgCexp T renv b) :: fs) l r σt) rfl rfl ?_
        refine (h2 _ _ (hfs.imp (fun h => (safes h).1) (clean_cons rfl))).snoc ?_ rfl
        simp [cSys, cstep, ← hvw.isFalse, hv]
  · simp only [hboth, Bool.false_eq_true, if_false]
    clear hboth
    by_cases hei : ((cgCexp T renv b).isBool T && (cgCexp T renv c).isBool T && (cgCexp T renv a).same (cgCexp T renv b)) = true
    · simp only [hei, if_true]
      simp only [Bool.and_eq_true] at hei
      have hbb := isBool_code _ _ _ hei.1.1
      have hbc := isBool_code _ _ _ hei.1.2
      cases hv : v.isFalse
      · -- true: `b` would give the same value again
        obtain ⟨na, nb⟩ := hor hbb hbc renv hei.2
        have sa := noEff_safe na hca
        have sb := noEff_safe nb hcb
        have hcode := same_eq _ _ hei.2 (safe_noGc T renv a sa) (safe_noGc T renv b sb)
        rcases noEff_eval (T := T) hQ na ρ σ with hf | ⟨v', hv'⟩
        · left; intro κ; exact srcFail (s' := .ev a ρ (.ite b c ρ κ) σ) rfl (hf _)
        obtain ⟨rfl, rfl, rfl⟩ := src_unique h1 hv'
        rcases hb renv ρ r σ1 σt erb hs with hf | ⟨ws2, v2, σ2, w2, σt2, r2, g1, g2, g3, g4, g5, g6, g7⟩
        · exact Or.inl (fold b (by simp [hv]) hf)
        rcases noEff_eval (T := T) hQ nb ρ σ1 with hf | ⟨v', hv''⟩
        · exact Or.inl (fold b (by simp [hv]) hf)
        obtain ⟨rfl, rfl, rfl⟩ := src_unique g1 hv''
        have hww : w = w2 := tgt_unique (h2 [] _ (Or.inl sa)) (by rw [hcode]; exact g2 [] _ (Or.inl sb))
        subst hww
        have hv2 : v2 = .atom 2 := by
          rcases g7 hbb with rfl | h
          · cases g3; rw [hvw.isFalse] at hv; simp [CVal.isFalse] at hv
          · exact h
        subst hv2
        right
        refine ⟨[], .atom 2, σ2, .atom 2, σt1, r1, ?_, fun fs l hfs => ?_, .atom 2, hs1, hbl, fun h => hr1 (safes h).1, fun _ => Or.inr rfl⟩
        · have := fold' b [] (.atom 2) σ2 (by simp [hv]) g1
          simpa using this
        · refine tgtCons (s1 := .ev (cgCexp T renv a) (.either (cgCexp T renv c) :: fs) l r σt) rfl rfl ?_
          refine (h2 _ _ (hfs.imp (fun h => (safes h).1) (clean_cons rfl))).snoc ?_ rfl
          simp [cSys, cstep, ← hvw.isFalse, hv]
      · rcases hc renv ρ r1 σ1 σt1 (erc.below hbl) hs1 with hf | ⟨ws2, v2, σ2, w2, σt2, r2, g1, g2, g3, g4, g5, g6, g7⟩
        · exact Or.inl (fold c (by simp [hv]) hf)
        · right
          refine ⟨ws ++ ws2, v2, σ2, w2, σt2, r2, fold' c ws2 v2 σ2 (by simp [hv]) g1, fun fs l hfs => ?_, g3, g4, hbl.trans g5 (Nat.le_refl _), fun h => by rw [g6 (safes h).2.2, hr1 (safes h).1], fun _ => g7 hbc⟩
          refine tgtCons (s1 := .ev (cgCexp T renv a) (.either (cgCexp T renv c) :: fs) l r σt) rfl rfl ?_
          refine (h2 _ _ (hfs.imp (fun h => (safes h).1) (clean_cons rfl))).trans ?_
          refine tgtCons (s1 := .ev (cgCexp T renv c) (.bool :: fs) l r1 σt1) (by simp [cSys, cstep, ← hvw.isFalse, hv]) rfl ?_
          refine (g2 _ _ (hfs.imp (fun h => (safes h).2.2) (clean_cons rfl))).snoc ?_ rfl
          simp only [cSys, cstep, g3.toBool (g7 hbc)]
    · simp only [hei, Bool.false_eq_true, if_false]
      clear hei
      have hx : ∃ x y : Exp, (if v.isFalse then c else b) = x ∧ (if v.isFalse then cgCexp T renv c else cgCexp T renv b) = cgCexp T renv x ∧ CexpOk M T Q P G x ∧
          ER G renv ρ r (fun z => Free z x) ∧ (isSafe T (.ite a b c) = true → isSafe T x = true) ∧ (boolE T (.ite a b c) = true → boolE T x = true) := by
        cases v.isFalse
        · exact ⟨b, b, rfl, rfl, hb, erb, fun h => (safes h).2.1, fun h => by simp only [boolE, Bool.and_eq_true] at h; exact h.1⟩
        · exact ⟨c, c, rfl, rfl, hc, erc, fun h => (safes h).2.2, fun h => by simp only [boolE, Bool.and_eq_true] at h; exact h.2⟩
      obtain ⟨x, _, hx1, hx2, hx3, hx4, hx5, hx6⟩ := hx
      rcases hx3 renv ρ r1 σ1 σt1 (hx4.below hbl) hs1 with hf | ⟨ws2, v2, σ2, w2, σt2, r2, g1, g2, g3, g4, g5, g6, g7⟩
      · exact Or.inl (fold x hx1 hf)
      · right
        refine ⟨ws ++ ws2, v2, σ2, w2, σt2, r2, fold' x ws2 v2 σ2 hx1 g1, fun fs l hfs => ?_, g3, g4, hbl.trans g5 (Nat.le_refl _), fun h => by rw [g6 (hx5 h), hr1 (safes h).1], fun h => g7 (hx6 h)⟩
        refine tgtCons (s1 := .ev (cgCexp T renv a) (.ite (cgCexp T renv b) (cgCexp T renv c) :: fs) l r σt) rfl rfl ?_
        refine (h2 _ _ (hfs.imp (fun h => (safes h).1) (clean_cons rfl))).trans ?_
        refine tgtCons (s1 := .ev (cgCexp T renv x) fs l r1 σt1) (by simp only [cSys, cstep, ← hvw.isFalse, hx2]) rfl ?_
        exact g2 _ _ (hfs.imp hx5 id)

theorem cexp_ok (hQ : ∀ p n, (Q p n).Perm (List.range n)) (hT : TypesOk M T) {e : Exp} (hv : Value M T G.cl G.labs e) : isCexp T e = true → CexpOk M T Q P G e := by
  induction hv with
  | var hx => intro _; exact cexp_var hx
  | ite _ _ _ hor iha ihb ihc =>
    intro h
    simp only [isCexp, Bool.and_eq_true] at h
    exact cexp_ite hQ hT (iha h.1.1) (ihb h.1.2) (ihc h.2) h.1.1 h.1.2 hor
  | prim hp _ hs ih =>
    intro h
    simp only [isCexp, Bool.and_eq_true] at h
    exact cexp_prim hQ hT hp h.1 (hs h.1 h.2) (fun e he => ih e he (areCexp_mem h.2 e he))
  | _ => intro h; simp [isCexp, letExp] at h

end Verif.Cgen

import Verif.Cgen.Eval
/-
Code for expressions without calls.
-/
namespace Verif.Cgen
open Verif.Core Sys
variable {W : Type} {M : Sem W} {T : Texts} {Q : PrimName → Nat → List Nat} {P : Prog} {G : Glob}

/-- the context of the code generator. -/
def Glob.ctx (T : Texts) (G : Glob) : Ctx := ⟨T, G.cases, G.cl⟩

/-- The code for `e` stores the value of `e` in its target. -/
def ValueOk (M : Sem W) (T : Texts) (Q : PrimName → Nat → List Nat) (P : Prog) (G : Glob) (e : Exp) : Prop :=
  ∀ renv t ρ r σ σt, ER G renv ρ r (fun x => Free x e) → SR G σ σt →
    (∀ κ, (srcSys M T Q).Fails (.ev e ρ κ σ)) ∨
    ∃ ws v σ' w σt' r', (∀ κ, (srcSys M T Q).Reaches (.ev e ρ κ σ) ws (.ret v κ σ')) ∧
      (∀ rest, (cSys M Q P).Reaches (.run (cgTo (G.ctx T) e renv t ++ rest) r σt) ws (.run rest (t.regs w r') (t.store w σt'))) ∧
      VR G v w ∧ SR G σ' σt' ∧ Below renv.length r r'

/-- `cg-cexp-to`. -/
theorem cexpTo_ok (hQ : ∀ p n, (Q p n).Perm (List.range n)) {e : Exp} (h : CexpOk M T Q P G e) {renv : Renv} {t : Tgt} {ρ : Env} {r : Regs} {σ : Store W} {σt : CStore W}
    (her : ER G renv ρ r (fun x => Free x e)) (hs : SR G σ σt) :
    (∀ κ, (srcSys M T Q).Fails (.ev e ρ κ σ)) ∨
    ∃ ws v σ' w σt' r', (∀ κ, (srcSys M T Q).Reaches (.ev e ρ κ σ) ws (.ret v κ σ')) ∧
      (∀ rest, (cSys M Q P).Reaches (.run (cexpTo T renv t e ++ rest) r σt) ws (.run rest (t.regs w r') (t.store w σt'))) ∧
      VR G v w ∧ SR G σ' σt' ∧ Below renv.length r r' := by
  by_cases hv : t = .void ∧ ∃ eff, e = .prim eff .void []
  · obtain ⟨rfl, eff, rfl⟩ := hv
    right
    refine ⟨[], .atom 1, σ, .atom 1, σt, r, fun κ => ?_, fun rest => .refl _, .atom 1, hs, .refl _ _⟩
    have hord : cgOrder T Q (.prim eff .void) [] = [] := List.Perm.eq_nil (cgOrder_fair T hQ (.prim eff .void) [])
    refine srcCons (s1 := .args (.prim eff .void) [] (fun _ => .trap) [] ρ κ σ) (by simp only [Core.step, hord]) rfl ?_
    exact .one (by simp [srcSys, coreSys, Core.step, Core.doPrim, Core.vals]) rfl
  · rcases h renv ρ r σ σt her hs with hf | ⟨ws, v, σ1, w, σt1, r1, h1, h2, h3, h4, h5, _, _⟩
    · exact Or.inl hf
    · right
      refine ⟨ws, v, σ1, w, σt1, r1, h1, fun rest => ?_, h3, h4, h5⟩
      have : cexpTo T renv t e = [.set t (cgCexp T renv e)] := by
        unfold cexpTo
        split
        · exact absurd ⟨rfl, _, rfl⟩ hv
        · rfl
      rw [this]
      refine tgtCons (s1 := .ev (cgCexp T renv e) [] (.set t rest) r σt) rfl rfl ?_
      exact (h2 [] _ (Or.inr rfl)).snoc rfl (by cases t <;> rfl)

/-! ### operands in temporaries -/

/-- An operand after `cg-prim-args`, in an environment `renv` extended by temporaries below `n`. -/
def ArgX (M : Sem W) (T : Texts) (Q : PrimName → Nat → List Nat) (P : Prog) (G : Glob) (renv : Renv) (n : Nat) (ρ : Env) (r : Regs) (v : Val) (e : Exp) (a : CExp) : Prop :=
  (isSafe T e = true ∧ CexpOk M T Q P G e ∧ ∃ k, a = cgCexp T (List.replicate k none ++ renv) e ∧ ER G (List.replicate k none ++ renv) ρ r (fun x => Free x e) ∧
    renv.length + k ≤ n) ∨
  (isSafe T e = false ∧ ∃ j w, a = .reg j ∧ r j = some w ∧ VR G v w ∧ renv.length ≤ j ∧ j < n)

theorem ArgX.ok {renv : Renv} {n i : Nat} {ρ : Env} {r : Regs} {d : Nat → Val} {e : Exp} {a : CExp} (h : ArgX M T Q P G renv n ρ r (d i) e a) :
    ArgOk M T Q P G ρ r d i e a := by
  rcases h with ⟨h1, h2, k, h3, h4, _⟩ | ⟨h1, j, w, h2, h3, h4, _⟩
  · exact Or.inl ⟨h1, h2, _, h3, h4⟩
  · exact Or.inr ⟨h1, j, w, h2, h3, h4⟩

theorem ArgX.below {renv : Renv} {n : Nat} {ρ : Env} {r r' : Regs} {v : Val} {e : Exp} {a : CExp} (h : ArgX M T Q P G renv n ρ r v e a) (hb : Below n r r') :
    ArgX M T Q P G renv n ρ r' v e a := by
  rcases h with ⟨h1, h2, k, h3, h4, h5⟩ | ⟨h1, j, w, h2, h3, h4, h5, h6⟩
  · exact Or.inl ⟨h1, h2, k, h3, h4.below (hb.mono (by simp; omega)), h5⟩
  · exact Or.inr ⟨h1, j, w, h2, by rw [hb j h6]; exact h3, h4, h5, h6⟩

theorem ER.tmps {renv : Renv} {ρ : Env} {r : Regs} {S : Id → Prop} (h : ER G renv ρ r S) (k : Nat) : ER G (List.replicate k none ++ renv) ρ r S := by
  induction k with
  | zero => exact h
  | succ k ih => exact ih.tmp

theorem cgArgs_length {C : Ctx} : ∀ (es : List Exp) (renv : Renv), (cgArgs C es renv).2.1.length = es.length := by
  intro es
  induction es with
  | nil => intro renv; rfl
  | cons e es ih => intro renv; simp only [cgArgs]; simp [ih]

/-- the environment after `cg-prim-args`. -/
theorem cgArgs_renv {C : Ctx} : ∀ (es : List Exp) (renv : Renv), ∃ k, (cgArgs C es renv).2.2 = List.replicate k none ++ renv := by
  intro es
  induction es with
  | nil => intro renv; exact ⟨0, rfl⟩
  | cons e es ih =>
    intro renv
    simp only [cgArgs, cgArg]
    split
    · exact ih renv
    · obtain ⟨k, hk⟩ := ih (none :: renv)
      exact ⟨k + 1, by simp only [hk, List.replicate_succ']; simp⟩

theorem range'_filter_cons (f : Nat → Bool) (o n : Nat) : (List.range' o (n + 1)).filter f = (if f o then [o] else []) ++ (List.range' (o + 1) n).filter f := by
  rw [List.range'_succ, List.filter_cons]; split <;> rfl

/-- The code of `cg-prim-args` for the operands `es`, which are the operands of `all` from number `o` on. -/
theorem argsCode_ok {op : Op} {all : List Exp} {ρ : Env} {renv : Renv} : ∀ (es : List Exp) (k o : Nat) (r : Regs) (σ : Store W) (σt : CStore W) (d : Nat → Val),
    (∀ e ∈ es, ValueOk M T Q P G e ∧ (isSafe T e = true → CexpOk M T Q P G e)) →
    (∀ (i : Nat), es[i]? = all[o + i]? ∨ es.length ≤ i) →
    ER G renv ρ r (fun x => ∃ e ∈ es, Free x e) → SR G σ σt →
    (∀ κ tail, (srcSys M T Q).Fails (.args op all d ((List.range' o es.length).filter (fun i => !safeAt T all i) ++ tail) ρ κ σ)) ∨
    ∃ ws d1 σ' σt' r', (∀ κ tail, (srcSys M T Q).Reaches (.args op all d ((List.range' o es.length).filter (fun i => !safeAt T all i) ++ tail) ρ κ σ) ws
        (.args op all d1 tail ρ κ σ')) ∧
      (∀ rest, (cSys M Q P).Reaches (.run ((cgArgs (G.ctx T) es (List.replicate k none ++ renv)).1 ++ rest) r σt) ws (.run rest r' σt')) ∧
      SR G σ' σt' ∧ Below (renv.length + k) r r' ∧ (∀ j, j < o → d1 j = d j) ∧
      (∀ i e a, es[i]? = some e → (cgArgs (G.ctx T) es (List.replicate k none ++ renv)).2.1[i]? = some a →
        ArgX M T Q P G renv (cgArgs (G.ctx T) es (List.replicate k none ++ renv)).2.2.length ρ r' (d1 (o + i)) e a) := by
  intro es
  induction es with
  | nil =>
    intro k o r σ σt d _ _ _ hs
    exact Or.inr ⟨[], d, σ, σt, r, fun κ tail => .refl _, fun rest => .refl _, hs, .refl _ _, fun _ _ => rfl, by simp⟩
  | cons e es ih =>
    intro k o r σ σt d hes hall her hs
    have hall' : ∀ (i : Nat), es[i]? = all[o + 1 + i]? ∨ es.length ≤ i := fun i => by
      rcases hall (i + 1) with h | h
      · left; rw [show o + 1 + i = o + (i + 1) by omega, ← h]; rfl
      · right; simpa using h
    have ho : all[o]? = some e := by
      rcases hall 0 with h | h
      · simpa using h.symm
      · simp at h
    have hes' : ∀ e' ∈ es, ValueOk M T Q P G e' ∧ (isSafe T e' = true → CexpOk M T Q P G e') := fun e' h => hes e' (List.mem_cons_of_mem _ h)
    have her' : ER G renv ρ r (fun x => ∃ e ∈ es, Free x e) := her.sub (fun x ⟨e', h1, h2⟩ _ => ⟨e', List.mem_cons_of_mem _ h1, h2⟩)
    have ere : ER G renv ρ r (fun x => Free x e) := her.sub (fun x hx _ => ⟨e, List.mem_cons_self .., hx⟩)
    simp only [List.length_cons, range'_filter_cons]
    cases hsafe : isSafe T e
    · -- into a temporary
      have hf0 : safeAt T all o = false := by simp [safeAt, ho, hsafe]
      have hcode : cgArgs (G.ctx T) (e :: es) (List.replicate k none ++ renv) =
          (cgTo (G.ctx T) e (List.replicate k none ++ renv) (.reg (renv.length + k)) ++ (cgArgs (G.ctx T) es (List.replicate (k + 1) none ++ renv)).1,
            .reg (renv.length + k) :: (cgArgs (G.ctx T) es (List.replicate (k + 1) none ++ renv)).2.1, (cgArgs (G.ctx T) es (List.replicate (k + 1) none ++ renv)).2.2) := by
        simp [cgArgs, cgArg, Glob.ctx, hsafe, List.replicate_succ, Nat.add_comm]
      simp only [hf0, Bool.not_false, if_true, List.cons_append, List.nil_append, hcode]
      rcases (hes e (List.mem_cons_self ..)).1 (List.replicate k none ++ renv) (.reg (renv.length + k)) ρ r σ σt (ere.tmps k) hs with hf | ⟨ws, v, σ1, w, σt1, r1, h1, h2, h3, h4, h5⟩
      · left; intro κ tail
        exact srcFail (s' := .ev e ρ (.args op all d o ((List.range' (o + 1) es.length).filter (fun i => !safeAt T all i) ++ tail) ρ κ) σ) (by simp [Core.step, ho]) (hf _)
      · have h5' : Below (renv.length + k) r r1 := by simpa [Nat.add_comm] using h5
        have h6 : Below (renv.length + k) r (r1.set (renv.length + k) w) := h5'.trans (.set _ _ _ _ (Nat.le_refl _)) (Nat.le_refl _)
        rcases ih (k + 1) (o + 1) (r1.set (renv.length + k) w) σ1 σt1 (Core.upd d o v) hes' hall' (her'.below (h6.mono (by omega))) h4 with hf | ⟨ws2, d1, σ2, σt2, r2, g1, g2, g3, g4, g5, g6⟩
        · left; intro κ tail
          refine srcFail (s' := .ev e ρ (.args op all d o ((List.range' (o + 1) es.length).filter (fun i => !safeAt T all i) ++ tail) ρ κ) σ) (by simp [Core.step, ho]) ?_
          exact (h1 _).fails (srcFail (s' := .args op all (Core.upd d o v) ((List.range' (o + 1) es.length).filter (fun i => !safeAt T all i) ++ tail) ρ κ σ1) rfl (hf κ tail))
        · right
          refine ⟨ws ++ ws2, d1, σ2, σt2, r2, fun κ tail => ?_, fun rest => ?_, g3, h6.trans g4 (by omega), fun j hj => ?_, fun i e' a he' ha => ?_⟩
          · refine srcCons (s1 := .ev e ρ (.args op all d o ((List.range' (o + 1) es.length).filter (fun i => !safeAt T all i) ++ tail) ρ κ) σ) (by simp [Core.step, ho]) rfl ?_
            exact (h1 _).trans (srcCons (s1 := .args op all (Core.upd d o v) ((List.range' (o + 1) es.length).filter (fun i => !safeAt T all i) ++ tail) ρ κ σ1) rfl rfl (g1 κ tail))
          · rw [List.append_assoc]
            exact (h2 _).trans (g2 rest)
          · rw [g5 j (by omega)]; simp [Core.upd, show j ≠ o by omega]
          · cases i with
            | zero =>
              simp only [List.getElem?_cons_zero, Option.some.injEq] at he' ha
              subst he' ha
              obtain ⟨k', hk'⟩ := cgArgs_renv (C := G.ctx T) es (List.replicate (k + 1) none ++ renv)
              refine Or.inr ⟨hsafe, renv.length + k, w, rfl, ?_, ?_, by omega, by rw [hk']; simp; omega⟩
              · rw [g4 _ (by omega)]; simp [Regs.set]
              · rw [Nat.add_zero, g5 o (by omega)]; simpa [Core.upd] using h3
            | succ i =>
              have := g6 i e' a (by simpa using he') (by simpa using ha)
              rwa [show o + (i + 1) = o + 1 + i by omega]
    · -- a C expression
      have hf0 : safeAt T all o = true := by simp [safeAt, ho, hsafe]
      have hcode : cgArgs (G.ctx T) (e :: es) (List.replicate k none ++ renv) =
          ((cgArgs (G.ctx T) es (List.replicate k none ++ renv)).1, cgCexp T (List.replicate k none ++ renv) e :: (cgArgs (G.ctx T) es (List.replicate k none ++ renv)).2.1,
            (cgArgs (G.ctx T) es (List.replicate k none ++ renv)).2.2) := by
        simp [cgArgs, cgArg, Glob.ctx, hsafe]
      simp only [hf0, Bool.not_true, Bool.false_eq_true, if_false, List.nil_append, hcode]
      rcases ih k (o + 1) r σ σt d hes' hall' her' hs with hf | ⟨ws2, d1, σ2, σt2, r2, g1, g2, g3, g4, g5, g6⟩
      · exact Or.inl hf
      · right
        refine ⟨ws2, d1, σ2, σt2, r2, g1, g2, g3, g4, fun j hj => g5 j (by omega), fun i e' a he' ha => ?_⟩
        cases i with
        | zero =>
          simp only [List.getElem?_cons_zero, Option.some.injEq] at he' ha
          subst he' ha
          obtain ⟨k', hk'⟩ := cgArgs_renv (C := G.ctx T) es (List.replicate k none ++ renv)
          exact Or.inl ⟨hsafe, (hes _ (List.mem_cons_self ..)).2 hsafe, k, rfl, (ere.tmps k).below (by simpa [Nat.add_comm] using g4), by rw [hk']; simp; omega⟩
        | succ i =>
          have := g6 i e' a (by simpa using he') (by simpa using ha)
          rwa [show o + (i + 1) = o + 1 + i by omega]


/-! ### primitives -/

theorem value_prim (hQ : ∀ p n, (Q p n).Perm (List.range n)) {eff : Effect} {p : PrimName} {es : List Exp} (hp : p ≠ .halt)
    (hc : isCexp T (.prim eff p es) = false) (hes : ∀ e ∈ es, ValueOk M T Q P G e ∧ (isSafe T e = true → CexpOk M T Q P G e)) : ValueOk M T Q P G (.prim eff p es) := by
  intro renv t ρ r σ σt her hs
  have her' : ER G renv ρ r (fun x => ∃ e ∈ es, Free x e) := her.sub (fun x ⟨e, h1, h2⟩ _ => .prim eff p h1 h2)
  have hord : cgOrder T Q (.prim eff p) es = (List.range' 0 es.length).filter (fun i => !safeAt T es i) ++ (Q p es.length).filter (safeAt T es) := by
    simp only [cgOrder, List.range_eq_range']
  have hcode : cgTo (G.ctx T) (.prim eff p es) renv t = (cgArgs (G.ctx T) es renv).1 ++
      [if T.cexp p then .set t (.prim eff.alloc (cgArgs (G.ctx T) es renv).2.2.length p (cgArgs (G.ctx T) es renv).2.1)
        else .prim t eff.alloc (cgArgs (G.ctx T) es renv).2.2.length p (cgArgs (G.ctx T) es renv).2.1] := by
    rw [cgTo]
    have : isCexp (G.ctx T).texts (.prim eff p es) = false := hc
    rw [this]; rfl
  have hlen := cgArgs_length (C := G.ctx T) es renv
  rcases argsCode_ok (M := M) (T := T) (Q := Q) (P := P) (G := G) (op := .prim eff p) (all := es) (ρ := ρ) (renv := renv) es 0 0 r σ σt (fun _ => .trap) hes
      (fun i => Or.inl (by simp)) her' hs with hf | ⟨ws, d1, σ1, σt1, r1, h1, h2, h3, h4, h5, h6⟩
  · left; intro κ
    exact srcFail (s' := .args (.prim eff p) es (fun _ => .trap) ((List.range' 0 es.length).filter (fun i => !safeAt T es i) ++ (Q p es.length).filter (safeAt T es)) ρ κ σ)
      (by simp only [Core.step, hord]) (hf _ _)
  simp only [List.replicate_zero, List.nil_append, Nat.zero_add] at h2 h6
  have hmem : ∀ i ∈ Q p es.length, i < es.length := fun i hi => List.mem_range.1 ((hQ p es.length).subset hi)
  -- the registers when the operands are evaluated
  have main : ∀ (gc : Bool) (r2 : Regs), Below (cgArgs (G.ctx T) es renv).2.2.length r1 r2 →
      (∀ κ, (srcSys M T Q).Fails (.ev (.prim eff p es) ρ κ σ)) ∨
      ∃ (ws2 : List W) (v : Val) (σ2 : Store W) (w : CVal) (σt2 : CStore W) (d' : (Nat → CVal) × CStore W), (∀ κ, (srcSys M T Q).Reaches (.ev (.prim eff p es) ρ κ σ) (ws ++ ws2 ++ change d'.2.world σ2.world) (.ret v κ σ2)) ∧
        (∀ fs l, (cSys M Q P).Reaches (.args gc (cgArgs (G.ctx T) es renv).2.2.length p (cgArgs (G.ctx T) es renv).2.1 (fun _ => .trap) (Q p es.length) fs l r2 σt1) ws2
          (.args gc (cgArgs (G.ctx T) es renv).2.2.length p (cgArgs (G.ctx T) es renv).2.1 d'.1 [] fs l r2 d'.2)) ∧
        doPrim M p (vals d'.1 (cgArgs (G.ctx T) es renv).2.1.length) d'.2 = some (.ok w σt2) ∧ VR G v w ∧ SR G σ2 σt2 := by
    intro gc r2 hb
    rcases args_ok (M := M) (T := T) (Q := Q) (P := P) (G := G) (op := .prim eff p) (es := es) (as := (cgArgs (G.ctx T) es renv).2.1) (ρ := ρ) (r := r2) (gc := gc)
        (live := (cgArgs (G.ctx T) es renv).2.2.length) (p := p) (Q p es.length) d1 (fun _ => .trap) σ1 σt1 (fun i hi => by
          have hi' := hmem i hi
          have hi2 : i < (cgArgs (G.ctx T) es renv).2.1.length := by rw [hlen]; exact hi'
          refine ⟨es[i], (cgArgs (G.ctx T) es renv).2.1[i], List.getElem?_eq_getElem hi', List.getElem?_eq_getElem hi2, ?_⟩
          have := h6 i _ _ (List.getElem?_eq_getElem hi') (List.getElem?_eq_getElem hi2)
          exact (this.below hb).ok) ((hQ p es.length).nodup_iff.2 List.nodup_range)
        (fun j hj hm => absurd ((hQ p es.length).mem_iff.2 (List.mem_range.2 hj)) hm) h3 with hf | ⟨ws2, d2, d2', σ2, σt2, g1, g2, g3, g4⟩
    · left; intro κ
      refine srcFail (s' := .args (.prim eff p) es (fun _ => .trap) ((List.range' 0 es.length).filter (fun i => !safeAt T es i) ++ (Q p es.length).filter (safeAt T es)) ρ κ σ)
        (by simp only [Core.step, hord]) ((h1 _ _).fails (hf κ))
    · rcases doPrim_rel (M := M) (p := p) (f2_vals g3) g4 with hn | ⟨_, _, hh, _⟩ | ⟨v, w, σ3, σt3, k1, k2, k3, k4⟩
      · left; intro κ
        refine srcFail (s' := .args (.prim eff p) es (fun _ => .trap) ((List.range' 0 es.length).filter (fun i => !safeAt T es i) ++ (Q p es.length).filter (safeAt T es)) ρ κ σ)
          (by simp only [Core.step, hord]) ((h1 _ _).fails ((g1 κ).fails (.now (by simp [srcSys, coreSys, Core.step, hn]) rfl)))
      · exact absurd hh hp
      · right
        refine ⟨ws2, v, σ3, w, σt3, (d2', σt2), fun κ => ?_, g2, by rw [hlen]; exact k2, k3, k4⟩
        refine srcCons (s1 := .args (.prim eff p) es (fun _ => .trap) ((List.range' 0 es.length).filter (fun i => !safeAt T es i) ++ (Q p es.length).filter (safeAt T es)) ρ κ σ)
          (by simp only [Core.step, hord]) rfl ?_
        rw [show (d2', σt2).2.world = σ2.world from g4.world.symm]
        exact ((h1 _ _).trans (g1 κ)).trans (.step (A := srcSys M T Q) (s1 := .ret v κ σ3) (by simp [srcSys, coreSys, Core.step, k1]))
  have hble : renv.length ≤ (cgArgs (G.ctx T) es renv).2.2.length := by
    obtain ⟨k, hk⟩ := cgArgs_renv (C := G.ctx T) es renv
    rw [hk]; simp
  cases hcx : T.cexp p
  · -- a statement
    rcases main false (if eff.alloc then r1.gc (cgArgs (G.ctx T) es renv).2.2.length else r1) (by split <;> [exact .gc _ _ _ (Nat.le_refl _); exact .refl _ _]) with
      hf | ⟨ws2, v, σ2, w, σt2, d', g1, g2, g3, g4, g5⟩
    · exact Or.inl hf
    · right
      refine ⟨_, v, σ2, w, σt2, if eff.alloc then r1.gc (cgArgs (G.ctx T) es renv).2.2.length else r1, g1, fun rest => ?_, g4, g5, ?_⟩
      · rw [hcode, List.append_assoc, hcx, List.append_assoc]
        refine (h2 _).trans ?_
        refine tgtCons (s1 := .args false (cgArgs (G.ctx T) es renv).2.2.length p (cgArgs (G.ctx T) es renv).2.1 (fun _ => .trap) (Q p es.length) [] (.set t rest)
          (if eff.alloc then r1.gc (cgArgs (G.ctx T) es renv).2.2.length else r1) σt1) (by simp [cstep, hlen]) rfl ?_
        refine (g2 _ _).trans ?_
        rw [show σ2.world = σt2.world from g5.world]
        refine Reaches.snoc (A := cSys M Q P) (.step (A := cSys M Q P) (s1 := .ret w [] (.set t rest) (if eff.alloc then r1.gc (cgArgs (G.ctx T) es renv).2.2.length else r1) σt2) ?_) rfl (by cases t <;> rfl)
        simp [cSys, cstep, g3]
      · refine Below.trans (h4.mono (by omega)) (m := renv.length) ?_ (Nat.le_refl _)
        split
        · exact .gc _ _ _ hble
        · exact .refl _ _
  · rcases main eff.alloc r1 (.refl _ _) with hf | ⟨ws2, v, σ2, w, σt2, d', g1, g2, g3, g4, g5⟩
    · exact Or.inl hf
    · right
      refine ⟨_, v, σ2, w, σt2, if eff.alloc then r1.gc (cgArgs (G.ctx T) es renv).2.2.length else r1, g1, fun rest => ?_, g4, g5, ?_⟩
      · rw [hcode, List.append_assoc, hcx, List.append_assoc]
        refine (h2 _).trans ?_
        refine tgtCons (s1 := .ev (.prim eff.alloc (cgArgs (G.ctx T) es renv).2.2.length p (cgArgs (G.ctx T) es renv).2.1) [] (.set t rest) r1 σt1) (by simp [cstep]) rfl ?_
        refine tgtCons (s1 := .args eff.alloc (cgArgs (G.ctx T) es renv).2.2.length p (cgArgs (G.ctx T) es renv).2.1 (fun _ => .trap) (Q p es.length) [] (.set t rest) r1 σt1)
          (by simp [cstep, hlen]) rfl ?_
        refine (g2 _ _).trans ?_
        rw [show σ2.world = σt2.world from g5.world]
        refine Reaches.snoc (A := cSys M Q P) (.step (A := cSys M Q P) (s1 := .ret w [] (.set t rest) (if eff.alloc then r1.gc (cgArgs (G.ctx T) es renv).2.2.length else r1) σt2) ?_) rfl (by cases t <;> rfl)
        simp [cSys, cstep, g3]
      · refine Below.trans (h4.mono (by omega)) (m := renv.length) ?_ (Nat.le_refl _)
        split
        · exact .gc _ _ _ hble
        · exact .refl _ _

/-! ### closures -/

theorem takesIds_self (ps : List Id) (es : List Exp) : takesIds ps (ps.map .var ++ es) = true := by
  induction ps with
  | nil => rfl
  | cons x ps ih => simp [takesIds, ih]

theorem curryOf_curry {l : Id} (hl : l.isLabel = true) (ps xs : List Id) : curryOf (.lam ps (curryBody l ps xs)) = some (l, ps, xs.map .var) := by
  have : (ps.map Exp.var ++ xs.map Exp.var).drop ps.length = xs.map Exp.var := List.drop_left' (by simp)
  simp [curryOf, curryBody, hl, takesIds_self, this]

/-- storing the captured values. -/
theorem push_ok {renv : Renv} {ρ : Env} {r : Regs} {σt : CStore W} {t : Tgt} {n : Nat} : ∀ (xs : List Id) (acc : List CVal), (∀ x ∈ xs, plain x) →
    ER G renv ρ r (fun x => x ∈ xs) →
    ∃ (fv : Nat → Val) (fw : Nat → CVal), (∀ i x, xs[i]? = some x → ρ.lookup x = some (fv i)) ∧ (∀ i, i < xs.length → VR G (fv i) (fw i)) ∧
      ∀ rest, (cSys M Q P).Reaches (.push t n (cgCexps T renv (xs.map .var)) acc rest r σt) [] (.push t n [] (((List.range xs.length).map fw).reverse ++ acc) rest r σt) := by
  intro xs
  induction xs with
  | nil => intro acc _ _; exact ⟨fun _ => .trap, fun _ => .trap, by simp, by simp, fun _ => .refl _⟩
  | cons x xs ih =>
    intro acc hp her
    obtain ⟨p, v, w, h1, h2, h3, h4⟩ := her.reg x (List.mem_cons_self ..) (hp x (List.mem_cons_self ..))
    obtain ⟨fv, fw, g1, g2, g3⟩ := ih (w :: acc) (fun y hy => hp y (List.mem_cons_of_mem _ hy)) (her.sub (fun y hy _ => List.mem_cons_of_mem _ hy))
    refine ⟨fun i => match i with | 0 => v | i + 1 => fv i, fun i => match i with | 0 => w | i + 1 => fw i, ?_, ?_, ?_⟩
    · intro i y hy
      cases i with
      | zero => simp at hy; subst hy; exact h2
      | succ i => exact g1 i y (by simpa using hy)
    · intro i hi
      cases i with
      | zero => exact h4
      | succ i => exact g2 i (by simpa using hi)
    · intro rest
      have hpx := hp x (List.mem_cons_self ..)
      simp only [List.map_cons, cgCexps]
      refine tgtCons (s1 := .ev (cgCexp T renv (.var x)) [] (.push t n (cgCexps T renv (xs.map .var)) acc rest) r σt) rfl rfl ?_
      refine tgtCons (s1 := .ret w [] (.push t n (cgCexps T renv (xs.map .var)) acc rest) r σt) (by simp [cgCexp, cgVar, hpx.1, hpx.2, h1, cstep, h3]) rfl ?_
      refine tgtCons (s1 := .push t n (cgCexps T renv (xs.map .var)) (w :: acc) rest r σt) rfl rfl ?_
      have : (List.range (x :: xs).length).map (fun i => match i with | 0 => w | i + 1 => fw i) = w :: (List.range xs.length).map fw := by
        simp [List.range_succ_eq_map, Function.comp_def]
      rw [this, List.reverse_cons, List.append_assoc]
      exact g3 rest

/-- the case number of a label. -/
theorem caseNo_mem {cs : List Curry} (hn : (cs.map Curry.label).Nodup) {c : Curry} (hc : c ∈ cs) : ∃ n, caseNo cs c.label = n + 1 ∧ cs[n]? = some c := by
  obtain ⟨n, hn', hc'⟩ := List.getElem_of_mem hc
  have : cs.findIdx? (fun d => d.label = c.label) = some n := by
    rw [List.findIdx?_eq_some_iff_getElem]
    refine ⟨hn', by simp [hc'], fun j hj => ?_⟩
    have hne : cs[j].label ≠ cs[n].label := by
      intro e
      have := (List.Nodup.getElem_inj_iff hn (i := j) (j := n) (hi := by simp; omega) (hj := by simpa using hn')).1 (by simpa using e)
      omega
    rw [hc'] at hne
    simpa using hne
  exact ⟨n, by simp [caseNo, this], by rw [List.getElem?_eq_getElem hn', hc']⟩

theorem areSafe_vars (T : Texts) (xs : List Id) : areSafe T (xs.map .var) = true := areSafe_of (fun e he => by
  obtain ⟨x, _, rfl⟩ := List.mem_map.1 he; rfl)

theorem free_curryBody {x l : Id} {ps xs : List Id} (h : x ∈ xs) : Free x (curryBody l ps xs) :=
  .appA (.var l) (e := .var x) (by simp [h]) .var

theorem value_curry (hn : (G.cases.map Curry.label).Nodup) {l : Id} {ps xs : List Id} (hl : l ∈ G.labs) (hlab : ∀ l ∈ G.labs, l.isLabel = true) (hps : ps.Nodup) (hpp : ∀ x ∈ ps, plain x)
    (hxp : ∀ x ∈ xs, plain x) (hxs : ∀ x ∈ xs, x ∉ ps) (hc : (⟨l, ps.length, xs.length⟩ : Curry) ∈ G.cases) : ValueOk M T Q P G (.lam ps (curryBody l ps xs)) := by
  intro renv t ρ r σ σt her hs
  right
  obtain ⟨n, hn1, hn2⟩ := caseNo_mem hn hc
  have her' : ER G renv ρ (r.gc renv.length) (fun x => x ∈ xs.reverse) := (her.sub (fun x hx _ => .lam (hxs x (by simpa using hx)) (free_curryBody (by simpa using hx)))).below
    (.gc _ _ _ (Nat.le_refl _))
  obtain ⟨fv, fw, h1, h2, h3⟩ := push_ok (M := M) (T := T) (Q := Q) (P := P) (G := G) (renv := renv) (ρ := ρ) (r := r.gc renv.length) (σt := σt) (t := t) (n := n + 1) xs.reverse []
    (fun x hx => hxp x (by simpa using hx)) her'
  have hcode : cgTo (G.ctx T) (.lam ps (curryBody l ps xs)) renv t = [.close t renv.length (n + 1) (cgCexps T renv (xs.reverse.map .var))] := by
    rw [cgTo]
    simp only [curryOf_curry (hlab l hl), Glob.ctx, areSafe_vars, if_true]
    rw [← List.map_reverse, hn1]
  rw [List.append_nil] at h3
  refine ⟨[], _, σ, .blk (n + 1) ((List.range xs.reverse.length).map fw).reverse, σt, r.gc renv.length, fun κ => .one rfl rfl, fun rest => ?_, ?_, hs, .gc _ _ _ (Nat.le_refl _)⟩
  · rw [hcode]
    refine tgtCons (s1 := .push t (n + 1) (cgCexps T renv (xs.reverse.map .var)) [] rest (r.gc renv.length) σt) rfl rfl ?_
    exact (h3 rest).snoc rfl (by cases t <;> rfl)
  · refine .clos (fun i => fv (xs.length - 1 - i)) (fun i => fw (xs.length - 1 - i)) hn2 hl hps hpp hxp hxs her.top (by simp) (fun i x hx => ?_) (fun i hi => ?_) (fun i hi => ?_)
    · have hi : i < xs.length := (List.getElem?_eq_some_iff.1 hx).1
      refine h1 _ _ ?_
      rw [List.getElem?_reverse (by omega), show xs.length - 1 - (xs.length - 1 - i) = i by omega]
      exact hx
    · rw [List.getElem?_reverse (by simpa using hi)]
      simp only [List.length_map, List.length_range, List.length_reverse, List.getElem?_map]
      rw [List.getElem?_range (by omega)]; rfl
    · exact h2 _ (by simp; omega)

end Verif.Cgen

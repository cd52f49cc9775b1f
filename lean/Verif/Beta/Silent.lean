import Verif.Beta.Rel
/-
Evaluation of expressions without visible effects (C36).
-/
namespace Verif.Beta
open Verif.Core
variable {W : Type} {M : Sem W} {ord : Op → List Exp → List Nat}

/-- the store with more boxes. -/
def grow (σ : Store W) (xs : List Val) : Store W := { σ with heap := σ.heap ++ xs }

theorem grow_nil (σ : Store W) : grow σ [] = σ := by simp [grow]
theorem grow_grow (σ : Store W) (xs ys : List Val) : grow (grow σ xs) ys = grow σ (xs ++ ys) := by simp [grow]

/-- operands that can be evaluated silently. -/
theorem args_rem {op : Op} {es : List Exp} {ρ : Env}
    (h : ∀ e ∈ es, ∀ κ σ, Fails (gstep M ord) (.ev e ρ κ σ) ∨ ∃ v xs, Quiet (gstep M ord) (.ev e ρ κ σ) (.ret v κ (grow σ xs))) (κ : Kont) :
    ∀ (todo : List Nat) (d : Nat → Val) (σ : Store W), (∀ i ∈ todo, i < es.length) →
      Fails (gstep M ord) (.args op es d todo ρ κ σ) ∨
      ∃ d' xs, Quiet (gstep M ord) (.args op es d todo ρ κ σ) (.args op es d' [] ρ κ (grow σ xs)) := by
  intro todo
  induction todo with
  | nil => intro d σ _; exact Or.inr ⟨d, [], by rw [grow_nil]; exact .refl _⟩
  | cons i todo ih =>
    intro d σ hi
    have hlt := hi i (by simp)
    have h1 : gstep M ord (.args op es d (i :: todo) ρ κ σ) = some (.ev es[i] ρ (.args op es d i todo ρ κ) σ) := by
      cases op <;> simp [gstep, step, List.getElem?_eq_getElem hlt]
    rcases h es[i] (List.getElem_mem hlt) (.args op es d i todo ρ κ) σ with hf | ⟨v, xs, hq⟩
    · exact Or.inl (hf.of_step h1)
    · have h2 : Quiet (gstep M ord) (.args op es d (i :: todo) ρ κ σ) (.args op es (upd d i v) todo ρ κ (grow σ xs)) :=
        (Quiet.step h1 rfl hq).trans (.one rfl rfl)
      rcases ih (upd d i v) (grow σ xs) (fun j hj => hi j (by simp [hj])) with hf | ⟨d', ys, hq'⟩
      · exact Or.inl (hf.of_reach h2.reach)
      · exact Or.inr ⟨d', xs ++ ys, by rw [← grow_grow]; exact h2.trans hq'⟩

/-- the operands are in range. -/
theorem fair_lt (hf : FairOrder ord) (op : Op) (es : List Exp) : ∀ i ∈ ord op es, i < es.length := by
  intro i hi
  simpa using ((hf op es).mem_iff (a := i)).mp hi

/-- the evaluation of a removable expression fails, or gives a value and may allocate. -/
theorem rem_eval (hf : FairOrder ord) {e : Exp} (h : Rem M e) : ∀ (ρ : Env) (κ : Kont) (σ : Store W),
    Fails (gstep M ord) (.ev e ρ κ σ) ∨ ∃ v xs, Quiet (gstep M ord) (.ev e ρ κ σ) (.ret v κ (grow σ xs)) := by
  induction h with
  | var x =>
    intro ρ κ σ
    cases hl : (if x.isGlobal then σ.glob x else ρ.lookup x) with
    | none => exact Or.inl (Fails.now (by simp only [gstep, step, hl]) (fun _ _ => by simp))
    | some v => exact Or.inr ⟨v, [], by rw [grow_nil]; exact .one (by simp only [gstep, step, hl]) rfl⟩
  | @ite a b c _ _ _ ha hb hc =>
    intro ρ κ σ
    have h1 : gstep M ord (.ev (.ite a b c) ρ κ σ) = some (.ev a ρ (.ite b c ρ κ) σ) := rfl
    rcases ha ρ (.ite b c ρ κ) σ with hf | ⟨v, xs, hq⟩
    · exact Or.inl (hf.of_step h1)
    · have h2 : Quiet (gstep M ord) (.ev (.ite a b c) ρ κ σ) (.ev (if v.isFalse then c else b) ρ κ (grow σ xs)) :=
        (Quiet.step h1 rfl hq).trans (.one rfl rfl)
      cases hv : v.isFalse with
      | true =>
        rw [hv] at h2
        rcases hc ρ κ (grow σ xs) with hf | ⟨w, ys, hq'⟩
        · exact Or.inl (hf.of_reach h2.reach)
        · exact Or.inr ⟨w, xs ++ ys, by rw [← grow_grow]; exact h2.trans hq'⟩
      | false =>
        rw [hv] at h2
        rcases hb ρ κ (grow σ xs) with hf | ⟨w, ys, hq'⟩
        · exact Or.inl (hf.of_reach h2.reach)
        · exact Or.inr ⟨w, xs ++ ys, by rw [← grow_grow]; exact h2.trans hq'⟩
  | prim hp _ ih =>
    rename_i eff p es _
    intro ρ κ σ
    have h1 : gstep M ord (.ev (.prim eff p es) ρ κ σ) = some (.args (.prim eff p) es (fun _ => .trap) (ord (.prim eff p) es) ρ κ σ) := rfl
    rcases args_rem (op := .prim eff p) (fun e he => ih e he ρ) κ _ (fun _ => .trap) σ (fair_lt hf _ es) with hf | ⟨d, xs, hq⟩
    · exact Or.inl (hf.of_step h1)
    · have h2 := Quiet.step h1 rfl hq
      rcases hp (vals d es.length) (grow σ xs) with hn | ⟨v, ys, hv⟩
      · exact Or.inl (Fails.of_reach h2.reach (Fails.now (by simp only [gstep, step, hn]) (fun _ _ => by simp)))
      · refine Or.inr ⟨v, xs ++ ys, h2.trans ?_⟩
        rw [← grow_grow]
        exact .one (by simp only [gstep, step, hv]; rfl) rfl
  | lam ids b =>
    intro ρ κ σ
    exact Or.inr ⟨.clos ids b ρ, [], by rw [grow_nil]; exact .one rfl rfl⟩
  | @letcc x b _ ih =>
    intro ρ κ σ
    have h1 : gstep M ord (.ev (.letcc x b) ρ κ σ) = some (.ev b (.bind x (.cont κ) ρ) κ σ) := rfl
    rcases ih (.bind x (.cont κ) ρ) κ σ with hf | ⟨v, xs, hq⟩
    · exact Or.inl (hf.of_step h1)
    · exact Or.inr ⟨v, xs, .step h1 rfl hq⟩
  | letE _ _ ih ihb =>
    rename_i ids b es _ _
    intro ρ κ σ
    have h1 : gstep M ord (.ev (.app (.lam ids b) es) ρ κ σ) =
        some (.args .call (.lam ids b :: es) (fun _ => .trap) (ord .call (.lam ids b :: es)) ρ κ σ) := rfl
    have hall : ∀ e ∈ Exp.lam ids b :: es, ∀ κ σ, Fails (gstep M ord) (.ev e ρ κ σ) ∨
        ∃ v xs, Quiet (gstep M ord) (.ev e ρ κ σ) (.ret v κ (grow σ xs)) := by
      intro e he κ σ
      rcases List.mem_cons.mp he with rfl | he
      · exact Or.inr ⟨.clos ids b ρ, [], by rw [grow_nil]; exact .one rfl rfl⟩
      · exact ih e he ρ κ σ
    -- the operator is the closure
    have key : ∀ (todo : List Nat) (d : Nat → Val) (σ : Store W), (∀ i ∈ todo, i < es.length + 1) → (0 ∈ todo ∨ d 0 = .clos ids b ρ) →
        Fails (gstep M ord) (.args .call (.lam ids b :: es) d todo ρ κ σ) ∨
        ∃ d' xs, d' 0 = .clos ids b ρ ∧ Quiet (gstep M ord) (.args .call (.lam ids b :: es) d todo ρ κ σ)
          (.args .call (.lam ids b :: es) d' [] ρ κ (grow σ xs)) := by
      intro todo
      induction todo with
      | nil => intro d σ _ h0; exact Or.inr ⟨d, [], by simpa using h0, by rw [grow_nil]; exact .refl _⟩
      | cons i todo iht =>
        intro d σ hi h0
        cases i with
        | zero =>
          have h2 : Quiet (gstep M ord) (.args .call (.lam ids b :: es) d (0 :: todo) ρ κ σ)
              (.args .call (.lam ids b :: es) (upd d 0 (.clos ids b ρ)) todo ρ κ σ) :=
            .step (b := .ev (.lam ids b) ρ (.args .call (.lam ids b :: es) d 0 todo ρ κ) σ) rfl rfl (.step rfl rfl (.one rfl rfl))
          rcases iht (upd d 0 (.clos ids b ρ)) σ (fun j hj => hi j (by simp [hj])) (Or.inr (by simp [upd])) with hf | ⟨d', xs, h3, hq⟩
          · exact Or.inl (hf.of_reach h2.reach)
          · exact Or.inr ⟨d', xs, h3, h2.trans hq⟩
        | succ i =>
          have hlt : i + 1 < (Exp.lam ids b :: es).length := hi (i + 1) (by simp)
          have h1 : gstep M ord (.args .call (.lam ids b :: es) d ((i + 1) :: todo) ρ κ σ) =
              some (.ev (Exp.lam ids b :: es)[i + 1] ρ (.args .call (.lam ids b :: es) d (i + 1) todo ρ κ) σ) := by
            simp only [gstep, step, List.getElem?_eq_getElem hlt]
          rcases hall _ (List.getElem_mem hlt) (.args .call (.lam ids b :: es) d (i + 1) todo ρ κ) σ with hf | ⟨v, xs, hq⟩
          · exact Or.inl (hf.of_step h1)
          · have h2 : Quiet (gstep M ord) (.args .call (.lam ids b :: es) d ((i + 1) :: todo) ρ κ σ)
                (.args .call (.lam ids b :: es) (upd d (i + 1) v) todo ρ κ (grow σ xs)) := (Quiet.step h1 rfl hq).trans (.one rfl rfl)
            rcases iht (upd d (i + 1) v) (grow σ xs) (fun j hj => hi j (by simp [hj])) (by simpa [upd] using h0) with hf | ⟨d', ys, h3, hq'⟩
            · exact Or.inl (hf.of_reach h2.reach)
            · exact Or.inr ⟨d', xs ++ ys, h3, by rw [← grow_grow]; exact h2.trans hq'⟩
    have h0 : 0 ∈ ord .call (.lam ids b :: es) := ((hf .call (.lam ids b :: es)).mem_iff (a := 0)).mpr (by simp)
    rcases key _ (fun _ => .trap) σ (fair_lt hf _ _) (Or.inl h0) with hf | ⟨d, xs, hd, hq⟩
    · exact Or.inl (hf.of_step h1)
    · have hv : vals d (es.length + 1) = .clos ids b ρ :: (List.range es.length).map (fun j => d (j + 1)) := by
        simp only [vals, List.range_succ_eq_map, List.map_cons, hd, List.map_map]; rfl
      have h2 : Quiet (gstep M ord) (.ev (.app (.lam ids b) es) ρ κ σ)
          (.ap (.clos ids b ρ) ((List.range es.length).map (fun j => d (j + 1))) κ (grow σ xs)) :=
        (Quiet.step h1 rfl hq).trans (.one (by simp only [gstep, step, List.length_cons]; rw [hv]) rfl)
      by_cases hl : ids.length = ((List.range es.length).map (fun j => d (j + 1))).length
      · have h3 := h2.trans (.one (b := .ev b (bindAll ids ((List.range es.length).map (fun j => d (j + 1))) ρ) κ (grow σ xs)) (by simp only [gstep, step]; rw [if_pos hl]) rfl)
        rcases ihb _ κ (grow σ xs) with hf | ⟨w, ys, hq'⟩
        · exact Or.inl (hf.of_reach h3.reach)
        · exact Or.inr ⟨w, xs ++ ys, by rw [← grow_grow]; exact h3.trans hq'⟩
      · exact Or.inl (Fails.of_reach h2.reach (Fails.now (by simp only [gstep, step]; rw [if_neg hl]) (fun _ _ => by simp)))

/-! ### transparent expressions, before the reduction -/

theorem TEs.of_get {G : Id → Option Val} {ρ : Env} : ∀ {es : List Exp} {f : Nat → Val},
    (∀ (i : Nat) (e : Exp), es[i]? = some e → TE M G e ρ (f i)) → TEs M G es ρ ((List.range es.length).map f) := by
  intro es
  induction es with
  | nil => intro f _; exact .nil
  | cons e es ih =>
    intro f h
    rw [List.length_cons, List.range_succ_eq_map, List.map_cons, List.map_map]
    exact .cons (h 0 e rfl) (ih (fun i e' he => h (i + 1) e' (by simpa using he)))

theorem args_tr {G : Id → Option Val} {op : Op} {es : List Exp} {ρ : Env} {σ : Store W}
    (h : ∀ e ∈ es, ∀ κ, Fails (gstep M ord) (.ev e ρ κ σ) ∨ ∃ v, TE M G e ρ v ∧ Quiet (gstep M ord) (.ev e ρ κ σ) (.ret v κ σ)) (κ : Kont) :
    ∀ (todo : List Nat) (d : Nat → Val), (∀ i ∈ todo, i < es.length) →
      (∀ (i : Nat) (e : Exp), i ∉ todo → es[i]? = some e → TE M G e ρ (d i)) →
      Fails (gstep M ord) (.args op es d todo ρ κ σ) ∨
      ∃ d', (∀ (i : Nat) (e : Exp), es[i]? = some e → TE M G e ρ (d' i)) ∧
        Quiet (gstep M ord) (.args op es d todo ρ κ σ) (.args op es d' [] ρ κ σ) := by
  intro todo
  induction todo with
  | nil => intro d _ hd; exact Or.inr ⟨d, fun i e => hd i e (by simp), .refl _⟩
  | cons i todo ih =>
    intro d hi hd
    have hlt := hi i (by simp)
    have h1 : gstep M ord (.args op es d (i :: todo) ρ κ σ) = some (.ev es[i] ρ (.args op es d i todo ρ κ) σ) := by
      cases op <;> simp [gstep, step, List.getElem?_eq_getElem hlt]
    rcases h es[i] (List.getElem_mem hlt) (.args op es d i todo ρ κ) with hf | ⟨v, ht, hq⟩
    · exact Or.inl (hf.of_step h1)
    · have h2 : Quiet (gstep M ord) (.args op es d (i :: todo) ρ κ σ) (.args op es (upd d i v) todo ρ κ σ) :=
        (Quiet.step h1 rfl hq).trans (.one rfl rfl)
      rcases ih (upd d i v) (fun j hj => hi j (by simp [hj])) (fun j e hj he => by
        by_cases hji : j = i
        · subst hji
          rw [List.getElem?_eq_getElem hlt] at he; injection he with he; subst he
          simpa [upd] using ht
        · simp only [upd, if_neg hji]
          exact hd j e (by simp [hji, hj]) he) with hf | ⟨d', hd', hq'⟩
      · exact Or.inl (hf.of_reach h2.reach)
      · exact Or.inr ⟨d', hd', h2.trans hq'⟩

theorem TE.lam_self {G : Id → Option Val} (ids : List Id) (b : Exp) (ρ : Env) : TE M G (.lam ids b) ρ (.clos ids b ρ) := .lam (fun _ _ => rfl)

/-- the evaluation of a transparent expression fails, or gives its value. -/
theorem tr_eval (hf : FairOrder ord) {G : Id → Option Val} {e : Exp} (h : Tr M e) : ∀ (ρ : Env) (κ : Kont) (σ : Store W),
    (∀ x, x.isGlobalConst = true → G x = σ.glob x) →
    Fails (gstep M ord) (.ev e ρ κ σ) ∨ ∃ v, TE M G e ρ v ∧ Quiet (gstep M ord) (.ev e ρ κ σ) (.ret v κ σ) := by
  induction h with
  | var hx =>
    rename_i x
    intro ρ κ σ hG
    cases hl : (if x.isGlobal then σ.glob x else ρ.lookup x) with
    | none => exact Or.inl (Fails.now (by simp only [gstep, step, hl]) (fun _ _ => by simp))
    | some v =>
      refine Or.inr ⟨v, ?_, .one (by simp only [gstep, step, hl]) rfl⟩
      cases hg : x.isGlobal with
      | true =>
        rw [hg] at hl; simp only [if_true] at hl
        exact .gvar (hx hg) (by rw [hG x (hx hg)]; exact hl)
      | false =>
        rw [hg] at hl; simp only [Bool.false_eq_true, if_false] at hl
        exact .var hg hl
  | @ite a b c _ _ _ ha hb hc =>
    intro ρ κ σ hG
    have h1 : gstep M ord (.ev (.ite a b c) ρ κ σ) = some (.ev a ρ (.ite b c ρ κ) σ) := rfl
    rcases ha ρ (.ite b c ρ κ) σ hG with hf | ⟨v, ht, hq⟩
    · exact Or.inl (hf.of_step h1)
    · have h2 : Quiet (gstep M ord) (.ev (.ite a b c) ρ κ σ) (.ev (if v.isFalse then c else b) ρ κ σ) :=
        (Quiet.step h1 rfl hq).trans (.one rfl rfl)
      cases hv : v.isFalse with
      | true =>
        rw [hv] at h2
        rcases hc ρ κ σ hG with hf | ⟨w, ht', hq'⟩
        · exact Or.inl (hf.of_reach h2.reach)
        · exact Or.inr ⟨w, .iteF ht hv ht', h2.trans hq'⟩
      | false =>
        rw [hv] at h2
        rcases hb ρ κ σ hG with hf | ⟨w, ht', hq'⟩
        · exact Or.inl (hf.of_reach h2.reach)
        · exact Or.inr ⟨w, .iteT ht hv ht', h2.trans hq'⟩
  | prim hp _ ih =>
    rename_i eff p es _
    intro ρ κ σ hG
    have h1 : gstep M ord (.ev (.prim eff p es) ρ κ σ) = some (.args (.prim eff p) es (fun _ => .trap) (ord (.prim eff p) es) ρ κ σ) := rfl
    rcases args_tr (G := G) (op := .prim eff p) (fun e he κ => ih e he ρ κ σ hG) κ _ (fun _ => .trap) (fair_lt hf _ es) (fun i e hi he => by
        refine absurd (((hf (.prim eff p) es).mem_iff (a := i)).mpr ?_) hi
        rw [List.mem_range]; exact (List.getElem?_eq_some_iff.mp he).1) with hf | ⟨d, hd, hq⟩
    · exact Or.inl (hf.of_step h1)
    · have h2 := Quiet.step h1 rfl hq
      rcases hp (vals d es.length) with hn | ⟨v, hv⟩
      · exact Or.inl (Fails.of_reach h2.reach (Fails.now (by simp only [gstep, step, hn]) (fun _ _ => by simp)))
      · exact Or.inr ⟨v, .prim (TEs.of_get hd) hp hv, h2.trans (.one (by simp only [gstep, step, hv]) rfl)⟩
  | lam ids b =>
    intro ρ κ σ _
    exact Or.inr ⟨.clos ids b ρ, TE.lam_self ids b ρ, .one rfl rfl⟩
  | letE _ _ ih ihb =>
    rename_i ids b es _ _
    intro ρ κ σ hG
    have h1 : gstep M ord (.ev (.app (.lam ids b) es) ρ κ σ) =
        some (.args .call (.lam ids b :: es) (fun _ => .trap) (ord .call (.lam ids b :: es)) ρ κ σ) := rfl
    have hall : ∀ e ∈ Exp.lam ids b :: es, ∀ κ, Fails (gstep M ord) (.ev e ρ κ σ) ∨
        ∃ v, (TE M G e ρ v ∧ (e = .lam ids b → v = .clos ids b ρ)) ∧ Quiet (gstep M ord) (.ev e ρ κ σ) (.ret v κ σ) := by
      intro e he κ
      by_cases hl : e = .lam ids b
      · subst hl; exact Or.inr ⟨.clos ids b ρ, ⟨TE.lam_self ids b ρ, fun _ => rfl⟩, .one rfl rfl⟩
      · rcases List.mem_cons.mp he with e1 | he
        · exact absurd e1 hl
        · rcases ih e he ρ κ σ hG with hf | ⟨v, ht, hq⟩
          · exact Or.inl hf
          · exact Or.inr ⟨v, ⟨ht, fun h => absurd h hl⟩, hq⟩
    have key : ∀ (todo : List Nat) (d : Nat → Val), (∀ i ∈ todo, i < es.length + 1) → (0 ∈ todo ∨ d 0 = .clos ids b ρ) →
        (∀ (i : Nat) (e : Exp), i ∉ todo → (Exp.lam ids b :: es)[i]? = some e → TE M G e ρ (d i)) →
        Fails (gstep M ord) (.args .call (.lam ids b :: es) d todo ρ κ σ) ∨
        ∃ d', d' 0 = .clos ids b ρ ∧ (∀ (i : Nat) (e : Exp), (Exp.lam ids b :: es)[i]? = some e → TE M G e ρ (d' i)) ∧
          Quiet (gstep M ord) (.args .call (.lam ids b :: es) d todo ρ κ σ) (.args .call (.lam ids b :: es) d' [] ρ κ σ) := by
      intro todo
      induction todo with
      | nil => intro d _ h0 hd; exact Or.inr ⟨d, by simpa using h0, fun i e => hd i e (by simp), .refl _⟩
      | cons i todo iht =>
        intro d hi h0 hd
        have hlt : i < (Exp.lam ids b :: es).length := hi i (by simp)
        have h1 : gstep M ord (.args .call (.lam ids b :: es) d (i :: todo) ρ κ σ) =
            some (.ev (Exp.lam ids b :: es)[i] ρ (.args .call (.lam ids b :: es) d i todo ρ κ) σ) := by
          simp only [gstep, step, List.getElem?_eq_getElem hlt]
        rcases hall _ (List.getElem_mem hlt) (.args .call (.lam ids b :: es) d i todo ρ κ) with hf | ⟨v, ⟨ht, hc⟩, hq⟩
        · exact Or.inl (hf.of_step h1)
        · have h2 : Quiet (gstep M ord) (.args .call (.lam ids b :: es) d (i :: todo) ρ κ σ)
              (.args .call (.lam ids b :: es) (upd d i v) todo ρ κ σ) := (Quiet.step h1 rfl hq).trans (.one rfl rfl)
          have h0' : 0 ∈ todo ∨ upd d i v 0 = .clos ids b ρ := by
            cases i with
            | zero => exact Or.inr (by simp only [upd, if_true]; exact hc rfl)
            | succ i => simpa [upd] using h0
          rcases iht (upd d i v) (fun j hj => hi j (by simp [hj])) h0' (fun j e hj he => by
            by_cases hji : j = i
            · subst hji
              rw [List.getElem?_eq_getElem hlt] at he; injection he with he
              rw [← he]
              simpa [upd] using ht
            · simp only [upd, if_neg hji]
              exact hd j e (by simp [hji, hj]) he) with hf | ⟨d', h3, hd', hq'⟩
          · exact Or.inl (hf.of_reach h2.reach)
          · exact Or.inr ⟨d', h3, hd', h2.trans hq'⟩
    have h0 : 0 ∈ ord .call (.lam ids b :: es) := ((hf .call (.lam ids b :: es)).mem_iff (a := 0)).mpr (by simp)
    rcases key _ (fun _ => .trap) (fair_lt hf _ _) (Or.inl h0) (fun i e hi he => by
        refine absurd (((hf .call (.lam ids b :: es)).mem_iff (a := i)).mpr ?_) hi
        rw [List.mem_range]; exact (List.getElem?_eq_some_iff.mp he).1) with hf | ⟨d, hd, hte, hq⟩
    · exact Or.inl (hf.of_step h1)
    · have hv : vals d (es.length + 1) = .clos ids b ρ :: (List.range es.length).map (fun j => d (j + 1)) := by
        simp only [vals, List.range_succ_eq_map, List.map_cons, hd, List.map_map]; rfl
      have h2 : Quiet (gstep M ord) (.ev (.app (.lam ids b) es) ρ κ σ)
          (.ap (.clos ids b ρ) ((List.range es.length).map (fun j => d (j + 1))) κ σ) :=
        (Quiet.step h1 rfl hq).trans (.one (by simp only [gstep, step, List.length_cons]; rw [hv]) rfl)
      by_cases hl : ids.length = ((List.range es.length).map (fun j => d (j + 1))).length
      · have h3 := h2.trans (.one (b := .ev b (bindAll ids ((List.range es.length).map (fun j => d (j + 1))) ρ) κ σ) (by simp only [gstep, step]; rw [if_pos hl]) rfl)
        rcases ihb _ κ σ hG with hf | ⟨w, ht, hq'⟩
        · exact Or.inl (hf.of_reach h3.reach)
        · exact Or.inr ⟨w, .letE (TEs.of_get (fun i e he => hte (i + 1) e (by simpa using he))) hl ht, h3.trans hq'⟩
      · exact Or.inl (Fails.of_reach h2.reach (Fails.now (by simp only [gstep, step]; rw [if_neg hl]) (fun _ _ => by simp)))

end Verif.Beta

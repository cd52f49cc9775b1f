import Verif.Cps.Values
import Verif.Core.Eval
/-
Simple expressions and their converted form evaluate in step (C34).
-/
namespace Verif.Cps
open Verif.Core
variable {W : Type} {M : Sem W}

theorem doPrim_rel {p : PrimName} {vs ws : List Val} {σ σt : Store W} (hv : List.Forall₂ VRel vs ws) (hs : SRel σ σt)
    (hp : p ≠ .halt) : doPrim M p vs σ = none ∨ ∃ v σ' w σt', doPrim M p vs σ = some (.ok v σ') ∧
      doPrim M p ws σt = some (.ok w σt') ∧ VRel v w ∧ SRel σ' σt' := by
  cases p with
  | halt => exact absurd rfl hp
  | void =>
    cases hv with
    | nil => exact Or.inr ⟨_, _, _, _, rfl, rfl, .atom 1, hs⟩
    | cons _ _ => left; rfl
  | ktrap =>
    cases hv with
    | nil => exact Or.inr ⟨_, _, _, _, rfl, rfl, .trap, hs⟩
    | cons _ _ => left; rfl
  | box =>
    rcases hv with _ | ⟨h1, _ | ⟨_, _⟩⟩
    · left; rfl
    · refine Or.inr ⟨_, _, _, _, rfl, rfl, ?_, ⟨hs.glob, ?_, hs.world⟩⟩
      · rw [hs.heap.length_eq]; exact .box _
      · exact List.rel_append hs.heap (.cons h1 .nil)
    · left; rfl
  | boxref =>
    rcases hv with _ | ⟨h1, _ | ⟨_, _⟩⟩
    · left; rfl
    · cases h1 with
      | box a =>
        simp only [doPrim]
        rcases hv : σ.heap[a]? with _ | v
        · left; rfl
        · right
          obtain ⟨hlt, he⟩ := List.getElem?_eq_some_iff.mp hv
          have hlt' : a < σt.heap.length := by rw [← hs.heap.length_eq]; exact hlt
          refine ⟨v, σ, σt.heap[a], σt, rfl, ?_, ?_, hs⟩
          · rw [List.getElem?_eq_getElem hlt']; rfl
          · have := hs.heap.get hlt hlt'
            simp only [List.get_eq_getElem] at this
            rw [← he]; exact this
      | _ => left; rfl
    · left; simp only [doPrim]
  | boxset =>
    rcases hv with _ | ⟨h1, _ | ⟨h2, _ | ⟨_, _⟩⟩⟩
    · left; rfl
    · left; simp only [doPrim]
    · cases h1 with
      | box a =>
        simp only [doPrim]
        by_cases hlt : a < σ.heap.length
        · right
          rw [if_pos hlt, if_pos (by rw [← hs.heap.length_eq]; exact hlt)]
          refine ⟨_, _, _, _, rfl, rfl, h2, ⟨hs.glob, ?_, hs.world⟩⟩
          have hh := hs.heap
          generalize σ.heap = l at hh
          generalize σt.heap = l' at hh
          clear hlt
          induction hh generalizing a with
          | nil => exact .nil
          | cons h t ih =>
            cases a with
            | zero => exact .cons h2 t
            | succ a => exact .cons h (ih a)
        · left; rw [if_neg hlt]
      | _ => left; rfl
    · left; simp only [doPrim]
  | cons =>
    rcases hv with _ | ⟨h1, _ | ⟨h2, _ | ⟨_, _⟩⟩⟩
    · left; rfl
    · left; rfl
    · exact Or.inr ⟨_, _, _, _, rfl, rfl, .pair h1 h2, hs⟩
    · left; rfl
  | car =>
    rcases hv with _ | ⟨h1, _ | ⟨_, _⟩⟩
    · left; rfl
    · cases h1 with
      | pair ha hd => exact Or.inr ⟨_, _, _, _, rfl, rfl, ha, hs⟩
      | _ => left; rfl
    · left; simp only [doPrim]
  | cdr =>
    rcases hv with _ | ⟨h1, _ | ⟨_, _⟩⟩
    · left; rfl
    · cases h1 with
      | pair ha hd => exact Or.inr ⟨_, _, _, _, rfl, rfl, hd, hs⟩
      | _ => left; rfl
    · left; simp only [doPrim]
  | op n =>
    simp only [doPrim]
    rw [← forall₂_view hv, ← hs.world]
    cases M.op n (vs.map Val.view) σ.world with
    | none => left; rfl
    | some r => exact Or.inr ⟨_, _, _, _, rfl, rfl, .atom _, ⟨hs.glob, hs.heap, rfl⟩⟩

/-! ### orders -/

theorem posFrom_all {p : Exp → Bool} : ∀ {es : List Exp} {k : Nat}, (∀ e ∈ es, p e = true) →
    posFrom p k es = List.range' k es.length := by
  intro es
  induction es with
  | nil => intro k _; rfl
  | cons e es ih =>
    intro k h
    rw [posFrom, if_pos (h e (by simp)), ih (fun e' he' => h e' (by simp [he']))]
    rfl

theorem posFrom_none {p : Exp → Bool} : ∀ {es : List Exp} {k : Nat}, (∀ e ∈ es, p e = false) → posFrom p k es = [] := by
  intro es
  induction es with
  | nil => intro k _; rfl
  | cons e es ih =>
    intro k h
    rw [posFrom, if_neg (by rw [h e (by simp)]; exact Bool.false_ne_true), ih (fun e' he' => h e' (by simp [he']))]

theorem simpleAll_iff : ∀ {es : List Exp}, simpleAll es = true ↔ ∀ e ∈ es, simple e = true := by
  intro es
  induction es with
  | nil => simp [simpleAll]
  | cons e es ih => simp [simpleAll, ih]

/-- simple operands of a call are evaluated from left to right. -/
theorem cpsOrder_call {es : List Exp} (h : simpleAll es = true) : cpsOrder .call es = List.range es.length := by
  have h' := simpleAll_iff.mp h
  rw [cpsOrder, posFrom_none (fun e he => by rw [h' e he]; rfl), posFrom_all h', List.range_eq_range']
  rfl

mutual
/-- converted expressions are simple. -/
theorem CpsS.simple : {e t : Exp} → CpsS e t → Verif.Cps.simple e = true
  | _, _, .var _ => by simp [Verif.Cps.simple]
  | _, _, .set hg h => by simp [Verif.Cps.simple, hg, CpsS.simple h]
  | _, _, .ite h1 h2 h3 => by simp [Verif.Cps.simple, CpsS.simple h1, CpsS.simple h2, CpsS.simple h3]
  | _, _, .prim _ _ hs _ _ => by simp [Verif.Cps.simple, hs]
  | _, _, .lam .. => by simp [Verif.Cps.simple]
  | _, _, .fix _ h => by simp [Verif.Cps.simple, CpsS.simple h]
  | _, _, .null h => by simp [Verif.Cps.simple, CpsS.simple h, simpleAll]
  | _, _, .idlet _ h => by simp [Verif.Cps.simple, CpsS.simple h, simpleAll]
  | _, _, .begin _ _ _ h h2 => by simp [Verif.Cps.simple, CpsS.simple h, CpsS.simple h2, simpleAll]
  | _, _, .letE hl _ h _ hs => by simp [Verif.Cps.simple, CpsS.simple h, hs, hl]
end

/-- `e` and its converted form evaluate to related values, unless `e` fails. -/
def SOk (M : Sem W) (e : Exp) : Prop :=
  ∀ (t : Exp) (ρ ρt : Env) (σ σt : Store W), CpsS e t → ERel (fun x => Free x e) ρ ρt → SRel σ σt →
    EFails M cpsOrder e ρ σ ∨ ∃ v σ' w σt', Evals M cpsOrder e ρ σ v σ' ∧ Evals M leftToRight t ρt σt w σt' ∧
      VRel v w ∧ SRel σ' σt'

/-- lists of operands, from left to right. -/
theorem list_ok : ∀ {es ts : List Exp} {ρ ρt : Env} {σ σt : Store W}, (∀ e ∈ es, SOk M e) → CpsSs es ts →
    ERel (fun x => ∃ e ∈ es, Free x e) ρ ρt → SRel σ σt →
    FailL M cpsOrder ρ es σ ∨ ∃ vs σ' ws σt', EvalL M cpsOrder ρ es σ vs σ' ∧ EvalL M leftToRight ρt ts σt ws σt' ∧
      List.Forall₂ VRel vs ws ∧ SRel σ' σt' := by
  intro es
  induction es with
  | nil =>
    intro ts ρ ρt σ σt _ hc _ hs
    cases hc
    exact Or.inr ⟨[], σ, [], σt, .nil _, .nil _, .nil, hs⟩
  | cons e es ih =>
    intro ts ρ ρt σ σt hok hc he hs
    cases hc with
    | cons h1 h2 =>
      rcases hok e (by simp) _ ρ ρt σ σt h1 (he.mono (fun x hx => ⟨e, by simp, hx⟩)) hs with hf | ⟨v, σ1, w, σt1, e1, e2, hv, hs1⟩
      · exact Or.inl (.here hf)
      · rcases ih (fun e' he' => hok e' (by simp [he'])) h2 (he.mono (fun x ⟨e', he', hx⟩ => ⟨e', by simp [he'], hx⟩)) hs1 with
          hf | ⟨vs, σ2, ws, σt2, l1, l2, hvs, hs2⟩
        · exact Or.inl (.there e1 hf)
        · exact Or.inr ⟨v :: vs, σ2, w :: ws, σt2, .cons e1 l1, .cons e2 l2, .cons hv hvs, hs2⟩

theorem FailL.app {ord : Op → List Exp → List Nat} {ρ : Env} {f : Exp} {as : List Exp} {σ : Store W}
    (ho : ord .call (f :: as) = List.range (f :: as).length) (h : FailL M ord ρ (f :: as) σ) : EFails M ord (.app f as) ρ σ := by
  intro κ
  have h1 : step M ord (.ev (.app f as) ρ κ σ) =
      some (.args .call (f :: as) (fun _ => .trap) (List.range' 0 (f :: as).length) ρ κ σ) := by
    simp only [step, ho, List.range_eq_range']
  exact Fails.of_step h1 (h.args (fun j => by rw [Nat.zero_add]))

/-! ### operands of primitives -/

/-- the operands that are not variables have been evaluated to `ws`. -/
inductive TR : Nat → List Exp → List Val → (Nat → Val) → Prop
  | nil (k : Nat) (d : Nat → Val) : TR k [] [] d
  | var {k : Nat} {e : Exp} {es : List Exp} {ws : List Val} {d : Nat → Val} : varLike e = true → TR (k + 1) es ws d → TR k (e :: es) ws d
  | tmp {k : Nat} {e : Exp} {es : List Exp} {w : Val} {ws : List Val} {d : Nat → Val} : varLike e = false → VRel (d k) w →
      TR (k + 1) es ws d → TR k (e :: es) (w :: ws) d

theorem TR.congr {k : Nat} {es : List Exp} {ws : List Val} {d d' : Nat → Val} (h : TR k es ws d) (hd : ∀ j, k ≤ j → d' j = d j) :
    TR k es ws d' := by
  induction h with
  | nil => exact .nil _ _
  | var hv _ ih => exact .var hv (ih (fun j hj => hd j (by omega)))
  | tmp hv hr _ ih => exact .tmp hv (by rw [hd _ (Nat.le_refl _)]; exact hr) (ih (fun j hj => hd j (by omega)))

theorem phase1 {op : Op} {E : List Exp} {ρ ρt : Env} : ∀ {es : List Exp} {ids : List Id} {vals exps : List Exp} {k : Nat}
    {d : Nat → Val} {σ σt : Store W}, (∀ e ∈ es, SOk M e) → PArgs es ids vals exps → (∀ j < es.length, E[k + j]? = es[j]?) →
    ERel (fun x => ∃ e ∈ es, Free x e) ρ ρt → SRel σ σt →
    (∀ κ rest, Fails (step M cpsOrder) (.args op E d ((posFrom (fun e => !varLike e) k es).reverse ++ rest) ρ κ σ)) ∨
    ∃ ws d' σ' σt', (∀ κ rest, Reach (step M cpsOrder) (.args op E d ((posFrom (fun e => !varLike e) k es).reverse ++ rest) ρ κ σ)
        (.args op E d' rest ρ κ σ')) ∧ EvalL M leftToRight ρt vals.reverse σt ws.reverse σt' ∧ SRel σ' σt' ∧
      TR k es ws d' ∧ ids.length = ws.length := by
  intro es
  induction es with
  | nil =>
    intro ids vals exps k d σ σt _ hp _ _ hs
    cases hp
    exact Or.inr ⟨[], d, σ, σt, fun κ rest => Reach.refl _, .nil _, hs, .nil _ _, rfl⟩
  | cons e es ih =>
    intro ids vals exps k d σ σt hok hp hE he hs
    have hE' : ∀ j < es.length, E[k + 1 + j]? = es[j]? := fun j hj => by
      have := hE (j + 1) (by simp; omega)
      rw [List.getElem?_cons_succ] at this
      rw [← this]; congr 1; omega
    have he' : ERel (fun x => ∃ e ∈ es, Free x e) ρ ρt := he.mono (fun x ⟨e', he', hx⟩ => ⟨e', by simp [he'], hx⟩)
    cases hp with
    | var hv hc hp =>
      have e1 : posFrom (fun e => !varLike e) k (e :: es) = posFrom (fun e => !varLike e) (k + 1) es := by
        simp [posFrom, hv]
      rw [e1]
      rcases ih (d := d) (fun e' he' => hok e' (by simp [he'])) hp hE' he' hs with hf | ⟨ws, d', σ', σt', h1, h2, h3, h4, h5⟩
      · exact Or.inl hf
      · exact Or.inr ⟨ws, d', σ', σt', h1, h2, h3, .var hv h4, h5⟩
    | tmp hv hc hp =>
      rename_i t x ids vals exps
      have e1 : posFrom (fun e => !varLike e) k (e :: es) = k :: posFrom (fun e => !varLike e) (k + 1) es := by
        simp [posFrom, hv]
      rw [e1]
      simp only [List.reverse_cons, List.append_assoc, List.singleton_append]
      rcases ih (d := d) (fun e' he' => hok e' (by simp [he'])) hp hE' he' hs with hf | ⟨ws, d', σ', σt', h1, h2, h3, h4, h5⟩
      · exact Or.inl (fun κ rest => hf κ (k :: rest))
      · have hk : E[k]? = some e := by simpa using hE 0 (by simp)
        rcases hok e (by simp) _ ρ ρt σ' σt' hc (he.mono (fun x hx => ⟨e, by simp, hx⟩)) h3 with hf | ⟨v, σ1, w, σt1, g1, g2, hvw, hs1⟩
        · exact Or.inl (fun κ rest => Fails.of_reach (h1 κ (k :: rest)) (args_fail hk hf))
        · refine Or.inr ⟨w :: ws, upd d' k v, σ1, σt1, fun κ rest => (h1 κ (k :: rest)).trans (args_step hk g1).reach, ?_, hs1, ?_, by simp [h5]⟩
          · simp only [List.reverse_cons]
            exact h2.snoc g2
          · refine .tmp hv (by simpa [upd] using hvw) (h4.congr (fun j hj => ?_))
            simp only [upd]; rw [if_neg (by omega)]

theorem phase2 {op : Op} {E : List Exp} {ρ ρt : Env} : ∀ {es : List Exp} {ids : List Id} {vals exps : List Exp} {k : Nat}
    {d : Nat → Val} {ws : List Val} {σ σt : Store W}, (∀ e ∈ es, SOk M e) → PArgs es ids vals exps →
    (∀ j < es.length, E[k + j]? = es[j]?) → (∀ x ∈ ids, x.isGlobal = false) →
    List.Forall₂ (fun x w => ρt.lookup x = some w) ids ws → TR k es ws d →
    ERel (fun x => ∃ e ∈ es, Free x e) ρ ρt → SRel σ σt →
    (∀ κ, Fails (step M cpsOrder) (.args op E d (posFrom varLike k es) ρ κ σ)) ∨
    ∃ us d' σ' σt', (∀ κ, Reach (step M cpsOrder) (.args op E d (posFrom varLike k es) ρ κ σ) (.args op E d' [] ρ κ σ')) ∧
      EvalL M leftToRight ρt exps σt us σt' ∧ SRel σ' σt' ∧ List.Forall₂ VRel ((List.range' k es.length).map d') us ∧
      ∀ j < k, d' j = d j := by
  intro es
  induction es with
  | nil =>
    intro ids vals exps k d ws σ σt _ hp _ _ _ _ _ hs
    cases hp
    exact Or.inr ⟨[], d, σ, σt, fun κ => Reach.refl _, .nil _, hs, .nil, fun _ _ => rfl⟩
  | cons e es ih =>
    intro ids vals exps k d ws σ σt hok hp hE hg hlk htr he hs
    have hE' : ∀ j < es.length, E[k + 1 + j]? = es[j]? := fun j hj => by
      have := hE (j + 1) (by simp; omega)
      rw [List.getElem?_cons_succ] at this
      rw [← this]; congr 1; omega
    have he' : ERel (fun x => ∃ e ∈ es, Free x e) ρ ρt := he.mono (fun x ⟨e', he', hx⟩ => ⟨e', by simp [he'], hx⟩)
    have hok' : ∀ e' ∈ es, SOk M e' := fun e' he' => hok e' (by simp [he'])
    simp only [List.length_cons, List.range'_succ, List.map_cons]
    cases hp with
    | var hv hc hp =>
      cases htr with
      | tmp hv' => rw [hv] at hv'; cases hv'
      | var _ htr =>
      have e1 : posFrom varLike k (e :: es) = k :: posFrom varLike (k + 1) es := by simp [posFrom, hv]
      rw [e1]
      have hk : E[k]? = some e := by simpa using hE 0 (by simp)
      rcases hok e (by simp) _ ρ ρt σ σt hc (he.mono (fun x hx => ⟨e, by simp, hx⟩)) hs with hf | ⟨v, σ1, w, σt1, g1, g2, hvw, hs1⟩
      · exact Or.inl (fun κ => args_fail hk hf)
      · have htr' : TR (k + 1) es ws (upd d k v) := htr.congr (fun j hj => by simp only [upd]; rw [if_neg (by omega)])
        rcases ih hok' hp hE' hg hlk htr' he' hs1 with hf | ⟨us, d', σ', σt', h1, h2, h3, h4, h5⟩
        · exact Or.inl (fun κ => Fails.of_reach (args_step hk g1).reach (hf κ))
        · refine Or.inr ⟨w :: us, d', σ', σt', fun κ => (args_step hk g1).reach.trans (h1 κ), .cons g2 h2, h3, .cons ?_ h4, ?_⟩
          · rw [h5 k (by omega)]; simpa [upd] using hvw
          · intro j hj; rw [h5 j (by omega)]; simp only [upd]; rw [if_neg (by omega)]
    | tmp hv hc hp =>
      cases htr with
      | var hv' => rw [hv] at hv'; cases hv'
      | tmp _ hr htr =>
      cases hlk with
      | cons hx hlk =>
      have e1 : posFrom varLike k (e :: es) = posFrom varLike (k + 1) es := by simp [posFrom, hv]
      rw [e1]
      rcases ih hok' hp hE' (fun y hy => hg y (by simp [hy])) hlk htr he' hs with hf | ⟨us, d', σ', σt', h1, h2, h3, h4, h5⟩
      · exact Or.inl hf
      · refine Or.inr ⟨_ :: us, d', σ', σt', h1, .cons (Evals.local (hg _ (by simp)) hx _) h2, h3, .cons ?_ h4, ?_⟩
        · rw [h5 k (by omega)]; exact hr
        · intro j hj; exact h5 j (by omega)

theorem bindAll_lookups : ∀ {ids : List Id} {ws : List Val} {ρ : Env}, ids.Nodup → ids.length = ws.length →
    List.Forall₂ (fun x w => (bindAll ids ws ρ).lookup x = some w) ids ws := by
  intro ids
  induction ids with
  | nil => intro ws ρ _ h; cases ws with
    | nil => exact .nil
    | cons _ _ => simp at h
  | cons x ids ih =>
    intro ws ρ hn h
    cases ws with
    | nil => simp at h
    | cons w ws =>
      simp only [List.nodup_cons] at hn
      refine .cons (by simp [bindAll, Env.lookup]) ?_
      have := ih (ρ := ρ) hn.2 (by simpa using h)
      have h2 : ∀ y ∈ ids, (bindAll (x :: ids) (w :: ws) ρ).lookup y = (bindAll ids ws ρ).lookup y := by
        intro y hy
        simp only [bindAll, Env.lookup]
        rw [if_neg (fun e => hn.1 (by rw [← e]; exact hy))]
      clear ih h hn
      generalize bindAll (x :: ids) (w :: ws) ρ = ρ1 at h2
      generalize bindAll ids ws ρ = ρ2 at this h2
      induction this with
      | nil => exact .nil
      | cons h _ ih => exact .cons (by rw [h2 _ (by simp)]; exact h) (ih (fun y hy => h2 y (by simp [hy])))

theorem leftToRight_eq (op : Op) (es : List Exp) : leftToRight op es = List.range es.length := rfl

theorem prim_ok {eff : Effect} {p : PrimName} {es : List Exp} (hok : ∀ e ∈ es, SOk M e) : SOk M (.prim eff p es) := by
  intro t ρ ρt σ σt hc he hs
  cases hc with
  | prim hph hpa hsi hnd hids =>
  rename_i ids rhs exps
  have he0 : ERel (fun x => ∃ e ∈ es, Free x e) ρ ρt := he.mono (fun x ⟨e', he', hx⟩ => .prim _ _ he' hx)
  have hstep : ∀ κ, step M cpsOrder (.ev (.prim eff p es) ρ κ σ) = some (.args (.prim eff p) es (fun _ => .trap)
      ((posFrom (fun e => !varLike e) 0 es).reverse ++ posFrom varLike 0 es) ρ κ σ) := by
    intro κ
    simp only [step, cpsOrder]
    rw [if_pos hsi]
  have hE : ∀ j < es.length, es[0 + j]? = es[j]? := fun j _ => by rw [Nat.zero_add]
  rcases phase1 (op := .prim eff p) (d := fun _ => .trap) hok hpa hE he0 hs with hf | ⟨ws, d', σ', σt', h1, h2, h3, h4, h5⟩
  · exact Or.inl (fun κ => Fails.of_step (hstep κ) (hf κ _))
  · have hlk : List.Forall₂ (fun x w => (bindAll ids.reverse ws.reverse ρt).lookup x = some w) ids ws := by
      have := bindAll_lookups (ids := ids.reverse) (ws := ws.reverse) (ρ := ρt) (List.nodup_reverse.mpr hnd) (by simp [h5])
      exact List.forall₂_reverse_iff.mp this
    have he1 : ERel (fun x => ∃ e ∈ es, Free x e) ρ (bindAll ids.reverse ws.reverse ρt) :=
      he0.agree (Agree.bindAll _ (fun x hx ⟨e, hm, hfr⟩ => (hids x (List.mem_reverse.mp hx)).2 e hm hfr))
    rcases phase2 (op := .prim eff p) hok hpa hE (fun x hx => (hids x hx).1) hlk h4 he1 h3 with hf | ⟨us, d2, σ2, σt2, g1, g2, g3, g4, _⟩
    · exact Or.inl (fun κ => Fails.of_step (hstep κ) (Fails.of_reach (h1 κ _) (hf κ)))
    · have hvals : vals d2 es.length = (List.range' 0 es.length).map d2 := by rw [Verif.Core.vals, List.range_eq_range']
      rcases doPrim_rel (M := M) (p := p) g4 g3 hph with hn | ⟨v, σ3, w, σt3, p1, p2, hvw, hs3⟩
      · refine Or.inl (fun κ => Fails.of_step (hstep κ) (Fails.of_reach ((h1 κ _).trans (g1 κ)) (Fails.now ?_ (fun _ _ => by simp))))
        simp only [step, hvals, hn]
      · refine Or.inr ⟨v, σ3, w, σt3, fun κ => Reach1.cons (hstep κ) (((h1 κ _).trans (g1 κ)).trans (Reach.one ?_)), ?_, hvw, hs3⟩
        · simp only [step, hvals, p1]
        · intro κ
          have hlen : ids.reverse.length = rhs.reverse.length := by
            have := h2.length
            simp only [List.length_reverse] at this ⊢
            omega
          exact (EvalL.letE (leftToRight_eq _ _) h2 hlen).trans
            ((g2.prim (eff := eff) (leftToRight_eq _ _) p2) κ).reach

/-- the operands of a `let`. -/
theorem let_ok {ids : List Id} {b tb : Exp} {es ts : List Exp} {ρ ρt : Env} {σ σt : Store W} (hb : SOk M b) (hok : ∀ e ∈ es, SOk M e)
    (hl : ids.length = es.length) (hc : CpsSs es ts) (hcb : CpsS b tb) (hsi : simpleAll es = true)
    (he : ERel (fun x => Free x (.app (.lam ids b) es)) ρ ρt) (hs : SRel σ σt) {y : List Id}
    (hy : y.length = ids.length) (hbody : ∀ vs ws, List.Forall₂ VRel vs ws → vs.length = ids.length →
      ERel (fun x => Free x b) (bindAll ids vs ρ) (bindAll y ws ρt)) :
    EFails M cpsOrder (.app (.lam ids b) es) ρ σ ∨ ∃ v σ' w σt', Evals M cpsOrder (.app (.lam ids b) es) ρ σ v σ' ∧
      Evals M leftToRight (.app (.lam y tb) ts) ρt σt w σt' ∧ VRel v w ∧ SRel σ' σt' := by
  have ho : cpsOrder .call (.lam ids b :: es) = List.range (Exp.lam ids b :: es).length :=
    cpsOrder_call (by simp [simpleAll, hsi, Verif.Cps.simple])
  have he0 : ERel (fun x => ∃ e ∈ es, Free x e) ρ ρt := he.mono (fun x ⟨e', he', hx⟩ => .appA _ he' hx)
  rcases list_ok hok hc he0 hs with hf | ⟨vs, σ', ws, σt', h1, h2, h3, h4⟩
  · exact Or.inl (FailL.app ho (.there (Evals.lam _ _ _ _) hf))
  · have hlv : vs.length = ids.length := by rw [h1.length, hl]
    have hlt : y.length = ts.length := by
      have e1 := h2.length
      have e2 := h3.length_eq
      omega
    have r1 : ∀ κ, Reach1 (step M cpsOrder) (.ev (.app (.lam ids b) es) ρ κ σ) (.ev b (bindAll ids vs ρ) κ σ') :=
      fun κ => EvalL.letE ho h1 hl
    have r2 : ∀ κ, Reach1 (step M leftToRight) (.ev (.app (.lam y tb) ts) ρt κ σt) (.ev tb (bindAll y ws ρt) κ σt') :=
      fun κ => EvalL.letE (leftToRight_eq _ _) h2 hlt
    rcases hb tb _ _ _ _ hcb (hbody vs ws h3 hlv) h4 with hf | ⟨v, σ2, w, σt2, g1, g2, hvw, hs2⟩
    · exact Or.inl (fun κ => Fails.of_reach (r1 κ).reach (hf κ))
    · exact Or.inr ⟨v, σ2, w, σt2, fun κ => (r1 κ).trans (g1 κ).reach, fun κ => (r2 κ).trans (g2 κ).reach, hvw, hs2⟩

theorem app_ok {ids : List Id} {b : Exp} {es : List Exp} (hb : SOk M b) (hok : ∀ e ∈ es, SOk M e) : SOk M (.app (.lam ids b) es) := by
  intro t ρ ρt σ σt hc he hs
  cases hc with
  | null h =>
    have ho : cpsOrder .call [Exp.lam [] b] = List.range [Exp.lam [] b].length := cpsOrder_call (by simp [simpleAll, Verif.Cps.simple])
    have r1 : ∀ κ, Reach1 (step M cpsOrder) (.ev (.app (.lam [] b) []) ρ κ σ) (.ev b ρ κ σ) :=
      fun κ => EvalL.letE ho (.nil σ) rfl
    rcases hb t ρ ρt σ σt h (he.mono (fun x hx => .appF _ (.lam (by simp) hx))) hs with hf | ⟨v, σ2, w, σt2, g1, g2, hvw, hs2⟩
    · exact Or.inl (fun κ => Fails.of_reach (r1 κ).reach (hf κ))
    · exact Or.inr ⟨v, σ2, w, σt2, fun κ => (r1 κ).trans (g1 κ).reach, g2, hvw, hs2⟩
  | idlet hx h =>
    rename_i x e
    have hse := h.simple
    have ho : cpsOrder .call [Exp.lam [x] (.var x), e] = List.range [Exp.lam [x] (.var x), e].length :=
      cpsOrder_call (by simp [simpleAll, Verif.Cps.simple, hse])
    rcases hok e (by simp) t ρ ρt σ σt h (he.mono (fun y hy => .appA _ (by simp) hy)) hs with hf | ⟨v, σ2, w, σt2, g1, g2, hvw, hs2⟩
    · exact Or.inl (FailL.app ho (.there (Evals.lam _ _ _ _) (.here hf)))
    · refine Or.inr ⟨v, σ2, w, σt2, fun κ => ?_, g2, hvw, hs2⟩
      exact (EvalL.letE ho (.cons g1 (.nil _)) rfl).trans (Evals.local hx (by simp [bindAll, Env.lookup]) _ κ).reach
  | begin hfx hfy hiv h1 h2 =>
    rename_i x y e t tb
    refine let_ok hb hok rfl (.cons h1 .nil) h2 (by simp [simpleAll, h1.simple]) he hs rfl (fun vs ws hvs hl => ?_)
    rcases hvs with _ | ⟨_, _ | ⟨_, _⟩⟩
    · simp at hl
    · simp only [bindAll]
      intro z v hz hlz
      have hzx : z ≠ x := fun e => hfx (by rw [← e]; exact hz)
      have hzy : z ≠ y := fun e => hfy (by rw [← e]; exact hz)
      simp only [Env.lookup, if_neg hzx] at hlz
      simp only [Env.lookup, if_neg hzy]
      exact he z v (.appF _ (.lam (by simpa using hzx) hz)) hlz
    · simp at hl
  | letE hl h1 h2 hvl hsi =>
    refine let_ok hb hok hl h1 h2 hsi he hs rfl (fun vs ws hvs hlv => ?_)
    exact ERel.bindAll (he.mono (fun x ⟨hn, hx⟩ => .appF _ (.lam hn hx))) hvs hlv.symm

mutual
/-- Simple expressions. -/
theorem simple_ok : ∀ e : Exp, SOk M e
  | .var x => by
    intro t ρ ρt σ σt hc he hs
    cases hc
    by_cases hg : x.isGlobal = true
    · rcases hs.glob x with ⟨h1, h2⟩ | ⟨v, w, h1, h2, hvw⟩
      · exact Or.inl (fun κ => Fails.now (by simp [step, hg, h1]) (fun _ _ => by simp))
      · exact Or.inr ⟨v, σ, w, σt, fun κ => Reach1.one (by simp [step, hg, h1]), fun κ => Reach1.one (by simp [step, hg, h2]), hvw, hs⟩
    · have hg' : x.isGlobal = false := by simpa using hg
      rcases hl : ρ.lookup x with _ | v
      · exact Or.inl (fun κ => Fails.now (by simp [step, hg', hl]) (fun _ _ => by simp))
      · obtain ⟨w, hw, hvw⟩ := he x v .var hl
        exact Or.inr ⟨v, σ, w, σt, Evals.local hg' hl σ, Evals.local hg' hw σt, hvw, hs⟩
  | .set x e => by
    intro t ρ ρt σ σt hc he hs
    cases hc with
    | set hg h =>
    have s1 : ∀ o ρ κ (σ : Store W) e, step M o (.ev (.set x e) ρ κ σ) = some (.ev e ρ (.set x κ) σ) := by
      intro o ρ κ σ e; simp [step, hg]
    rcases simple_ok e _ ρ ρt σ σt h (he.mono (fun y hy => .set _ hy)) hs with hf | ⟨v, σ2, w, σt2, g1, g2, hvw, hs2⟩
    · exact Or.inl (fun κ => Fails.of_step (s1 _ _ _ _ _) (hf _))
    · refine Or.inr ⟨.atom 1, _, .atom 1, _, fun κ => Reach1.cons (s1 _ _ _ _ _) ((g1 _).reach.trans (Reach.one rfl)),
        fun κ => Reach1.cons (s1 _ _ _ _ _) ((g2 _).reach.trans (Reach.one rfl)), .atom 1, ⟨fun y => ?_, hs2.heap, hs2.world⟩⟩
      by_cases hy : y = x
      · exact Or.inr ⟨v, w, by simp [hy], by simp [hy], hvw⟩
      · simpa [hy] using hs2.glob y
  | .ite a b c => by
    intro t ρ ρt σ σt hc he hs
    cases hc with
    | ite h1 h2 h3 =>
    rename_i ta tb tc
    rcases simple_ok a _ ρ ρt σ σt h1 (he.mono (fun y hy => .iteA _ _ hy)) hs with hf | ⟨v, σ2, w, σt2, g1, g2, hvw, hs2⟩
    · exact Or.inl (fun κ => Fails.of_step rfl (hf _))
    · have e1 : ∀ κ, Reach1 (step M cpsOrder) (.ev (.ite a b c) ρ κ σ) (.ev (if v.isFalse then c else b) ρ κ σ2) :=
        fun κ => Reach1.cons rfl ((g1 _).reach.trans (Reach.one rfl))
      have e2 : ∀ κ, Reach1 (step M leftToRight) (.ev (.ite ta tb tc) ρt κ σt) (.ev (if v.isFalse then tc else tb) ρt κ σt2) :=
        fun κ => Reach1.cons rfl ((g2 _).reach.trans (Reach.one (by simp only [step]; rw [hvw.isFalse])))
      by_cases hvf : v.isFalse = true
      · simp only [hvf, if_true] at e1 e2
        rcases simple_ok c _ ρ ρt σ2 σt2 h3 (he.mono (fun y hy => .iteC _ _ hy)) hs2 with hf | ⟨v', σ3, w', σt3, k1, k2, hvw', hs3⟩
        · exact Or.inl (fun κ => Fails.of_reach (e1 κ).reach (hf κ))
        · exact Or.inr ⟨v', σ3, w', σt3, fun κ => (e1 κ).trans (k1 κ).reach, fun κ => (e2 κ).trans (k2 κ).reach, hvw', hs3⟩
      · simp only [hvf, if_false, Bool.false_eq_true] at e1 e2
        rcases simple_ok b _ ρ ρt σ2 σt2 h2 (he.mono (fun y hy => .iteB _ _ hy)) hs2 with hf | ⟨v', σ3, w', σt3, k1, k2, hvw', hs3⟩
        · exact Or.inl (fun κ => Fails.of_reach (e1 κ).reach (hf κ))
        · exact Or.inr ⟨v', σ3, w', σt3, fun κ => (e1 κ).trans (k1 κ).reach, fun κ => (e2 κ).trans (k2 κ).reach, hvw', hs3⟩
  | .prim eff p es => prim_ok (simple_oks es)
  | .lam ids b => by
    intro t ρ ρt σ σt hc he hs
    cases hc with
    | lam hk hf h =>
    exact Or.inr ⟨_, σ, _, σt, Evals.lam _ _ _ _, Evals.lam _ _ _ _, .clos hk hf h he.ex he.val, hs⟩
  | .fix ids lams b => by
    intro t ρ ρt σ σt hc he hs
    cases hc with
    | fix hl hb =>
    have he' : ERel (fun x => Free x b) (.fix ids lams ρ) (.fix ids _ ρt) := ERel.fix hl (he.mono (fun x ⟨hn, hx⟩ => by
      rcases hx with hx | ⟨l, hl, hx⟩
      · exact .fixB _ hn hx
      · exact .fixL _ hn hl hx))
    rcases simple_ok b _ _ _ σ σt hb he' hs with hf | ⟨v, σ2, w, σt2, g1, g2, hvw, hs2⟩
    · exact Or.inl (fun κ => Fails.of_step rfl (hf κ))
    · exact Or.inr ⟨v, σ2, w, σt2, fun κ => Reach1.cons rfl (g1 κ).reach, fun κ => Reach1.cons rfl (g2 κ).reach, hvw, hs2⟩
  | .app (.lam ids b) es => app_ok (simple_ok b) (simple_oks es)
  | .app (.var _) _ => fun _ _ _ _ _ hc => nomatch hc
  | .app (.set _ _) _ => fun _ _ _ _ _ hc => nomatch hc
  | .app (.ite _ _ _) _ => fun _ _ _ _ _ hc => nomatch hc
  | .app (.prim _ _ _) _ => fun _ _ _ _ _ hc => nomatch hc
  | .app (.app _ _) _ => fun _ _ _ _ _ hc => nomatch hc
  | .app (.fix _ _ _) _ => fun _ _ _ _ _ hc => nomatch hc
  | .app (.letcc _ _) _ => fun _ _ _ _ _ hc => nomatch hc
  | .app (.withcc _ _) _ => fun _ _ _ _ _ hc => nomatch hc
  | .letcc _ _ => fun _ _ _ _ _ hc => nomatch hc
  | .withcc _ _ => fun _ _ _ _ _ hc => nomatch hc
/-- lists of them. -/
theorem simple_oks : ∀ es : List Exp, ∀ e ∈ es, SOk M e
  | [] => fun _ h => nomatch h
  | e :: es => fun e' h => by
    rcases List.mem_cons.mp h with h | h
    · rw [h]; exact simple_ok e
    · exact simple_oks es e' h
end

end Verif.Cps

import Verif.Boxes.Rel
import Verif.Core.Eval
/-
Entering a procedure: the parameters that are assigned are moved to boxes (C33).
-/
namespace Verif.Boxes
open Verif.Core
variable {W : Type} {M : Sem W}

/-! ### related environments -/

theorem ERel.ex {μ : List Cell} {s : Id → Option Id} {S : Id → Prop} {ρ ρt : Env} (h : ERel μ s S ρ ρt) :
    ∀ x v, S x → ρ.lookup x = some v → ∃ w, ρt.lookup (tv s x) = some w := fun x v hs hl => by
  obtain ⟨w, hw, _⟩ := h x v hs hl; exact ⟨w, hw⟩

theorem ERel.all {μ : List Cell} {s : Id → Option Id} {S : Id → Prop} {ρ ρt : Env} (h : ERel μ s S ρ ρt) :
    ∀ x v w, S x → ρ.lookup x = some v → ρt.lookup (tv s x) = some w → CRel μ (s x).isSome v w := fun x v w hs hl hw => by
  obtain ⟨w', hw', hc⟩ := h x v hs hl
  rw [hw] at hw'; injection hw' with e; subst e; exact hc

theorem ERel.mk {μ : List Cell} {s : Id → Option Id} {S : Id → Prop} {ρ ρt : Env}
    (h1 : ∀ x v, S x → ρ.lookup x = some v → ∃ w, ρt.lookup (tv s x) = some w)
    (h2 : ∀ x v w, S x → ρ.lookup x = some v → ρt.lookup (tv s x) = some w → CRel μ (s x).isSome v w) : ERel μ s S ρ ρt :=
  fun x v hs hl => by
    obtain ⟨w, hw⟩ := h1 x v hs hl
    exact ⟨w, hw, h2 x v w hs hl hw⟩

theorem ERel.sub {μ : List Cell} {s : Id → Option Id} {S S' : Id → Prop} {ρ ρt : Env} (h : ERel μ s S ρ ρt)
    (hS : ∀ x, S' x → S x) : ERel μ s S' ρ ρt := fun x v hs hl => h x v (hS x hs) hl

theorem ERel.ext {μ μ' : List Cell} {s : Id → Option Id} {S : Id → Prop} {ρ ρt : Env} (h : ERel μ s S ρ ρt)
    (hμ : Ext μ μ') : ERel μ' s S ρ ρt := fun x v hs hl => by
  obtain ⟨w, hw, hc⟩ := h x v hs hl; exact ⟨w, hw, hc.mono hμ⟩

theorem Ext.append (μ ν : List Cell) : Ext μ (μ ++ ν) := fun a c h => by
  have : a < μ.length := by
    rcases Nat.lt_or_ge a μ.length with h' | h'
    · exact h'
    · rw [List.getElem?_eq_none h'] at h; cases h
  rw [List.getElem?_append_left this]; exact h

theorem Ext.refl (μ : List Cell) : Ext μ μ := fun _ _ h => h

theorem forall₂_get {α β : Type} {R : α → β → Prop} {vs : List α} {ws : List β} (h : List.Forall₂ R vs ws) :
    ∀ {j : Nat} {v : α} {w : β}, vs[j]? = some v → ws[j]? = some w → R v w := by
  induction h with
  | nil => intro j v w hv; simp at hv
  | cons h1 _ ih =>
    intro j v w hv hw
    cases j with
    | zero => simp at hv hw; subst hv; subst hw; exact h1
    | succ j => simp at hv hw; exact ih hv hw

theorem lt_of_get {α : Type} {l : List α} {i : Nat} {a : α} (h : l[i]? = some a) : i < l.length := by
  rcases Nat.lt_or_ge i l.length with h' | h'
  · exact h'
  · rw [List.getElem?_eq_none h'] at h; cases h

/-! ### binding of parameters -/

theorem bindAll_none {y : Id} : ∀ {ids : List Id} {ws : List Val} {ρ : Env}, y ∉ ids →
    (bindAll ids ws ρ).lookup y = ρ.lookup y := by
  intro ids
  induction ids with
  | nil => intro ws ρ _; cases ws <;> rfl
  | cons x ids ih =>
    intro ws ρ h
    cases ws with
    | nil => rfl
    | cons w ws =>
      simp only [List.mem_cons, not_or] at h
      rw [bindAll, Env.lookup, if_neg h.1, ih h.2]

theorem bindAll_get {y : Id} : ∀ {ids : List Id} {ws : List Val} {ρ : Env} {j : Nat} {w : Val}, ids.Nodup → ids[j]? = some y →
    ws[j]? = some w → (bindAll ids ws ρ).lookup y = some w := by
  intro ids
  induction ids with
  | nil => intro ws ρ j w _ h; simp at h
  | cons x ids ih =>
    intro ws ρ j w hn h hw
    rw [List.nodup_cons] at hn
    cases ws with
    | nil => simp at hw
    | cons w0 ws =>
      cases j with
      | zero => simp at h hw; subst h; subst hw; simp [bindAll, Env.lookup]
      | succ j =>
        simp at h hw
        have : y ≠ x := fun e => hn.1 (e ▸ List.mem_of_getElem? h)
        rw [bindAll, Env.lookup, if_neg this]
        exact ih hn.2 h hw

theorem bindCells_none {y : Id} : ∀ {ids : List Id} {a : Nat} {ρ : Env}, y ∉ ids →
    (bindCells ids a ρ).lookup y = ρ.lookup y := by
  intro ids
  induction ids with
  | nil => intro a ρ _; rfl
  | cons x ids ih =>
    intro a ρ h
    simp only [List.mem_cons, not_or] at h
    rw [bindCells, Env.lookup, if_neg h.1, ih h.2]

theorem bindCells_get {y : Id} : ∀ {ids : List Id} {a : Nat} {ρ : Env}, y ∈ ids →
    ∃ j, ids[j]? = some y ∧ (bindCells ids a ρ).lookup y = some (.box (a + j)) := by
  intro ids
  induction ids with
  | nil => intro a ρ h; simp at h
  | cons x ids ih =>
    intro a ρ h
    by_cases hx : y = x
    · subst hx; exact ⟨0, rfl, by simp [bindCells, Env.lookup]⟩
    · obtain ⟨j, hj, hl⟩ := ih (a := a + 1) (ρ := ρ) (by simpa [hx] using h)
      refine ⟨j + 1, by simpa using hj, ?_⟩
      rw [bindCells, Env.lookup, if_neg hx, hl]
      congr 2; omega

theorem assq_mem {x b : Id} : ∀ {ps : List (Id × Id)}, assq x ps = some b → (x, b) ∈ ps := by
  intro ps
  induction ps with
  | nil => intro h; simp [assq] at h
  | cons p ps ih =>
    obtain ⟨y, c⟩ := p
    intro h
    rw [assq] at h
    split at h
    · rename_i e; injection h with h; subst e; subst h; simp
    · simp [ih h]

theorem assq_none {x : Id} : ∀ {ps : List (Id × Id)}, assq x ps = none → ∀ p ∈ ps, p.1 ≠ x := by
  intro ps
  induction ps with
  | nil => intro _ p hp; simp at hp
  | cons p ps ih =>
    obtain ⟨y, c⟩ := p
    intro h q hq
    rw [assq] at h
    split at h
    · cases h
    · rename_i hne
      simp only [List.mem_cons] at hq
      rcases hq with rfl | hq
      · exact fun e => hne e.symm
      · exact ih h q hq

theorem snd_inj {ps : List (Id × Id)} (hn : (ps.map (·.2)).Nodup) {p q : Id × Id} (hp : p ∈ ps) (hq : q ∈ ps) (h : p.2 = q.2) : p = q := by
  induction ps with
  | nil => simp at hp
  | cons r ps ih =>
    simp only [List.map_cons, List.nodup_cons, List.mem_map, not_exists, not_and] at hn
    simp only [List.mem_cons] at hp hq
    rcases hp with rfl | hp <;> rcases hq with rfl | hq
    · rfl
    · exact absurd h.symm (hn.1 q hq)
    · exact absurd h (hn.1 p hp)
    · exact ih hn.2 hp hq

/-! ### evaluation of the boxes -/

/-- `(box x)`. -/
theorem box_evals {ord : Op → Nat → List Nat} (hf : FairPos ord) {x : Id} {ρ : Env} {σ : Store W} {w : Val} (hx : x.isGlobal = false)
    (hl : ρ.lookup x = some w) : Evals M (positional ord) (boxExp (.var x)) ρ σ (.box σ.heap.length) { σ with heap := σ.heap ++ [w] } := by
  have ho : positional ord (.prim ⟨true, false, false⟩ .box) [.var x] = List.range 1 := by
    have := hf (.prim ⟨true, false, false⟩ .box) 1
    rw [show List.range 1 = [0] from rfl] at this ⊢
    exact List.perm_singleton.mp this
  exact EvalL.prim ho (.cons (Evals.local hx hl _) (.nil _)) rfl

/-- any order of the operands of the `let` that makes the boxes. -/
theorem boxes_reach {ord : Op → Nat → List Nat} (hf : FairPos ord) {bs : List Id} {tb : Exp} {ρ : Env} {ps : List (Id × Id)}
    (g : Nat → Val) (hg : ∀ i p, ps[i]? = some p → p.1.isGlobal = false ∧ ρ.lookup p.1 = some (g i)) {κ : Kont} :
    ∀ (todo : List Nat) (d : Nat → Val) (σ : Store W), todo.Nodup → (∀ j ∈ todo, j < ps.length + 1) →
    ∃ (d' : Nat → Val) (h' : List Val),
      Reach (step M (positional ord)) (.args .call (.lam bs tb :: ps.map (fun p => boxExp (.var p.1))) d todo ρ κ σ)
        (.args .call (.lam bs tb :: ps.map (fun p => boxExp (.var p.1))) d' [] ρ κ { σ with heap := σ.heap ++ h' }) ∧
      (∀ j, j ∉ todo → d' j = d j) ∧ (0 ∈ todo → d' 0 = .clos bs tb ρ) ∧
      (∀ i, i + 1 ∈ todo → ∃ a, d' (i + 1) = .box a ∧ σ.heap.length ≤ a ∧ (σ.heap ++ h')[a]? = some (g i)) ∧
      (∀ i j a, i + 1 ∈ todo → j + 1 ∈ todo → d' (i + 1) = .box a → d' (j + 1) = .box a → i = j) := by
  intro todo
  induction todo with
  | nil =>
    intro d σ _ _
    refine ⟨d, [], ?_, fun _ _ => rfl, ?_, ?_, ?_⟩
    · rw [List.append_nil]; exact Reach.refl _
    · intro h; simp at h
    · intro i h; simp at h
    · intro i j a h; simp at h
  | cons k todo ih =>
    intro d σ hn hlt
    rw [List.nodup_cons] at hn
    cases k with
    | zero =>
      obtain ⟨d', h', hr, h1, h2, h3, h4⟩ := ih (upd d 0 (.clos bs tb ρ)) σ hn.2 (fun j hj => hlt j (by simp [hj]))
      refine ⟨d', h', (args_step rfl (Evals.lam _ _ _ _)).reach.trans hr, ?_, ?_, ?_, ?_⟩
      · intro j hj
        simp only [List.mem_cons, not_or] at hj
        rw [h1 j hj.2, upd, if_neg hj.1]
      · intro _; rw [h1 0 hn.1, upd, if_pos rfl]
      · intro i hi; exact h3 i (by simpa using hi)
      · intro i j a hi hj; exact h4 i j a (by simpa using hi) (by simpa using hj)
    | succ k =>
      have hk : k < ps.length := by have := hlt (k + 1) (by simp); omega
      obtain ⟨p, hp⟩ : ∃ p, ps[k]? = some p := ⟨_, List.getElem?_eq_getElem hk⟩
      obtain ⟨hpg, hpl⟩ := hg k p hp
      have he : (Exp.lam bs tb :: ps.map (fun p => boxExp (.var p.1)))[k + 1]? = some (boxExp (.var p.1)) := by
        simp [hp]
      obtain ⟨d', h', hr, h1, h2, h3, h4⟩ := ih (upd d (k + 1) (.box σ.heap.length)) { σ with heap := σ.heap ++ [g k] } hn.2
        (fun j hj => hlt j (by simp [hj]))
      have hd : d' (k + 1) = .box σ.heap.length := by rw [h1 _ hn.1, upd, if_pos rfl]
      refine ⟨d', g k :: h', ?_, ?_, ?_, ?_, ?_⟩
      · refine (args_step he (box_evals hf hpg hpl)).reach.trans ?_
        simpa using hr
      · intro j hj
        simp only [List.mem_cons, not_or] at hj
        rw [h1 j hj.2, upd, if_neg hj.1]
      · intro h0; exact h2 (by simpa using h0)
      · intro i hi
        simp only [List.mem_cons] at hi
        rcases hi with hi | hi
        · have : i = k := by omega
          subst this
          exact ⟨_, hd, Nat.le_refl _, by simp⟩
        · obtain ⟨a, ha, hle, hga⟩ := h3 i hi
          refine ⟨a, ha, ?_, by simpa using hga⟩
          simp only [List.length_append, List.length_cons, List.length_nil] at hle
          omega
      · intro i j a hi hj hda hdb
        simp only [List.mem_cons] at hi hj
        rcases hi with hi | hi <;> rcases hj with hj | hj
        · omega
        · exfalso
          have : i = k := by omega
          subst this
          obtain ⟨a', ha', hle, _⟩ := h3 j hj
          rw [hd] at hda; rw [ha'] at hdb
          injection hda with e1; injection hdb with e2
          simp only [List.length_append, List.length_cons, List.length_nil] at hle
          omega
        · exfalso
          have : j = k := by omega
          subst this
          obtain ⟨a', ha', hle, _⟩ := h3 i hi
          rw [hd] at hdb; rw [ha'] at hda
          injection hda with e1; injection hdb with e2
          simp only [List.length_append, List.length_cons, List.length_nil] at hle
          omega
        · exact h4 i j a hi hj hda hdb

theorem SRel.boxlt {μ : List Cell} {σ σt : Store W} (h : SRel μ σ σt) {a a' : Nat} (ha : μ[a]? = some (.box a')) :
    a' < σt.heap.length := by
  have hl := lt_of_get ha
  rw [h.heap.len] at hl
  obtain ⟨w, hw, _⟩ := h.heap.box a _ a' (List.getElem?_eq_getElem hl) ha
  exact lt_of_get hw

/-- new cells. -/
theorem SRel.alloc {μ ν : List Cell} {σ σt : Store W} {vs h' : List Val} (h : SRel μ σ σt) (hlen : ν.length = vs.length)
    (himm : ∀ (j : Nat) (v w : Val), vs[j]? = some v → ν[j]? = some (.imm w) → VRel (μ ++ ν) v w)
    (hbox : ∀ (j : Nat) (v : Val) (a : Nat), vs[j]? = some v → ν[j]? = some (.box a) → σt.heap.length ≤ a ∧
      ∃ w, (σt.heap ++ h')[a]? = some w ∧ VRel (μ ++ ν) v w)
    (hinj : ∀ (j1 j2 a : Nat), ν[j1]? = some (.box a) → ν[j2]? = some (.box a) → j1 = j2) :
    SRel (μ ++ ν) { σ with heap := σ.heap ++ vs } { σt with heap := σt.heap ++ h' } := by
  have hμ := Ext.append μ ν
  refine ⟨?_, ⟨?_, ?_, ?_, ?_⟩, h.world⟩
  · intro x
    rcases h.glob x with h1 | ⟨v, w, h1, h2, h3⟩
    · exact Or.inl h1
    · exact Or.inr ⟨v, w, h1, h2, h3.mono hμ⟩
  · simp [h.heap.len, hlen]
  · intro a v w ha hw
    simp only at ha
    rcases Nat.lt_or_ge a σ.heap.length with hlt | hge
    · rw [List.getElem?_append_left hlt] at ha
      rw [List.getElem?_append_left (by rw [h.heap.len]; exact hlt)] at hw
      exact (h.heap.imm a v w ha hw).mono hμ
    · rw [List.getElem?_append_right hge] at ha
      rw [List.getElem?_append_right (by rw [h.heap.len]; exact hge), h.heap.len] at hw
      exact himm _ v w ha hw
  · intro a v a' ha hw
    simp only at ha ⊢
    rcases Nat.lt_or_ge a σ.heap.length with hlt | hge
    · rw [List.getElem?_append_left hlt] at ha
      rw [List.getElem?_append_left (by rw [h.heap.len]; exact hlt)] at hw
      obtain ⟨w, h1, h2⟩ := h.heap.box a v a' ha hw
      exact ⟨w, by rw [List.getElem?_append_left (lt_of_get h1)]; exact h1, h2.mono hμ⟩
    · rw [List.getElem?_append_right hge] at ha
      rw [List.getElem?_append_right (by rw [h.heap.len]; exact hge), h.heap.len] at hw
      exact (hbox _ v a' ha hw).2
  · intro a1 a2 a' h1 h2
    have hnew : ∀ (a : Nat), μ.length ≤ a → (μ ++ ν)[a]? = some (.box a') → σt.heap.length ≤ a' := by
      intro a hge ha
      rw [List.getElem?_append_right hge] at ha
      have := lt_of_get ha
      rw [hlen] at this
      exact (hbox _ _ a' (List.getElem?_eq_getElem this) ha).1
    have hold : ∀ (a : Nat), a < μ.length → (μ ++ ν)[a]? = some (.box a') → a' < σt.heap.length := by
      intro a hlt ha
      rw [List.getElem?_append_left hlt] at ha
      exact h.boxlt ha
    rcases Nat.lt_or_ge a1 μ.length with hl1 | hl1 <;> rcases Nat.lt_or_ge a2 μ.length with hl2 | hl2
    · rw [List.getElem?_append_left hl1] at h1
      rw [List.getElem?_append_left hl2] at h2
      exact h.heap.inj _ _ _ h1 h2
    · have := hold _ hl1 h1; have := hnew _ hl2 h2; omega
    · have := hold _ hl2 h2; have := hnew _ hl1 h1; omega
    · rw [List.getElem?_append_right hl1] at h1
      rw [List.getElem?_append_right hl2] at h2
      have := hinj _ _ _ h1 h2
      omega

/-- Entering a procedure. -/
theorem entry_reach {ord : Op → Nat → List Nat} (hf : FairPos ord) {μ : List Cell} {s : Id → Option Id} {ids : List Id} {b t : Exp}
    {vs ws : List Val} {ρ ρt : Env} {σ σt : Store W} {κ : Kont} (he : Entry s ids b t) (hlen : ids.length = vs.length)
    (hv : List.Forall₂ (VRel μ) vs ws) (hρ : ERel μ s (fun x => Free x (.lam ids b)) ρ ρt) (hs : SRel μ σ σt) :
    ∃ (μ' : List Cell) (s' : Id → Option Id) (tb : Exp) (ρt' : Env) (σt' : Store W),
      Reach (step M (positional ord)) (.ev t (bindAll ids ws ρt) κ σt) (.ev tb ρt' κ σt') ∧ Bx s' b tb ∧ Ext μ μ' ∧
      ERel μ' s' (fun x => Free x b) (bindCells ids σ.heap.length ρ) ρt' ∧
      SRel μ' { σ with heap := σ.heap ++ vs } σt' := by
  cases he with
  | mk hids hbs hxs hps hxb hfree hb =>
  rename_i t ps
  have hwlen : ws.length = ids.length := by rw [hlen]; exact hv.length_eq.symm
  -- the values of the parameters
  have hpar : ∀ x ∈ ids, ∃ (j : Nat) (w : Val), ids[j]? = some x ∧ ws[j]? = some w ∧ (bindAll ids ws ρt).lookup x = some w := by
    intro x hx
    obtain ⟨j, hj⟩ := List.mem_iff_getElem?.mp hx
    have hjl : j < ws.length := by rw [hwlen]; exact lt_of_get hj
    exact ⟨j, ws[j], hj, List.getElem?_eq_getElem hjl, bindAll_get hids hj (List.getElem?_eq_getElem hjl)⟩
  let g : Nat → Val := fun i => match ps[i]? with
    | some p => ((bindAll ids ws ρt).lookup p.1).getD .trap
    | none => .trap
  have hg : ∀ (i : Nat) (p : Id × Id), ps[i]? = some p → p.1.isGlobal = false ∧ (bindAll ids ws ρt).lookup p.1 = some (g i) := by
    intro i p hp
    have hm := hps p (List.mem_of_getElem? hp)
    obtain ⟨j, w, _, _, hw⟩ := hpar p.1 hm.1
    refine ⟨hm.2.1, ?_⟩
    simp only [g, hp, hw, Option.getD_some]
  have hfair := hf .call (ps.length + 1)
  have htodo : ∀ j, j ∈ ord .call (ps.length + 1) ↔ j < ps.length + 1 := fun j => by rw [hfair.mem_iff, List.mem_range]
  obtain ⟨d', h', hr, _, h2, h3, h4⟩ := boxes_reach (M := M) (bs := ps.map (·.2)) (tb := t) (κ := κ) hf g hg (ord .call (ps.length + 1))
    (fun _ => .trap) σt (hfair.nodup_iff.mpr List.nodup_range) (fun j hj => (htodo j).mp hj)
  have h0 := h2 ((htodo 0).mpr (by omega))
  -- the boxes
  let us : List Val := (List.range ps.length).map (fun i => d' (i + 1))
  have hus : ∀ (i : Nat) (p : Id × Id), ps[i]? = some p → us[i]? = some (d' (i + 1)) := fun i p hp => by simp [us, lt_of_get hp]
  have hsndget : ∀ (i : Nat) (p : Id × Id), ps[i]? = some p → (ps.map (·.2))[i]? = some p.2 := fun i p hp => by simp [hp]
  let ρ1 := bindAll ids ws ρt
  let ρ2 := bindAll (ps.map (·.2)) us ρ1
  have hbox : ∀ p ∈ ps, ∃ (i a : Nat), ps[i]? = some p ∧ ρ2.lookup p.2 = some (.box a) ∧ d' (i + 1) = .box a ∧ σt.heap.length ≤ a ∧
      ∃ w, ρ1.lookup p.1 = some w ∧ (σt.heap ++ h')[a]? = some w := by
    intro p hp
    obtain ⟨i, hi⟩ := List.mem_iff_getElem?.mp hp
    obtain ⟨a, ha, hle, hga⟩ := h3 i ((htodo _).mpr (by have := lt_of_get hi; omega))
    refine ⟨i, a, hi, ?_, ha, hle, g i, (hg i p hi).2, hga⟩
    exact bindAll_get hbs (hsndget i p hi) (by rw [hus i p hi, ha])
  -- what becomes of the cells
  let cell : Id → Val → Cell := fun x w => match assq x ps with
    | none => .imm w
    | some b => match ρ2.lookup b with
      | some (.box a) => .box a
      | _ => .imm w
  let ν : List Cell := List.zipWith cell ids ws
  have hνget : ∀ (j : Nat) (x : Id) (w : Val), ids[j]? = some x → ws[j]? = some w → ν[j]? = some (cell x w) := fun j x w hx hw => by
    simp [ν, List.getElem?_zipWith, hx, hw]
  have hνinv : ∀ (j : Nat) (c : Cell), ν[j]? = some c → ∃ x w, ids[j]? = some x ∧ ws[j]? = some w ∧ c = cell x w := fun j c h => by
    simp only [ν, List.getElem?_zipWith] at h
    split at h
    · rename_i x w hx hw; injection h with h; exact ⟨x, w, hx, hw, h.symm⟩
    · cases h
  have hcellbox : ∀ (x : Id) (w : Val) (a : Nat), cell x w = .box a → ∃ b, (x, b) ∈ ps ∧ ρ2.lookup b = some (.box a) := by
    intro x w a h
    simp only [cell] at h
    split at h
    · cases h
    · rename_i b hb
      split at h
      · rename_i hl; injection h with h; subst h; exact ⟨b, assq_mem hb, hl⟩
      · cases h
  have hμ := Ext.append μ ν
  refine ⟨μ ++ ν, inner s ids ps, t, ρ2, { σt with heap := σt.heap ++ h' }, ?_, hb, hμ, ?_, ?_⟩
  · -- the steps
    refine Reach.cons (b := .args .call (.lam (ps.map (·.2)) t :: ps.map (fun p => boxExp (.var p.1))) (fun _ => .trap)
      (ord .call (ps.length + 1)) ρ1 κ σt) ?_ (hr.trans ?_)
    · simp [letExp, step, positional, ρ1]
    · refine Reach.cons (b := .ap (.clos (ps.map (·.2)) t ρ1) us κ { σt with heap := σt.heap ++ h' }) ?_ (Reach.one ?_)
      · simp only [step, vals, List.length_cons, List.length_map, List.range_succ_eq_map, List.map_cons, h0]
        simp [us, ρ1, Function.comp_def]
      · simp [step, us, ρ2]
  · -- the environment
    intro y v hy hl
    by_cases hm : y ∈ ids
    · obtain ⟨j, hj, hlj⟩ := bindCells_get (a := σ.heap.length) (ρ := ρ) hm
      rw [hlj] at hl; injection hl with hl; subst hl
      obtain ⟨j', w, hj', hw, hlw⟩ := hpar y hm
      have hjj : j' = j := by
        have a1 := lt_of_get hj; have a2 := lt_of_get hj'
        rw [List.getElem?_eq_getElem a1] at hj; rw [List.getElem?_eq_getElem a2] at hj'
        injection hj with hj; injection hj' with hj'
        exact (List.Nodup.getElem_inj_iff hids).mp (hj'.trans hj.symm)
      subst hjj
      have hcell : (μ ++ ν)[σ.heap.length + j']? = some (cell y w) := by
        rw [List.getElem?_append_right (by rw [hs.heap.len]; omega), hs.heap.len, Nat.add_sub_cancel_left]
        exact hνget _ _ _ hj hw
      have hin : inner s ids ps y = assq y ps := by simp [inner, hm]
      cases ha : assq y ps with
      | none =>
        have hn : y ∉ ps.map (·.2) := by
          intro h
          obtain ⟨p, hp, e⟩ := List.mem_map.mp h
          exact hxb y hm p hp e.symm
        refine ⟨w, ?_, ?_⟩
        · rw [tv, hin, ha]
          show ρ2.lookup y = some w
          rw [bindAll_none hn]; exact hlw
        · rw [hin, ha]
          refine .imm ?_
          rw [hcell]; simp [cell, ha]
      | some b =>
        obtain ⟨i, a, _, hl2, _⟩ := hbox _ (assq_mem ha)
        refine ⟨.box a, ?_, ?_⟩
        · rw [tv, hin, ha]; exact hl2
        · rw [hin, ha]
          refine .boxed ?_
          rw [hcell]
          have hl2' : ρ2.lookup b = some (.box a) := hl2
          simp [cell, ha, hl2']
    · rw [bindCells_none hm] at hl
      have hfy : Free y (.lam ids b) := .lam hm hy
      obtain ⟨w, hw, hc⟩ := hρ y v hfy hl
      obtain ⟨f1, f2⟩ := hfree y hfy
      have hin : inner s ids ps y = s y := by simp [inner, hm]
      have htv : tv (inner s ids ps) y = tv s y := by rw [tv, hin, tv]
      refine ⟨w, ?_, ?_⟩
      · rw [htv]
        show ρ2.lookup _ = _
        rw [bindAll_none, bindAll_none f1]
        · exact hw
        · intro h
          obtain ⟨p, hp, e⟩ := List.mem_map.mp h
          exact f2 p hp e.symm
      · rw [hin]; exact hc.mono hμ
  · -- the store
    refine hs.alloc ?_ ?_ ?_ ?_
    · simp [ν, hwlen, ← hlen]
    · intro j v w hvj hc
      obtain ⟨x, w', hx, hw', e⟩ := hνinv _ _ hc
      have hr := (forall₂_get hv hvj hw').mono hμ
      simp only [cell] at e
      split at e
      · injection e with e; subst e; exact hr
      · rename_i b hb'
        obtain ⟨i, a, _, hl2, _⟩ := hbox _ (assq_mem hb')
        have hl2' : ρ2.lookup b = some (.box a) := hl2
        rw [hl2'] at e
        cases e
    · intro j v a hvj hc
      obtain ⟨x, w', hx, hw', e⟩ := hνinv _ _ hc
      obtain ⟨b, hm, hl⟩ := hcellbox x w' a e.symm
      obtain ⟨i, a', _, hl2, _, hle, w, hw, hga⟩ := hbox _ hm
      have e2 : Val.box a' = .box a := by
        have hl2' : ρ2.lookup b = some (.box a') := hl2
        rw [hl] at hl2'; injection hl2' with h; exact h.symm
      injection e2 with e2; subst e2
      refine ⟨hle, w, hga, ?_⟩
      have : w = w' := by
        have hw2 : ρ1.lookup x = some w := hw
        have : ρ1.lookup x = some w' := bindAll_get hids hx hw'
        rw [hw2] at this; injection this
      subst this
      exact (forall₂_get hv hvj hw').mono hμ
    · intro j1 j2 a hc1 hc2
      obtain ⟨x1, w1, hx1, _, e1⟩ := hνinv _ _ hc1
      obtain ⟨x2, w2, hx2, _, e2⟩ := hνinv _ _ hc2
      obtain ⟨b1, hm1, hl1⟩ := hcellbox _ _ _ e1.symm
      obtain ⟨b2, hm2, hl2⟩ := hcellbox _ _ _ e2.symm
      obtain ⟨i1, a1, hi1, g1, k1, _⟩ := hbox _ hm1
      obtain ⟨i2, a2, hi2, g2, k2, _⟩ := hbox _ hm2
      have q1 : a1 = a := by
        have g1' : ρ2.lookup b1 = some (.box a1) := g1
        rw [hl1] at g1'; injection g1' with h; injection h with h; exact h.symm
      have q2 : a2 = a := by
        have g2' : ρ2.lookup b2 = some (.box a2) := g2
        rw [hl2] at g2'; injection g2' with h; injection h with h; exact h.symm
      subst q1
      rw [q2] at k2
      have hij := h4 i1 i2 a1 ((htodo _).mpr (by have := lt_of_get hi1; omega)) ((htodo _).mpr (by have := lt_of_get hi2; omega)) k1 k2
      subst hij
      rw [hi1] at hi2
      injection hi2 with e
      injection e with e _
      subst e
      have a1 := lt_of_get hx1; have a2 := lt_of_get hx2
      rw [List.getElem?_eq_getElem a1] at hx1; rw [List.getElem?_eq_getElem a2] at hx2
      injection hx1 with hx1; injection hx2 with hx2
      exact (List.Nodup.getElem_inj_iff hids).mp (hx1.trans hx2.symm)

end Verif.Boxes

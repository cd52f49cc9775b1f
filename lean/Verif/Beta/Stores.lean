import Verif.Beta.Silent
/-
A program and the reduced program run in step (C36).
-/
namespace Verif.Beta
open Verif.Core
variable {W : Type} {C : Ctx W} {k k' : Kn}

theorem lt_of_get {α : Type} {l : List α} {i : Nat} {a : α} (h : l[i]? = some a) : i < l.length := (List.getElem?_eq_some_iff.mp h).1

theorem Ext.append (k : Kn) (xs : List (Option Nat)) : Ext k { k with μ := k.μ ++ xs } :=
  ⟨fun a c h => by rw [List.getElem?_append_left (lt_of_get h)]; exact h, fun _ _ h => h⟩

theorem idxOf_none {x : Id} : ∀ {ids : List Id}, idxOf x ids = none ↔ x ∉ ids := by
  intro ids
  induction ids with
  | nil => simp [idxOf]
  | cons y ys ih =>
    by_cases h : x = y
    · simp [idxOf, h]
    · simp [idxOf, h, ih]

theorem idxOf_mem {x : Id} {ids : List Id} {i : Nat} (h : idxOf x ids = some i) : x ∈ ids := by
  refine Classical.byContradiction fun hn => ?_
  rw [idxOf_none.mpr hn] at h; cases h

/-! ### stores -/

theorem SR.boxlt {σ σt : Store W} (h : SR C k σ σt) {a a' : Nat} (hl : a < σ.heap.length) (ha : k.μ[a]? = some (some a')) : a' < σt.heap.length := by
  obtain ⟨w, hw, _⟩ := h.heap.box a _ a' (List.getElem?_eq_getElem hl) ha
  exact lt_of_get hw

theorem SR.set_heap {σ σt : Store W} {v w : Val} {a a' : Nat} (h : SR C k σ σt) (ha : k.μ[a]? = some (some a'))
    (hv : VR C k v w) : SR C k { σ with heap := σ.heap.set a v } { σt with heap := σt.heap.set a' w } := by
  refine ⟨h.glob, h.const, ⟨by simp [h.heap.len], ?_, h.heap.inj⟩, h.world⟩
  intro b u b' hu hb
  simp only [List.getElem?_set] at hu ⊢
  split at hu
  · rename_i e
    subst e
    rw [ha] at hb; injection hb with hb; injection hb with hb; subst hb
    split at hu
    · rename_i hl
      injection hu with hu; subst hu
      exact ⟨w, by simp [h.boxlt hl ha], hv⟩
    · cases hu
  · rename_i hne
    obtain ⟨z, hz, hr⟩ := h.heap.box b u b' hu hb
    have : a' ≠ b' := fun e => hne (h.heap.inj a b a' ha (e ▸ hb))
    exact ⟨z, by rw [if_neg this]; exact hz, hr⟩

theorem SR.globMono {σ σt : Store W} (h : SR C k σ σt) (hk : Ext k k') (x : Id) :
    (σ.glob x = none ∧ σt.glob x = none) ∨ ∃ v w, σ.glob x = some v ∧ σt.glob x = some w ∧ VR C k' v w := by
  rcases h.glob x with h1 | ⟨v, w, h1, h2, h3⟩
  · exact Or.inl h1
  · exact Or.inr ⟨v, w, h1, h2, h3.mono hk⟩

/-- a box is made on both sides. -/
theorem SR.alloc {σ σt : Store W} {v w : Val} (h : SR C k σ σt) (hv : VR C k v w) :
    SR C { k with μ := k.μ ++ [some σt.heap.length] } { σ with heap := σ.heap ++ [v] } { σt with heap := σt.heap ++ [w] } := by
  have hx := Ext.append k [some σt.heap.length]
  refine ⟨h.globMono hx, h.const, ⟨by simp [h.heap.len], ?_, ?_⟩, h.world⟩
  · intro a u a' hu ha
    simp only at hu ha ⊢
    by_cases hl : a < σ.heap.length
    · rw [List.getElem?_append_left hl] at hu
      rw [List.getElem?_append_left (by rw [h.heap.len]; exact hl)] at ha
      obtain ⟨z, hz, hr⟩ := h.heap.box a u a' hu ha
      exact ⟨z, by rw [List.getElem?_append_left (lt_of_get hz)]; exact hz, hr.mono hx⟩
    · have e : a = σ.heap.length := by have := lt_of_get hu; simp at this; omega
      subst e
      rw [← h.heap.len] at ha
      simp at hu ha
      subst hu; subst ha
      exact ⟨w, by simp, hv.mono hx⟩
  · intro a1 a2 a' h1 h2
    simp only at h1 h2
    have lim : ∀ a, k.μ[a]? = some (some a') → a' < σt.heap.length := fun a ha =>
      h.boxlt (by rw [← h.heap.len]; exact lt_of_get ha) ha
    by_cases l1 : a1 < k.μ.length
    · rw [List.getElem?_append_left l1] at h1
      by_cases l2 : a2 < k.μ.length
      · rw [List.getElem?_append_left l2] at h2
        exact h.heap.inj a1 a2 a' h1 h2
      · have e : a2 = k.μ.length := by have := lt_of_get h2; simp at this; omega
        subst e; simp at h2
        have := lim a1 h1; omega
    · have e : a1 = k.μ.length := by have := lt_of_get h1; simp at this; omega
      subst e; simp at h1
      by_cases l2 : a2 < k.μ.length
      · rw [List.getElem?_append_left l2] at h2
        have := lim a2 h2; omega
      · have := lt_of_get h2; simp at this; omega

/-- boxes are made on the first side only. -/
theorem SR.grow {σ σt : Store W} (h : SR C k σ σt) (xs : List Val) :
    SR C { k with μ := k.μ ++ List.replicate xs.length none } (grow σ xs) σt := by
  have hx := Ext.append k (List.replicate xs.length none)
  have low : ∀ (a a' : Nat), (k.μ ++ List.replicate xs.length none)[a]? = some (some a') → k.μ[a]? = some (some a') := by
    intro a a' ha
    by_cases hl : a < k.μ.length
    · rwa [List.getElem?_append_left hl] at ha
    · rw [List.getElem?_append_right (by omega), List.getElem?_replicate] at ha
      split at ha <;> simp at ha
  refine ⟨h.globMono hx, h.const, ⟨by simp [Beta.grow, h.heap.len], ?_, ?_⟩, h.world⟩
  · intro a u a' hu ha
    have ha := low a a' ha
    simp only [Beta.grow] at hu
    rw [List.getElem?_append_left (by rw [← h.heap.len]; exact lt_of_get ha)] at hu
    obtain ⟨z, hz, hr⟩ := h.heap.box a u a' hu ha
    exact ⟨z, hz, hr.mono hx⟩
  · intro a1 a2 a' h1 h2
    exact h.heap.inj a1 a2 a' (low _ _ h1) (low _ _ h2)

/-- assignment to a global. -/
theorem SR.set_glob {σ σt : Store W} {v w : Val} (h : SR C k σ σt) (x : Id) (hx : (x.isGlobalConst && (σ.glob x).isSome) = false) (hv : VR C k v w) :
    ∃ k', Ext k k' ∧ SR C k' { σ with glob := fun y => if y = x then some v else σ.glob y } { σt with glob := fun y => if y = x then some w else σt.glob y } := by
  cases hc : x.isGlobalConst with
  | false =>
    refine ⟨k, Ext.refl k, ⟨fun y => ?_, fun y hy => ?_, h.heap, h.world⟩⟩
    · by_cases e : y = x
      · right; exact ⟨v, w, by simp [e], by simp [e], hv⟩
      · simp only [e, if_false]; exact h.glob y
    · have e : y ≠ x := fun e => by rw [e, hc] at hy; cases hy
      simp only [e, if_false]; exact h.const y hy
  | true =>
    rw [hc] at hx
    have hn : σ.glob x = none := by cases hg : σ.glob x with
      | none => rfl
      | some u => rw [hg] at hx; cases hx
    have hkx : k.G x = none := by rw [h.const x hc, hn]
    have ext : Ext k { k with G := fun y => if y = x then some v else k.G y } := by
      refine ⟨fun _ _ h => h, fun y u hu => ?_⟩
      have e : y ≠ x := fun e => by rw [e, hkx] at hu; cases hu
      simp only [e, if_false]; exact hu
    refine ⟨_, ext, ⟨fun y => ?_, fun y hy => ?_, ⟨h.heap.len, fun a u a' h1 h2 => ?_, h.heap.inj⟩, h.world⟩⟩
    · by_cases e : y = x
      · right; exact ⟨v, w, by simp [e], by simp [e], hv.mono ext⟩
      · simp only [e, if_false]; exact h.globMono ext y
    · by_cases e : y = x
      · simp [e]
      · simp only [e, if_false]; exact h.const y hy
    · obtain ⟨z, hz, hr⟩ := h.heap.box a u a' h1 h2
      exact ⟨z, hz, hr.mono ext⟩

theorem forall₂_view {vs ws : List Val} (h : List.Forall₂ (VR C k) vs ws) : vs.map Val.view = ws.map Val.view := by
  induction h with
  | nil => rfl
  | cons h1 _ ih => simp [h1.view, ih]

/-- primitives. -/
theorem doPrim_rel {M : Sem W} {C : Ctx W} {k : Kn} {p : PrimName} {vs ws : List Val} {σ σt : Store W} (hv : List.Forall₂ (VR C k) vs ws) (hs : SR C k σ σt) :
    doPrim M p vs σ = none ∨
    (∃ v w, doPrim M p vs σ = some (.stop v) ∧ doPrim M p ws σt = some (.stop w) ∧ VR C k v w) ∨
    (∃ k' v w σ' σt', doPrim M p vs σ = some (.ok v σ') ∧ doPrim M p ws σt = some (.ok w σt') ∧ (Ext k k' ∧ (p ≠ .box → k' = k)) ∧ VR C k' v w ∧ SR C k' σ' σt') := by
  cases p with
  | void =>
    cases hv with
    | nil => exact Or.inr (Or.inr ⟨k, _, _, σ, σt, rfl, rfl, ⟨Ext.refl _, fun _ => rfl⟩, .atom 1, hs⟩)
    | cons => exact Or.inl rfl
  | halt =>
    cases hv with
    | nil => exact Or.inl rfl
    | cons h1 h2 =>
      cases h2 with
      | nil => exact Or.inr (Or.inl ⟨_, _, rfl, rfl, h1⟩)
      | cons => exact Or.inl rfl
  | ktrap =>
    cases hv with
    | nil => exact Or.inr (Or.inr ⟨k, _, _, σ, σt, rfl, rfl, ⟨Ext.refl _, fun _ => rfl⟩, .trap, hs⟩)
    | cons => exact Or.inl rfl
  | box =>
    cases hv with
    | nil => exact Or.inl rfl
    | cons h1 h2 =>
      cases h2 with
      | nil =>
        rename_i v w
        right; right
        refine ⟨{ k with μ := k.μ ++ [some σt.heap.length] }, _, _, _, _, rfl, rfl, ⟨Ext.append _ _, fun h => absurd rfl h⟩, ?_, ?_⟩
        · refine .box ?_
          rw [← hs.heap.len]; simp
        · exact hs.alloc h1
      | cons => exact Or.inl (by simp [doPrim])
  | boxref =>
    cases hv with
    | nil => exact Or.inl rfl
    | cons h1 h2 =>
      cases h2 with
      | cons => exact Or.inl (by cases h1 <;> simp [doPrim])
      | nil =>
        cases h1 with
        | box ha =>
          rename_i a a'
          cases hg : σ.heap[a]? with
          | none => exact Or.inl (by simp [doPrim, hg])
          | some v =>
            obtain ⟨w, hw, hr⟩ := hs.heap.box a v a' hg ha
            exact Or.inr (Or.inr ⟨k, v, w, σ, σt, by simp [doPrim, hg], by simp [doPrim, hw], ⟨Ext.refl _, fun _ => rfl⟩, hr, hs⟩)
        | _ => exact Or.inl rfl
  | boxset =>
    cases hv with
    | nil => exact Or.inl rfl
    | cons h1 h2 =>
      cases h2 with
      | nil => exact Or.inl (by cases h1 <;> simp [doPrim])
      | cons h2 h3 =>
        cases h3 with
        | cons => exact Or.inl (by cases h1 <;> simp [doPrim])
        | nil =>
          cases h1 with
          | box ha =>
            rename_i v w a a'
            have hl := lt_of_get ha
            rw [hs.heap.len] at hl
            exact Or.inr (Or.inr ⟨k, v, w, _, _, by simp only [doPrim, if_pos hl], by simp only [doPrim, if_pos (hs.boxlt hl ha)], ⟨Ext.refl _, fun _ => rfl⟩, h2,
              hs.set_heap ha h2⟩)
          | _ => exact Or.inl rfl
  | cons =>
    cases hv with
    | nil => exact Or.inl rfl
    | cons h1 h2 =>
      cases h2 with
      | nil => exact Or.inl rfl
      | cons h2 h3 =>
        cases h3 with
        | nil => exact Or.inr (Or.inr ⟨k, _, _, σ, σt, rfl, rfl, ⟨Ext.refl _, fun _ => rfl⟩, .pair h1 h2, hs⟩)
        | cons => exact Or.inl rfl
  | car =>
    cases hv with
    | nil => exact Or.inl rfl
    | cons h1 h2 =>
      cases h2 with
      | cons => exact Or.inl (by cases h1 <;> simp [doPrim])
      | nil =>
        cases h1 with
        | pair ha hd => exact Or.inr (Or.inr ⟨k, _, _, σ, σt, rfl, rfl, ⟨Ext.refl _, fun _ => rfl⟩, ha, hs⟩)
        | _ => exact Or.inl rfl
  | cdr =>
    cases hv with
    | nil => exact Or.inl rfl
    | cons h1 h2 =>
      cases h2 with
      | cons => exact Or.inl (by cases h1 <;> simp [doPrim])
      | nil =>
        cases h1 with
        | pair ha hd => exact Or.inr (Or.inr ⟨k, _, _, σ, σt, rfl, rfl, ⟨Ext.refl _, fun _ => rfl⟩, hd, hs⟩)
        | _ => exact Or.inl rfl
  | op n =>
    cases ho : M.op n (vs.map Val.view) σ.world with
    | none => exact Or.inl (by simp [doPrim, ho])
    | some r =>
      have ho' : M.op n (ws.map Val.view) σt.world = some r := by rw [← forall₂_view hv, ← hs.world]; exact ho
      exact Or.inr (Or.inr ⟨k, .atom r.1, .atom r.1, { σ with world := r.2 }, { σt with world := r.2 }, by simp only [doPrim, ho]; rfl,
        by simp only [doPrim, ho']; rfl, ⟨Ext.refl _, fun _ => rfl⟩, .atom _, ⟨hs.glob, hs.const, hs.heap, rfl⟩⟩)


/-- primitives that depend on their arguments only. -/
theorem pure_rel {M : Sem W} {p : PrimName} {vs ws : List Val} {v : Val} {σ σt : Store W} (hp : Pure M p) (hv : List.Forall₂ (VR C k) vs ws)
    (hs : SR C k σ σt) (h : ∀ σ, doPrim M p vs σ = some (.ok v σ)) : ∃ w, VR C k v w ∧ doPrim M p ws σt = some (.ok w σt) := by
  by_cases hb : p = .box
  · subst hb
    have := h σ
    match vs, this with
    | [u], this =>
      simp only [doPrim] at this
      injection this with this; injection this with _ this
      have := congrArg (fun s => s.heap.length) this
      simp at this
    | [], this => simp [doPrim] at this
    | _ :: _ :: _, this => simp [doPrim] at this
  · have key : doPrim M p vs σ = none ∨ (∃ u w, doPrim M p vs σ = some (.stop u) ∧ doPrim M p ws σt = some (.stop w)) ∨
        ∃ u w σ' σt', doPrim M p vs σ = some (.ok u σ') ∧ doPrim M p ws σt = some (.ok w σt') ∧ VR C k u w := by
      rcases doPrim_rel (M := M) (p := p) hv hs with h1 | ⟨u, w, h1, h2, h3⟩ | ⟨k', u, w, σ', σt', h1, h2, h3, h4, h5⟩
      · exact Or.inl h1
      · exact Or.inr (Or.inl ⟨u, w, h1, h2⟩)
      · have e := h3.2 hb
        subst e
        exact Or.inr (Or.inr ⟨u, w, σ', σt', h1, h2, h4⟩)
    rcases key with h1 | ⟨u, w, h1, _⟩ | ⟨u, w, σ', σt', h1, h2, h3⟩
    · rw [h σ] at h1; cases h1
    · rw [h σ] at h1; cases h1
    · rw [h σ] at h1; injection h1 with h1; injection h1 with h1 _; subst h1
      rcases hp ws with hn | ⟨z, hz⟩
      · rw [hn σt] at h2; cases h2
      · have := hz σt
        rw [this] at h2; injection h2 with h2; injection h2 with h2 _; subst h2
        exact ⟨z, h3, this⟩

theorem forall₂_vals {d d' : Nat → Val} (h : ∀ j, VR C k (d j) (d' j)) (n : Nat) :
    List.Forall₂ (VR C k) (vals d n) (vals d' n) := by
  simp only [vals]
  induction List.range n with
  | nil => exact .nil
  | cons i l ih => exact .cons (h i) ih

end Verif.Beta

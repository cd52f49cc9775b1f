import Verif.Letrec.Quick
/-
Related stores (C35).
-/
namespace Verif.Letrec
open Verif.Core
open Verif.Boxes (bindCells_none bindCells_get idxOf_none lt_of_get)
variable {W : Type} {P : Par} {φ : List Slot} {σ σt : Store W}

theorem SlotOk.mono {φ' : List Slot} (hφ : Ext φ φ') {heap : List Val} (ext : List Val) {v : Val} : {s : Slot} → SlotOk P φ heap v s → SlotOk P φ' (heap ++ ext) v s
  | .live _, ⟨w, h1, h2⟩ => ⟨w, by rw [List.getElem?_append_left (lt_of_get h1)]; exact h1, h2.mono hφ⟩
  | .dir _, h => h.imp id (fun h => h.mono hφ)
  | .cell _ _, ⟨h1, h2⟩ => ⟨by rw [List.getElem?_append_left (lt_of_get h1)]; exact h1, h2.imp id (fun h => h.mono hφ)⟩
  | .dead, _ => trivial

theorem SlotOk.lt {heap : List Val} {v : Val} {a : Nat} : {s : Slot} → SlotOk P φ heap v s → s.addr = some a → a < heap.length
  | .live _, ⟨w, h1, _⟩, h => by injection h with h; subst h; exact lt_of_get h1
  | .dir _, _, h => by cases h
  | .cell _ _, ⟨h1, _⟩, h => by injection h with h; subst h; exact lt_of_get h1
  | .dead, _, h => by cases h

theorem SR.val (h : SR P φ σ σt) {a : Nat} {s : Slot} (hs : φ[a]? = some s) : ∃ v, σ.heap[a]? = some v ∧ SlotOk P φ σt.heap v s := by
  have hlt := lt_of_get hs
  rw [h.len] at hlt
  exact ⟨_, List.getElem?_eq_getElem hlt, h.cells a _ s (List.getElem?_eq_getElem hlt) hs⟩

theorem SR.lt (h : SR P φ σ σt) {a a' : Nat} {s : Slot} (hs : φ[a]? = some s) (ha : s.addr = some a') : a' < σt.heap.length := by
  obtain ⟨v, _, hok⟩ := h.val hs
  exact hok.lt ha

/-- new cells on both sides. -/
theorem SR.grow (h : SR P φ σ σt) {ν : List Slot} {vs ext : List Val} (hl : ν.length = vs.length)
    (hok : ∀ (i : Nat) v s, vs[i]? = some v → ν[i]? = some s → SlotOk P (φ ++ ν) (σt.heap ++ ext) v s)
    (hnew : ∀ (i : Nat) s a, ν[i]? = some s → s.addr = some a → σt.heap.length ≤ a)
    (hinj : ∀ (i j : Nat) s a', ν[i]? = some (.live a') → ν[j]? = some s → i ≠ j → s.addr ≠ some a') :
    SR P (φ ++ ν) { σ with heap := σ.heap ++ vs } { σt with heap := σt.heap ++ ext } := by
  have hE := Ext.append φ ν
  refine ⟨fun x => ?_, by simp [hl, h.len], fun a v s hv hs => ?_, fun a b s a' ha hb hab => ?_, h.world⟩
  · rcases h.glob x with h1 | ⟨v, w, h1, h2, h3⟩
    · exact Or.inl h1
    · exact Or.inr ⟨v, w, h1, h2, h3.mono hE⟩
  · by_cases hlt : a < φ.length
    · simp only at hv ⊢
      rw [List.getElem?_append_left (by rw [← h.len]; exact hlt)] at hv
      rw [List.getElem?_append_left hlt] at hs
      exact (h.cells a v s hv hs).mono hE ext
    · simp only at hv ⊢
      rw [List.getElem?_append_right (by rw [← h.len]; omega)] at hv
      rw [List.getElem?_append_right (by omega)] at hs
      rw [← h.len] at hv
      exact hok _ v s hv hs
  · by_cases ha1 : a < φ.length <;> by_cases hb1 : b < φ.length
    · rw [List.getElem?_append_left ha1] at ha
      rw [List.getElem?_append_left hb1] at hb
      exact h.inj a b s a' ha hb hab
    · rw [List.getElem?_append_left ha1] at ha
      rw [List.getElem?_append_right (by omega)] at hb
      intro e
      have h1 := hnew _ s a' hb e
      have h2 := h.lt (a' := a') ha rfl
      omega
    · rw [List.getElem?_append_right (by omega)] at ha
      rw [List.getElem?_append_left hb1] at hb
      intro e
      have h1 := hnew _ _ a' ha rfl
      have h2 := h.lt hb e
      omega
    · rw [List.getElem?_append_right (by omega)] at ha hb
      exact hinj _ _ s a' ha hb (by omega)

/-- cells of variables that are not used. -/
theorem SR.junk (h : SR P φ σ σt) (vs ws : List Val) :
    SR P (φ ++ vs.map (fun _ => .dead)) { σ with heap := σ.heap ++ vs } { σt with heap := σt.heap ++ ws } := by
  have hd : ∀ (i : Nat) s, (vs.map (fun _ => Slot.dead))[i]? = some s → s = .dead := by
    intro i s hs
    rw [List.getElem?_map] at hs
    cases hv : vs[i]? with
    | none => rw [hv] at hs; cases hs
    | some v => rw [hv] at hs; injection hs with hs; exact hs.symm
  refine h.grow (by simp) (fun i v s _ hs => ?_) (fun i s a hs ha => ?_) (fun i j s a' hi => ?_)
  · rw [hd i s hs]; trivial
  · rw [hd i s hs] at ha; cases ha
  · have := hd i _ hi; cases this

theorem SR.junkT (h : SR P φ σ σt) (ws : List Val) : SR P φ σ { σt with heap := σt.heap ++ ws } := by
  have := h.junk [] ws
  simpa using this

theorem SR.junkS (h : SR P φ σ σt) (vs : List Val) : SR P (φ ++ vs.map (fun _ => .dead)) { σ with heap := σ.heap ++ vs } σt := by
  have := h.junk vs []
  simpa using this

/-- `k` cells, from `n` on. -/
def lives (n k : Nat) : List Slot := (List.range k).map (fun i => .live (n + i))

theorem lives_length (n k : Nat) : (lives n k).length = k := by simp [lives]

theorem lives_get {n k i : Nat} {s : Slot} (h : (lives n k)[i]? = some s) : s = .live (n + i) ∧ i < k := by
  have hlt := lt_of_get h
  rw [lives_length] at hlt
  simp only [lives, List.getElem?_map, List.getElem?_range hlt, Option.map_some, Option.some.injEq] at h
  exact ⟨h.symm, hlt⟩

theorem get_lives {n k i : Nat} (h : i < k) : (lives n k)[i]? = some (.live (n + i)) := by
  simp only [lives, List.getElem?_map, List.getElem?_range h, Option.map_some]

theorem forall₂_get {R : Val → Val → Prop} {h h' : List Val} (hh : List.Forall₂ R h h') : ∀ {a : Nat} {v : Val}, h[a]? = some v → ∃ w, h'[a]? = some w ∧ R v w := by
  induction hh with
  | nil => intro a v h; simp at h
  | cons h1 _ ih =>
    intro a v h
    cases a with
    | zero => simp only [List.getElem?_cons_zero, Option.some.injEq] at h; subst h; exact ⟨_, rfl, h1⟩
    | succ a => simpa using ih (by simpa using h)

/-- cells of variables on both sides. -/
theorem SR.alloc (h : SR P φ σ σt) {vs ws : List Val} (hv : List.Forall₂ (VR P φ) vs ws) :
    SR P (φ ++ lives σt.heap.length vs.length) { σ with heap := σ.heap ++ vs } { σt with heap := σt.heap ++ ws } := by
  refine h.grow (by simp [lives_length]) (fun i v s hi hs => ?_) (fun i s a hs ha => ?_) (fun i j s a' hi hj hij => ?_)
  · obtain ⟨rfl, hlt⟩ := lives_get hs
    obtain ⟨w, hw, hr⟩ := forall₂_get hv hi
    exact ⟨w, by rw [List.getElem?_append_right (Nat.le_add_right _ _), Nat.add_sub_cancel_left]; exact hw, hr.mono (Ext.append _ _)⟩
  · obtain ⟨rfl, hlt⟩ := lives_get hs
    injection ha with ha; omega
  · have h1 := (lives_get hi).1
    injection h1 with h1
    obtain ⟨rfl, _⟩ := lives_get hj
    simp only [Slot.addr, ne_eq, Option.some.injEq]
    omega

theorem SR.set_glob {v w : Val} (h : SR P φ σ σt) (x : Id) (hv : VR P φ v w) :
    SR P φ { σ with glob := fun y => if y = x then some v else σ.glob y } { σt with glob := fun y => if y = x then some w else σt.glob y } := by
  refine ⟨fun y => ?_, h.len, h.cells, h.inj, h.world⟩
  by_cases e : y = x
  · right; exact ⟨v, w, by simp [e], by simp [e], hv⟩
  · simp only [e, if_false]; exact h.glob y

theorem SlotOk.set {heap : List Val} {v : Val} {a : Nat} {w : Val} : {s : Slot} → SlotOk P φ heap v s → s.addr ≠ some a → SlotOk P φ (heap.set a w) v s
  | .live b, ⟨u, h1, h2⟩, hn => ⟨u, by rw [List.getElem?_set_ne (fun e => hn (by rw [e]; rfl))]; exact h1, h2⟩
  | .dir _, h, _ => h
  | .cell b _, ⟨h1, h2⟩, hn => ⟨by rw [List.getElem?_set_ne (fun e => hn (by rw [e]; rfl))]; exact h1, h2⟩
  | .dead, _, _ => trivial

/-- assignment to a variable. -/
theorem SR.set_live {v w : Val} {a a' : Nat} (h : SR P φ σ σt) (ha : φ[a]? = some (.live a')) (hv : VR P φ v w) :
    SR P φ { σ with heap := σ.heap.set a v } { σt with heap := σt.heap.set a' w } := by
  refine ⟨h.glob, by simp [h.len], fun b u s hu hs => ?_, h.inj, h.world⟩
  by_cases e : a = b
  · subst e
    rw [ha] at hs; injection hs with hs; subst hs
    have hlt := lt_of_get ha
    rw [h.len] at hlt
    simp only [List.getElem?_set_self hlt, Option.some.injEq] at hu
    subst hu
    exact ⟨w, by simp only; rw [List.getElem?_set_self (h.lt (a' := a') ha rfl)], hv⟩
  · simp only [List.getElem?_set_ne e] at hu
    exact (h.cells b u s hu hs).set (h.inj a b s a' ha hs e)

/-- initialization of a variable that the fixed program has initialized already. -/
theorem SR.set_src {v : Val} {a : Nat} (h : SR P φ σ σt) (ha : φ[a]? = some .dead ∨ ∃ w, Frz φ a w ∧ VR P φ v w) :
    SR P φ { σ with heap := σ.heap.set a v } σt := by
  refine ⟨h.glob, by simp [h.len], fun b u s hu hs => ?_, h.inj, h.world⟩
  by_cases e : a = b
  · subst e
    rcases ha with ha | ⟨w, ha, hv⟩
    · rw [ha] at hs; injection hs with hs; subst hs; trivial
    · have hlt := lt_of_get hs
      rw [h.len] at hlt
      simp only [List.getElem?_set_self hlt, Option.some.injEq] at hu
      subst hu
      obtain ⟨u, _, hok⟩ := h.val hs
      rcases ha with ha | ⟨a', ha⟩
      · rw [ha] at hs; injection hs with hs; subst hs
        exact Or.inr hv
      · rw [ha] at hs; injection hs with hs; subst hs
        exact ⟨hok.1, Or.inr hv⟩
  · simp only [List.getElem?_set_ne e] at hu
    exact h.cells b u s hu hs

theorem forall₂_view {vs ws : List Val} (h : List.Forall₂ (VR P φ) vs ws) : vs.map Val.view = ws.map Val.view := by
  induction h with
  | nil => rfl
  | cons h1 _ ih => simp [h1.view, ih]

theorem forall₂_vals {d d' : Nat → Val} (h : ∀ j, VR P φ (d j) (d' j)) (n : Nat) :
    List.Forall₂ (VR P φ) (vals d n) (vals d' n) := by
  simp only [vals]
  induction List.range n with
  | nil => exact .nil
  | cons i l ih => exact .cons (h i) ih

/-- primitives. -/
theorem doPrim_rel {M : Sem W} {p : PrimName} {vs ws : List Val} (hv : List.Forall₂ (VR P φ) vs ws) (hs : SR P φ σ σt) :
    doPrim M p vs σ = none ∨
    (∃ v w, doPrim M p vs σ = some (.stop v) ∧ doPrim M p ws σt = some (.stop w) ∧ VR P φ v w) ∨
    (∃ v w σ' σt' φ', doPrim M p vs σ = some (.ok v σ') ∧ doPrim M p ws σt = some (.ok w σt') ∧ Ext φ φ' ∧ VR P φ' v w ∧ SR P φ' σ' σt') := by
  cases p with
  | void =>
    cases hv with
    | nil => exact Or.inr (Or.inr ⟨_, _, σ, σt, φ, rfl, rfl, .refl _, .atom 1, hs⟩)
    | cons => exact Or.inl rfl
  | halt =>
    cases hv with
    | nil => exact Or.inl rfl
    | cons h1 h2 =>
      cases h2 with
      | nil => exact Or.inr (Or.inl ⟨_, _, rfl, rfl, h1⟩)
      | cons => exact Or.inl rfl
  | ktrap =>
    cases hv with
    | nil => exact Or.inr (Or.inr ⟨_, _, σ, σt, φ, rfl, rfl, .refl _, .trap, hs⟩)
    | cons => exact Or.inl rfl
  | box =>
    cases hv with
    | nil => exact Or.inl rfl
    | cons h1 h2 =>
      cases h2 with
      | nil =>
        rename_i v w
        refine Or.inr (Or.inr ⟨_, _, _, _, φ ++ lives σt.heap.length 1, rfl, rfl, .append _ _, .box ?_, hs.alloc (.cons h1 .nil)⟩)
        rw [List.getElem?_append_right (by rw [hs.len]), hs.len, Nat.sub_self]
        rfl
      | cons => exact Or.inl (by simp [doPrim])
  | boxref =>
    cases hv with
    | nil => exact Or.inl rfl
    | cons h1 h2 =>
      cases h2 with
      | cons => exact Or.inl (by cases h1 <;> simp [doPrim])
      | nil =>
        cases h1 with
        | box ha =>
          obtain ⟨v, hv, w, hw, hr⟩ := hs.val ha
          exact Or.inr (Or.inr ⟨v, w, σ, σt, φ, by simp [doPrim, hv], by simp [doPrim, hw], .refl _, hr, hs⟩)
        | _ => exact Or.inl rfl
  | boxset =>
    cases hv with
    | nil => exact Or.inl rfl
    | cons h1 h2 =>
      cases h2 with
      | nil => exact Or.inl (by cases h1 <;> simp [doPrim])
      | cons h2 h3 =>
        cases h3 with
        | cons => exact Or.inl (by cases h1 <;> simp [doPrim])
        | nil =>
          cases h1 with
          | box ha =>
            rename_i v w a a'
            have hl := lt_of_get ha
            rw [hs.len] at hl
            exact Or.inr (Or.inr ⟨v, w, { σ with heap := σ.heap.set a v }, { σt with heap := σt.heap.set a' w }, φ, by simp only [doPrim, if_pos hl],
                by simp only [doPrim, if_pos (hs.lt (a' := a') ha rfl)], .refl _, h2, hs.set_live ha h2⟩)
          | _ => exact Or.inl rfl
  | cons =>
    cases hv with
    | nil => exact Or.inl rfl
    | cons h1 h2 =>
      cases h2 with
      | nil => exact Or.inl rfl
      | cons h2 h3 =>
        cases h3 with
        | nil => exact Or.inr (Or.inr ⟨_, _, σ, σt, φ, rfl, rfl, .refl _, .pair h1 h2, hs⟩)
        | cons => exact Or.inl rfl
  | car =>
    cases hv with
    | nil => exact Or.inl rfl
    | cons h1 h2 =>
      cases h2 with
      | cons => exact Or.inl (by cases h1 <;> simp [doPrim])
      | nil =>
        cases h1 with
        | pair ha hd => exact Or.inr (Or.inr ⟨_, _, σ, σt, φ, rfl, rfl, .refl _, ha, hs⟩)
        | _ => exact Or.inl rfl
  | cdr =>
    cases hv with
    | nil => exact Or.inl rfl
    | cons h1 h2 =>
      cases h2 with
      | cons => exact Or.inl (by cases h1 <;> simp [doPrim])
      | nil =>
        cases h1 with
        | pair ha hd => exact Or.inr (Or.inr ⟨_, _, σ, σt, φ, rfl, rfl, .refl _, hd, hs⟩)
        | _ => exact Or.inl rfl
  | op n =>
    cases ho : M.op n (vs.map Val.view) σ.world with
    | none => exact Or.inl (by simp [doPrim, ho])
    | some r =>
      have ho' : M.op n (ws.map Val.view) σt.world = some r := by rw [← forall₂_view hv, ← hs.world]; exact ho
      exact Or.inr (Or.inr ⟨.atom r.1, .atom r.1, { σ with world := r.2 }, { σt with world := r.2 }, φ, by simp only [doPrim, ho]; rfl,
        by simp only [doPrim, ho']; rfl, .refl _, .atom _, ⟨hs.glob, hs.len, hs.cells, hs.inj, rfl⟩⟩)

/-! ### environments -/

/-- parameters. -/
theorem ER.bind {S A S' A' : Id → Prop} {ρ ρt : Env} {ids : List Id} (h : ER P φ S A ρ ρt) (hs : SR P φ σ σt) (k : Nat) (hk : ids.length = k) (hS : ∀ y, S' y → y ∉ ids → S y)
    (hA : ∀ y, A' y → y ∉ ids → A y) :
    ER P (φ ++ lives σt.heap.length k) S' A' (bindCells ids σ.heap.length ρ) (bindCells ids σt.heap.length ρt) := by
  have hget : ∀ y, y ∈ ids → ∃ j, (bindCells ids σ.heap.length ρ).lookup y = some (.box (σ.heap.length + j)) ∧ (bindCells ids σt.heap.length ρt).lookup y = some (.box (σt.heap.length + j)) ∧
      (φ ++ lives σt.heap.length k)[σ.heap.length + j]? = some (.live (σt.heap.length + j)) := by
    intro y hy
    have key : ∀ (ids : List Id) (a b : Nat), y ∈ ids → ∃ j, j < ids.length ∧ (bindCells ids a ρ).lookup y = some (.box (a + j)) ∧ (bindCells ids b ρt).lookup y = some (.box (b + j)) := by
      intro ids
      induction ids with
      | nil => intro a b h; simp at h
      | cons x ids ih =>
        intro a b h
        by_cases hx : y = x
        · subst hx; exact ⟨0, by simp, by simp [bindCells, Env.lookup], by simp [bindCells, Env.lookup]⟩
        · obtain ⟨j, hj, h1, h2⟩ := ih (a + 1) (b + 1) (by simpa [hx] using h)
          refine ⟨j + 1, by simpa using hj, ?_, ?_⟩
          · rw [bindCells, Env.lookup, if_neg hx, h1]; congr 2; omega
          · rw [bindCells, Env.lookup, if_neg hx, h2]; congr 2; omega
    obtain ⟨j, hj, h1, h2⟩ := key ids _ _ hy
    refine ⟨j, h1, h2, ?_⟩
    rw [List.getElem?_append_right (by rw [hs.len]; omega), hs.len, Nat.add_sub_cancel_left]
    exact get_lives (by omega)
  refine ⟨fun y r hy hl => ?_, fun y r hy hl => ?_⟩
  · by_cases hm : y ∈ ids
    · obtain ⟨j, h1, h2, h3⟩ := hget y hm
      rw [h1] at hl; injection hl with hl
      exact ⟨_, _, hl.symm, h2, .live h3⟩
    · rw [bindCells_none hm] at hl ⊢
      obtain ⟨a, r', g1, g2, g3⟩ := h.look y r (hS y hy hm) hl
      exact ⟨a, r', g1, g2, g3.mono (Ext.append _ _)⟩
  · by_cases hm : y ∈ ids
    · obtain ⟨j, h1, h2, h3⟩ := hget y hm
      rw [h1] at hl; injection hl with hl
      exact ⟨_, _, hl.symm, h3⟩
    · rw [bindCells_none hm] at hl
      obtain ⟨a, a', g1, g2⟩ := h.live y r (hA y hy hm) hl
      exact ⟨a, a', g1, Ext.append _ _ _ _ g2⟩

/-- variables that are not used. -/
theorem ER.skipS {S A : Id → Prop} {ρ ρt : Env} (h : ER P φ S A ρ ρt) {x : Id} (hx : ¬ S x) (ha : ∀ y, A y → S y) (v : Val) : ER P φ S A (.bind x v ρ) ρt := by
  refine ⟨fun y r hy hl => ?_, fun y r hy hl => ?_⟩
  · have e : y ≠ x := fun e => hx (e ▸ hy)
    simp only [Env.lookup, if_neg e] at hl
    exact h.look y r hy hl
  · have e : y ≠ x := fun e => hx (e ▸ ha y hy)
    simp only [Env.lookup, if_neg e] at hl
    exact h.live y r hy hl

theorem ER.skipT {S A : Id → Prop} {ρ ρt : Env} (h : ER P φ S A ρ ρt) {x : Id} (hx : ¬ S x) (v : Val) : ER P φ S A ρ (.bind x v ρt) := by
  refine ⟨fun y r hy hl => ?_, h.live⟩
  have e : y ≠ x := fun e => hx (e ▸ hy)
  simp only [Env.lookup, if_neg e]
  exact h.look y r hy hl

theorem assigned_free {x : Id} {e : Exp} (h : AssignedIn x e) : Free x e := by
  rw [← vinfo_assigned] at h
  rw [← vinfo_free]
  obtain ⟨u, h1, _⟩ := h
  exact ⟨u, h1⟩

/-- an environment that agrees with the given one. -/
theorem ER.congr {S A : Id → Prop} {ρ ρt ρ' ρt' : Env} (h : ER P φ S A ρ ρt) (ha : ∀ y, A y → S y) (h1 : ∀ y, S y → ρ'.lookup y = ρ.lookup y) (h2 : ∀ y, S y → ρt'.lookup y = ρt.lookup y) :
    ER P φ S A ρ' ρt' := by
  refine ⟨fun y r hy hl => ?_, fun y r hy hl => ?_⟩
  · rw [h1 y hy] at hl; rw [h2 y hy]; exact h.look y r hy hl
  · rw [h1 y (ha y hy)] at hl; exact h.live y r hy hl

theorem QR.congr {ρ ρ' : Env} {e : Exp} {w : Val} (h : QR P φ ρ e w) (he : ∀ y, Free y e → ρ'.lookup y = ρ.lookup y) : QR P φ ρ' e w := by
  cases h with
  | clos h1 h2 => exact .clos h1 (h2.congr (fun y hy => assigned_free hy) he (fun _ _ => rfl))
  | rclos h1 h2 h3 => exact .rclos h1 h2 (h3.congr (fun y hy => assigned_free hy) he (fun _ _ => rfl))
  | atom h1 h => exact .atom h1 h

theorem Pend.skip {ρ : Env} {qs : List Pair} {us : List Id} {S : Id → Prop} (h : Pend P φ ρ qs us) {x : Id} (hx : ¬ S x) (h1 : ∀ q ∈ qs, q.id ≠ x) (h2 : x ∉ us)
    (h3 : ∀ q ∈ qs, ∀ y, Free y q.src → S y) (v : Val) : Pend P φ (.bind x v ρ) qs us := by
  refine ⟨fun q hq => ?_, fun y hy => ?_⟩
  · obtain ⟨a, w, g1, g2, g3⟩ := h.val q hq
    refine ⟨a, w, ?_, g2, g3.congr (fun y hy => ?_)⟩
    · rw [Env.lookup, if_neg (h1 q hq)]; exact g1
    · rw [Env.lookup, if_neg (fun (e : y = x) => hx (e ▸ h3 q hq y hy))]
  · obtain ⟨a, g1, g2⟩ := h.dead y hy
    exact ⟨a, by rw [Env.lookup, if_neg (fun (e : y = x) => h2 (e ▸ hy))]; exact g1, g2⟩

end Verif.Letrec

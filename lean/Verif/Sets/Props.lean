import Verif.Sets.Model
import Mathlib.Data.List.Nodup
import Mathlib.Data.List.Infix
/-
Property theorems C48.
-/
namespace Verif.Sets
variable {α : Type} [DecidableEq α]

theorem memq_iff (x : α) (l : List α) : memq x l = true ↔ x ∈ l := by
  induction l with
  | nil => simp [memq]
  | cons y t ih =>
    simp only [memq, List.mem_cons]
    by_cases h : x = y
    · simp [h]
    · simp [h, ih]

/-- Members of the results, for all lists (with or without duplicates). -/
theorem c48_members (x y : α) (a b : List α) :
    (y ∈ adjoinq x a ↔ y = x ∨ y ∈ a) ∧
    (y ∈ unionq a b ↔ y ∈ a ∨ y ∈ b) ∧
    (y ∈ intersectionq a b ↔ y ∈ a ∧ y ∈ b) ∧
    (y ∈ setdiffq a b ↔ y ∈ a ∧ y ∉ b) := by
  refine ⟨?_, ?_, ?_, ?_⟩
  · unfold adjoinq
    by_cases h : memq x a = true
    · rw [if_pos h]; rw [memq_iff] at h
      constructor
      · exact Or.inr
      · rintro (rfl | h') <;> assumption
    · rw [if_neg h]; simp
  · induction a with
    | nil => simp [unionq]
    | cons z t ih =>
      simp only [unionq]
      by_cases h : memq z b = true
      · rw [if_pos h, ih]; rw [memq_iff] at h
        simp only [List.mem_cons]
        constructor
        · tauto
        · rintro ((rfl | h1) | h2) <;> tauto
      · rw [if_neg h]; simp only [List.mem_cons, ih]; tauto
  · induction a with
    | nil => simp [intersectionq]
    | cons z t ih =>
      simp only [intersectionq]
      by_cases h : memq z b = true
      · rw [if_pos h]; simp only [List.mem_cons, ih]; rw [memq_iff] at h
        constructor
        · rintro (rfl | h1) <;> tauto
        · tauto
      · rw [if_neg h, ih]; rw [memq_iff] at h
        simp only [List.mem_cons]
        constructor
        · tauto
        · rintro ⟨rfl | h1, h2⟩ <;> tauto
  · induction a with
    | nil => simp [setdiffq]
    | cons z t ih =>
      simp only [setdiffq]
      by_cases h : memq z b = true
      · rw [if_pos h, ih]; rw [memq_iff] at h
        simp only [List.mem_cons]
        constructor
        · tauto
        · rintro ⟨rfl | h1, h2⟩ <;> tauto
      · rw [if_neg h]; simp only [List.mem_cons, ih]; rw [memq_iff] at h
        constructor
        · rintro (rfl | h1) <;> tauto
        · tauto

/-- Duplicate-free inputs give duplicate-free results. -/
theorem c48_nodup (x : α) (a b : List α) (ha : a.Nodup) :
    (adjoinq x a).Nodup ∧ (b.Nodup → (unionq a b).Nodup) ∧ (intersectionq a b).Nodup ∧ (setdiffq a b).Nodup := by
  refine ⟨?_, ?_, ?_, ?_⟩
  · unfold adjoinq
    by_cases h : memq x a = true
    · rw [if_pos h]; exact ha
    · rw [if_neg h]; rw [memq_iff] at h; exact List.nodup_cons.2 ⟨h, ha⟩
  · intro hb
    induction a with
    | nil => exact hb
    | cons z t ih =>
      rw [List.nodup_cons] at ha
      simp only [unionq]
      by_cases h : memq z b = true
      · rw [if_pos h]; exact ih ha.2
      · rw [if_neg h, List.nodup_cons]; rw [memq_iff] at h
        exact ⟨fun hm => by rcases (c48_members z z t b).2.1.1 hm with h1 | h1; exact ha.1 h1; exact h h1, ih ha.2⟩
  · induction a with
    | nil => simp [intersectionq]
    | cons z t ih =>
      rw [List.nodup_cons] at ha
      simp only [intersectionq]
      by_cases h : memq z b = true
      · rw [if_pos h, List.nodup_cons]
        exact ⟨fun hm => ha.1 ((c48_members z z t b).2.2.1.1 hm).1, ih ha.2⟩
      · rw [if_neg h]; exact ih ha.2
  · induction a with
    | nil => simp [setdiffq]
    | cons z t ih =>
      rw [List.nodup_cons] at ha
      simp only [setdiffq]
      by_cases h : memq z b = true
      · rw [if_pos h]; exact ih ha.2
      · rw [if_neg h, List.nodup_cons]
        exact ⟨fun hm => ha.1 ((c48_members z z t b).2.2.2.1 hm).1, ih ha.2⟩

example : ([1, 2, 3] : List Nat).Nodup ∧ unionq [1, 2, 3] [3, 4] = [1, 2, 3, 4] := by decide

/-- The predicates decide subset and set equality. -/
theorem c48_subset (a b : List α) :
    (subsetq a b = true ↔ ∀ x ∈ a, x ∈ b) ∧ (seteq a b = true ↔ ∀ x, x ∈ a ↔ x ∈ b) := by
  have key : ∀ a b : List α, subsetq a b = true ↔ ∀ x ∈ a, x ∈ b := by
    intro a b
    induction a with
    | nil => simp [subsetq]
    | cons z t ih =>
      simp only [subsetq, List.mem_cons, forall_eq_or_imp]
      by_cases h : memq z b = true
      · rw [if_pos h, ih]; rw [memq_iff] at h; tauto
      · rw [if_neg h]; rw [memq_iff] at h; simp [h]
  refine ⟨key a b, ?_⟩
  unfold seteq
  rw [Bool.and_eq_true, key, key]
  constructor
  · rintro ⟨h1, h2⟩ x; exact ⟨h1 x, h2 x⟩
  · intro h; exact ⟨fun x => (h x).1, fun x => (h x).2⟩

/-- `keep` is the filter, and keeps order. -/
theorem c48_keep (f : α → Bool) (l : List α) : keep f l = l.filter f := by
  induction l with
  | nil => rfl
  | cons x t ih => simp only [keep, List.filter_cons, ih]

/-- `posq` finds the first position. -/
theorem c48_posq (x : α) (l : List α) :
    (∀ i, posq x l = some i ↔ l[i]? = some x ∧ ∀ j < i, l[j]? ≠ some x) ∧ (posq x l = none ↔ x ∉ l) := by
  have key : ∀ (l : List α) (k : Nat),
      (∀ i, posqLoop x l k = some i ↔ k ≤ i ∧ l[i - k]? = some x ∧ ∀ j < i - k, l[j]? ≠ some x) ∧
      (posqLoop x l k = none ↔ x ∉ l) := by
    intro l
    induction l with
    | nil => intro k; simp [posqLoop]
    | cons y t ih =>
      intro k
      simp only [posqLoop]
      by_cases h : y = x
      · rw [if_pos h]
        subst h
        constructor
        · intro i
          constructor
          · intro h; cases h; simp
          · rintro ⟨h1, h2, h3⟩
            by_cases hk : i - k = 0
            · congr 1; omega
            · exact absurd (by simp) (h3 0 (by omega))
        · simp
      · rw [if_neg h]
        constructor
        · intro i
          rw [(ih (k + 1)).1 i]
          constructor
          · rintro ⟨h1, h2, h3⟩
            refine ⟨by omega, ?_, ?_⟩
            · rw [show i - k = (i - (k + 1)) + 1 by omega, List.getElem?_cons_succ]; exact h2
            · intro j hj
              cases j with
              | zero => simpa using h
              | succ j => rw [List.getElem?_cons_succ]; exact h3 j (by omega)
          · rintro ⟨h1, h2, h3⟩
            have hik : i - k ≠ 0 := by
              intro h0; rw [h0] at h2; simp at h2; exact h h2
            refine ⟨by omega, ?_, ?_⟩
            · rw [show i - k = (i - (k + 1)) + 1 by omega, List.getElem?_cons_succ] at h2; exact h2
            · intro j hj
              have := h3 (j + 1) (by omega)
              rwa [List.getElem?_cons_succ] at this
        · rw [(ih (k + 1)).2]
          simp [Ne.symm h]
  refine ⟨fun i => ?_, (key l 0).2⟩
  have := (key l 0).1 i
  simpa [posq] using this

/-- `iota n m` lists exactly the numbers from n to m-1, in order. -/
theorem c48_iota (n m : Nat) : iota n m = List.range' n (m - n) := by
  induction h : m - n generalizing n with
  | zero => rw [iota, if_neg (by omega)]; rfl
  | succ k ih => rw [iota, if_pos (by omega), ih (n + 1) (by omega), List.range'_succ]

/-- `reduce-right` and `reduce-left` are the two folds. -/
theorem c48_reduce {β : Type} (f : α → β → β) (b : β) (l : List α) :
    reduceRight f b l = l.foldr f b ∧ reduceLeft f b l = l.foldl (fun x y => f y x) b := by
  constructor
  · induction l with
    | nil => rfl
    | cons x t ih => simp only [reduceRight, List.foldr_cons, ih]
  · induction l generalizing b with
    | nil => rfl
    | cons x t ih => simp only [reduceLeft, List.foldl_cons, ih]

end Verif.Sets

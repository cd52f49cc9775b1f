import Verif.Lists.Listp
import Verif.Lists.Sort
import Mathlib.Tactic.IntervalCases
/-
C10 (list?), C11 (list library), C41 (stable sort).
-/
namespace Verif.Lists

/-! ### C10 -/

/-- C10: in a finite heap (all pairs at addresses below `h.next`) `list?` terminates on every object and answers
true exactly when following cdr reaches the empty list after finitely many pairs. -/
theorem c10_listp (h : Heap) (o : Obj) (hb : ∀ p q, p < h.next → h.cdr p = .ptr q → q < h.next)
    (ho : ∀ p, o = .ptr p → p < h.next) :
    ∃ (b : Bool) (F : Nat), (∀ fuel ≥ F, islist h fuel o = some b) ∧ (b = true ↔ ∃ ps, Seg h o ps .nil) := by
  by_cases hfin : ∃ n, isPair (pos h o n) = false
  · classical
    let n := Nat.find hfin
    have hn : isPair (pos h o n) = false := Nat.find_spec hfin
    have hp : ∀ j < n, isPair (pos h o j) = true := fun j hj => by simpa using Nat.find_min hfin hj
    refine ⟨decide (pos h o n = .nil), n + 1, ?_, ?_⟩
    · intro fuel hf
      exact islist_finite hp hn (f := fuel) (i := 0) (by omega) (by omega)
    · rw [decide_eq_true_iff]
      constructor
      · intro e
        obtain ⟨ps, h1, _⟩ := seg_pos hp
        exact ⟨ps, e ▸ h1⟩
      · rintro ⟨ps, h1⟩
        obtain ⟨h2, h3⟩ := pos_seg h1
        have : n = ps.length := by
          rcases Nat.lt_trichotomy n ps.length with hl | hl | hl
          · rw [h3 n hl] at hn; simp at hn
          · exact hl
          · have := hp _ hl; rw [h2] at this; simp [isPair] at this
        rw [this, h2]
  · push Not at hfin
    have hp : ∀ j, isPair (pos h o j) = true := fun j => by simpa using hfin j
    have hlt : ∀ j, ∃ p < h.next, pos h o j = .ptr p := by
      intro j
      induction j with
      | zero =>
        have := hp 0
        match e : pos h o 0, this with
        | .ptr p, _ => exact ⟨p, ho p e, rfl⟩
      | succ j ih =>
        obtain ⟨p, hpn, e⟩ := ih
        have := hp (j + 1)
        match e' : pos h o (j + 1), this with
        | .ptr q, _ => exact ⟨q, hb p q hpn ((pos_cdr e).trans e'), rfl⟩
    obtain ⟨a, b, hab, e⟩ := pos_repeats hlt
    have e' : pos h o a = pos h o (a + (b - a)) := by rw [show a + (b - a) = b by omega]; exact e
    have hk : a ≤ (a + 1) * (b - a) - 1 := by
      have : (a + 1) * 1 ≤ (a + 1) * (b - a) := Nat.mul_le_mul_left _ (by omega)
      omega
    have hper := periodic e' hk (a + 1)
    refine ⟨false, (a + 1) * (b - a), ?_, ?_⟩
    · intro fuel hf
      have hpos : 0 < (a + 1) * (b - a) := Nat.mul_pos (by omega) (by omega)
      refine islist_infinite hp (d := (a + 1) * (b - a) - 1) (i := 0) ?_ (by omega)
      rw [Nat.zero_add, ← hper]
      congr 1; omega
    · simp only [Bool.false_eq_true, false_iff, not_exists]
      intro ps hs
      obtain ⟨h2, _⟩ := pos_seg hs
      have := hp ps.length
      rw [h2] at this; simp [isPair] at this

/-- sample heap: 0 → 1 → nil, 2 → 3 → 2 (circular), 4 → imm (improper), 5 → 6 → 7 → 8 → 9 → nil with elements 3 1 2 1 0 -/
def sample : Heap where
  car := fun p => .imm (match p with | 5 => 3 | 6 => 1 | 7 => 2 | 8 => 1 | p => p)
  cdr := fun p => match p with
    | 0 => .ptr 1 | 2 => .ptr 3 | 3 => .ptr 2 | 4 => .imm 7
    | 5 => .ptr 6 | 6 => .ptr 7 | 7 => .ptr 8 | 8 => .ptr 9
    | _ => .nil
  next := 10

/-- the hypotheses of `c10_listp` hold for the sample heap, which has proper, circular and improper structures -/
example : ∀ p q, p < sample.next → sample.cdr p = .ptr q → q < sample.next := by
  intro p q hp
  have hp' : p < 10 := hp
  interval_cases p <;> simp [sample] <;> omega
example : islist sample 9 (.ptr 0) = some true ∧ islist sample 9 (.ptr 2) = some false ∧
    islist sample 9 (.ptr 4) = some false ∧ islist sample 9 (.ptr 5) = some true := by decide

/-! ### C11

Loops over a list of n elements are given fuel for more than n iterations. -/

/-- C11: `length` is the number of elements. -/
theorem c11_length (h : Heap) (l : Obj) (xs : List Obj) (hl : ListOf h l xs) (fuel : Nat) (hf : xs.length < fuel) :
    length h fuel l = some xs.length := by
  obtain ⟨ps, h1, _, rfl⟩ := hl
  rw [List.length_map] at hf
  rw [length, lengthLoop_seg h1 (by omega)]
  simp

theorem listOf_agree {h h' : Heap} {l : Obj} {xs : List Obj} (hl : ListOf h l xs) (e4 : AgreeBelow h.next h h')
    (hn : h.next ≤ h'.next) : ListOf h' l xs := by
  obtain ⟨ps, h1, h2, rfl⟩ := hl
  exact ⟨ps, h1.frame (fun q hq => (e4 q (h2 q hq)).2), fun q hq => by have := h2 q hq; omega,
      List.map_congr_left (fun q hq => (e4 q (h2 q hq)).1)⟩

/-- C11: `reverse` returns a list of the elements in reverse order made of fresh pairs; all old pairs are unchanged
(so the argument is still the same list). -/
theorem c11_reverse (h : Heap) (l : Obj) (xs : List Obj) (hl : ListOf h l xs) (fuel : Nat) (hf : xs.length < fuel) :
    ∃ h' r, reverse h fuel l = some (h', r) ∧ ListOf h' r xs.reverse ∧ AgreeBelow h.next h h' ∧
      ListOf h' l xs ∧ (∀ ps, Seg h' r ps .nil → ∀ p ∈ ps, h.next ≤ p) := by
  have hl' := hl
  obtain ⟨ps, h1, h2, rfl⟩ := hl
  rw [List.length_map] at hf
  obtain ⟨h', r, qs, e1, e2, e3, e4, e5, e6⟩ := reverseLoop_seg (acc := .nil) (f := fuel) h1 h2 hf
  refine ⟨h', r, ?_, ⟨qs, e2, fun q hq => (e6 q hq).2, e3⟩, e4, listOf_agree hl' e4 (by omega), ?_⟩
  · rw [reverse, length, lengthLoop_seg h1 hf]
    exact e1
  · intro qs' hq' p hp
    rw [seg_unique (by rfl) hq' e2] at hp
    exact (e6 p hp).1

/-- C11: `reverse!` returns the same pairs in reverse order with their elements; no pair is allocated and pairs that
do not belong to the list are untouched. -/
theorem c11_reverse_bang (h : Heap) (l : Obj) (ps : List Nat) (hs : Seg h l ps .nil) (fuel : Nat) (hf : ps.length < fuel) :
    ∃ h' r, reverseBang h fuel l = some (h', r) ∧ Seg h' r ps.reverse .nil ∧ h'.car = h.car ∧ h'.next = h.next ∧
      (∀ q, q ∉ ps → h'.cdr q = h.cdr q) := by
  obtain ⟨h', r, e1, e2, e3⟩ := reverseBangLoop_seg (vs := []) (v := .nil) (f := fuel) hs rfl
    (by simpa using seg_nodup (by rfl) hs) hf
  exact ⟨h', r, e1, by simpa using e2, e3⟩

/-- C11: two-argument `append` returns fresh pairs holding the elements of the first list, in order, followed by the
very object `t`; all old pairs are unchanged. -/
theorem c11_append (h : Heap) (l t : Obj) (xs : List Obj) (hl : ListOf h l xs) (fuel : Nat) (hf : xs.length < fuel) :
    ∃ h' r qs, append2 h fuel l t = some (h', r) ∧ Seg h' r qs t ∧ qs.map h'.car = xs ∧
      (∀ q ∈ qs, h.next ≤ q ∧ q < h'.next) ∧ AgreeBelow h.next h h' ∧ ListOf h' l xs := by
  have hl' := hl
  obtain ⟨ps, h1, h2, rfl⟩ := hl
  rw [List.length_map] at hf
  obtain ⟨h', r, qs, e1, e2, e3, e4, e5, e6⟩ := append2_seg (t := t) h1 h2 hf
  exact ⟨h', r, qs, e1, e2, e3, e6, e4, listOf_agree hl' e4 (by omega)⟩

/-- C11: appending two proper lists gives the concatenation. -/
theorem c11_append_list (h : Heap) (l t : Obj) (xs ys : List Obj) (hl : ListOf h l xs) (ht : ListOf h t ys) (fuel : Nat)
    (hf : xs.length < fuel) : ∃ h' r, append2 h fuel l t = some (h', r) ∧ ListOf h' r (xs ++ ys) := by
  obtain ⟨ps, h1, h2, rfl⟩ := hl
  rw [List.length_map] at hf
  obtain ⟨h', r, qs, e1, e2, e3, e4, e5, e6⟩ := append2_seg (t := t) h1 h2 hf
  obtain ⟨ts, g1, g2, g3⟩ := listOf_agree ht e4 (by omega)
  refine ⟨h', r, e1, qs ++ ts, seg_append.2 ⟨t, e2, g1⟩, ?_, by rw [List.map_append, e3, g3]⟩
  intro p hp
  rcases List.mem_append.1 hp with hp | hp
  · exact (e6 p hp).2
  · exact g2 p hp

/-- C11: `list-copy` returns a fresh list with the same elements. -/
theorem c11_list_copy (h : Heap) (l : Obj) (xs : List Obj) (hl : ListOf h l xs) (fuel : Nat) (hf : xs.length < fuel) :
    ∃ h' r, listCopy h fuel l = some (h', r) ∧ ListOf h' r xs ∧ AgreeBelow h.next h h' ∧
      (∀ ps, Seg h' r ps .nil → ∀ p ∈ ps, h.next ≤ p) := by
  obtain ⟨ps, h1, h2, rfl⟩ := hl
  rw [List.length_map] at hf
  obtain ⟨h', r, qs, e1, e2, e3, e4, e5, e6⟩ := append2_seg (t := .nil) h1 h2 hf
  refine ⟨h', r, e1, ⟨qs, e2, fun q hq => (e6 q hq).2, e3⟩, e4, ?_⟩
  intro qs' hq' p hp
  rw [seg_unique (by rfl) hq' e2] at hp
  exact (e6 p hp).1

theorem listTail_seg {h : Heap} {t : Obj} : ∀ {ps : List Nat} {l : Obj} {k : Nat}, Seg h l ps t → k ≤ ps.length →
    ∃ r, listTail h l k = some r ∧ Seg h r (ps.drop k) t := by
  intro ps
  induction ps with
  | nil =>
    intro l k hs hk
    obtain rfl : k = 0 := by simpa using hk
    exact ⟨l, rfl, hs⟩
  | cons p ps ih =>
    intro l k hs hk
    cases k with
    | zero => exact ⟨l, rfl, hs⟩
    | succ k =>
      obtain ⟨rfl, hs⟩ := hs
      obtain ⟨r, e1, e2⟩ := ih hs (k := k) (by simpa using hk)
      exact ⟨r, by simpa [listTail, cdr] using e1, by simpa using e2⟩

/-- C11: `list-tail` returns the tail object itself (the pairs after the first k). -/
theorem c11_list_tail (h : Heap) (l : Obj) (ps : List Nat) (k : Nat) (hs : Seg h l ps .nil) (hk : k ≤ ps.length) :
    ∃ r, listTail h l k = some r ∧ Seg h r (ps.drop k) .nil := listTail_seg hs hk

/-- C11: `list-ref` returns element k. -/
theorem c11_list_ref (h : Heap) (l : Obj) (xs : List Obj) (k : Nat) (hl : ListOf h l xs) (hk : k < xs.length) :
    listRef h l k = some xs[k] := by
  obtain ⟨ps, h1, _, rfl⟩ := hl
  rw [List.length_map] at hk
  obtain ⟨r, e1, e2⟩ := listTail_seg h1 (k := k) (by omega)
  rw [List.drop_eq_getElem_cons hk] at e2
  rw [listRef, e1, e2.1]
  simp [car]

theorem lastPairLoop_seg {h : Heap} {t : Obj} (ht : isPair t = false) : ∀ {ps : List Nat} {l p : Obj} {f : Nat},
    Seg h p ps t → ps.length < f → lastPairLoop h f l p = some (((ps.map Obj.ptr).getLast?).getD l) := by
  intro ps
  induction ps with
  | nil =>
    intro l p f hs hf
    obtain ⟨f, rfl⟩ : ∃ k, f = k + 1 := ⟨f - 1, by simp at hf; omega⟩
    rw [show p = t from hs, lastPairLoop]
    simp [ht]
  | cons q ps ih =>
    intro l p f hs hf
    obtain ⟨f, rfl⟩ : ∃ k, f = k + 1 := ⟨f - 1, by omega⟩
    obtain ⟨rfl, hs⟩ := hs
    have := ih (l := .ptr q) (f := f) hs (by simpa using hf)
    simp only [lastPairLoop, isPair, if_true, cdr, Option.bind_eq_bind, Option.bind_some]
    rw [this]
    cases ps with
    | nil => rfl
    | cons x xs => simp [List.getLast?_cons]

/-- C11: `last-pair` returns the last pair (also of an improper list ending in `t`). -/
theorem c11_last_pair (h : Heap) (l t : Obj) (ps : List Nat) (ht : isPair t = false) (hs : Seg h l ps t) (hne : ps ≠ [])
    (fuel : Nat) (hf : ps.length ≤ fuel) : lastPair h fuel l = some (.ptr (ps.getLast hne)) := by
  cases ps with
  | nil => exact absurd rfl hne
  | cons p ps =>
    obtain ⟨rfl, hs⟩ := hs
    simp only [lastPair, cdr, Option.bind_eq_bind, Option.bind_some]
    rw [lastPairLoop_seg ht hs (by simp at hf; omega), List.getLast?_map]
    cases ps with
    | nil => rfl
    | cons x xs =>
      simp only [List.getLast_cons (l := x :: xs) (by simp)]
      rw [List.getLast?_eq_getLast_of_ne_nil (by simp)]
      rfl

/-- C11: `memq` returns the first tail whose car is `x`, or #f if no element is `x`. -/
theorem c11_memq (h : Heap) (x l : Obj) (xs : List Obj) (hl : ListOf h l xs) (fuel : Nat) (hf : xs.length < fuel) :
    (x ∉ xs ∧ memq h x fuel l = some .ff) ∨
    (∃ k r, listTail h l k = some r ∧ memq h x fuel l = some r ∧ ListOf h r (xs.drop k) ∧ xs[k]? = some x ∧ x ∉ xs.take k) := by
  obtain ⟨ps, h1, h2, rfl⟩ := hl
  rw [List.length_map] at hf
  induction ps generalizing l fuel with
  | nil =>
    obtain ⟨f, rfl⟩ : ∃ k, fuel = k + 1 := ⟨fuel - 1, by simp at hf; omega⟩
    left
    rw [show l = .nil from h1]
    simp [memq]
  | cons p ps ih =>
    obtain ⟨f, rfl⟩ : ∃ k, fuel = k + 1 := ⟨fuel - 1, by omega⟩
    have h1' := h1
    obtain ⟨rfl, h1⟩ := h1
    by_cases hx : h.car p = x
    · right
      refine ⟨0, .ptr p, rfl, by simp [memq, car, hx], ⟨p :: ps, h1', h2, by simp⟩, by simp [hx], by simp⟩
    · have hm : memq h x (f + 1) (.ptr p) = memq h x f (h.cdr p) := by simp [memq, car, cdr, hx]
      rw [hm]
      rcases ih _ f h1 (fun q hq => h2 q (by simp [hq])) (by simpa using hf) with ⟨g1, g2⟩ | ⟨k, r, g1, g2, g3, g4, g5⟩
      · left
        exact ⟨by simp only [List.map_cons, List.mem_cons, not_or]; exact ⟨fun e => hx e.symm, g1⟩, g2⟩
      · right
        refine ⟨k + 1, r, by simpa [listTail, cdr] using g1, g2, by simpa using g3, by simpa using g4, ?_⟩
        simp only [List.map_cons, List.take_succ_cons, List.mem_cons, not_or]
        exact ⟨fun e => hx e.symm, g5⟩

/-- C11: `assq` on a list of pairs returns the first element whose car is `x`, or #f. -/
theorem c11_assq (h : Heap) (x l : Obj) (es : List Nat) (hl : ListOf h l (es.map .ptr)) (fuel : Nat) (hf : es.length < fuel) :
    assq h x fuel l = some (match es.find? (fun e => h.car e = x) with | some e => .ptr e | none => .ff) := by
  obtain ⟨ps, h1, h2, h3⟩ := hl
  induction es generalizing l ps fuel with
  | nil =>
    obtain ⟨f, rfl⟩ : ∃ k, fuel = k + 1 := ⟨fuel - 1, by simp at hf; omega⟩
    obtain rfl : ps = [] := by simpa using h3
    rw [show l = .nil from h1]
    simp [assq]
  | cons e es ih =>
    obtain ⟨f, rfl⟩ : ∃ k, fuel = k + 1 := ⟨fuel - 1, by omega⟩
    cases ps with
    | nil => simp at h3
    | cons p ps =>
      obtain ⟨rfl, h1⟩ := h1
      simp only [List.map_cons, List.cons.injEq] at h3
      by_cases hx : h.car e = x
      · simp [assq, car, h3.1, hx]
      · have := ih _ f (by simpa using hf) ps h1 (fun q hq => h2 q (by simp [hq])) h3.2
        simp [assq, car, cdr, h3.1, hx, this]

/-- the hypotheses of the C11 theorems hold for a list of five elements -/
example : ListOf sample (.ptr 5) [.imm 3, .imm 1, .imm 2, .imm 1, .imm 9] :=
  ⟨[5, 6, 7, 8, 9], ⟨rfl, rfl, rfl, rfl, rfl, rfl⟩, by simp [sample], rfl⟩

/-! ### C41 -/

/-- C41: for every strict weak order `less` (the user's predicate), `sort-by!` rearranges exactly the pairs of its
argument into a list that is sorted, contains the same pairs, and keeps the order of elements that are not
out of order (stability).  Cars and pairs outside the list are untouched. -/
theorem c41_sort (less : Obj → Obj → Bool) (asymm : ∀ a b, less a b = true → less b a = false)
    (negtrans : ∀ a b c, less a b = false → less b c = false → less a c = false)
    (h : Heap) (l : Obj) (ps : List Nat) (hs : Seg h l ps .nil) (f inner : Nat) (hf : ps.length < f) (hi : ps.length < inner) :
    ∃ h' r qs, sortBy less inner f h l = some (h', r) ∧ Seg h' r qs .nil ∧ qs.Perm ps ∧
      qs.Pairwise (fun p q => less (h.car q) (h.car p) = false) ∧
      (∀ p q, [p, q].Sublist ps → less (h.car q) (h.car p) = false → [p, q].Sublist qs) ∧
      h'.car = h.car ∧ h'.next = h.next ∧ (∀ q, q ∉ ps → h'.cdr q = h.cdr q) := by
  obtain ⟨h', r, e1, e2, e3⟩ := sortBy_seg less hs hf hi
  have tr : ∀ a b c : Nat, (!less (h.car b) (h.car a)) = true → (!less (h.car c) (h.car b)) = true →
      (!less (h.car c) (h.car a)) = true := by
    intro a b c h1 h2
    simp only [Bool.not_eq_true'] at *
    exact negtrans _ _ _ h2 h1
  have tot : ∀ a b : Nat, ((!less (h.car b) (h.car a)) || (!less (h.car a) (h.car b))) = true := by
    intro a b
    cases e : less (h.car b) (h.car a)
    · simp
    · simp [asymm _ _ e]
  refine ⟨h', r, _, e1, e2, List.mergeSort_perm _ _, ?_, ?_, e3⟩
  · exact (List.pairwise_mergeSort tr tot ps).imp (by intro a b hab; simpa using hab)
  · intro p q hpq hle
    exact List.pair_sublist_mergeSort tr tot (by simpa using hle) hpq

/-- C41 for the non-destructive version: the argument list keeps its elements. -/
theorem c41_sort_copy (less : Obj → Obj → Bool) (asymm : ∀ a b, less a b = true → less b a = false)
    (negtrans : ∀ a b c, less a b = false → less b c = false → less a c = false)
    (h : Heap) (l : Obj) (xs : List Obj) (hl : ListOf h l xs) (fuel : Nat) (hf : xs.length < fuel) :
    ∃ h' r ys, sortByCopy less fuel h l = some (h', r) ∧ ListOf h' r ys ∧ ys.Perm xs ∧
      ys.Pairwise (fun a b => less b a = false) ∧ ListOf h' l xs := by
  obtain ⟨h1, c, e1, ⟨cs, e2, e3, e4⟩, e5, e6⟩ := c11_list_copy h l xs hl fuel hf
  have hlen : cs.length < fuel := by rw [← e4] at hf; simpa using hf
  obtain ⟨h2, r, qs, g1, g2, g3, g4, g5, g6, g7, g8⟩ := c41_sort less asymm negtrans h1 c cs e2 fuel fuel hlen hlen
  have hnext : h.next ≤ h1.next := by
    obtain ⟨ps, p1, p2, p3⟩ := hl
    obtain ⟨h', r, qs, a1, a2, a3, a4, a5, a6⟩ := append2_seg (t := .nil) p1 p2 (show ps.length < fuel by rw [← p3] at hf; simpa using hf)
    have : some (h1, c) = some (h', r) := e1.symm.trans a1
    simp only [Option.some.injEq, Prod.mk.injEq] at this
    rw [this.1, a5]; omega
  refine ⟨h2, r, qs.map h2.car, ?_, ⟨qs, g2, ?_, rfl⟩, ?_, ?_, ?_⟩
  · simp only [sortByCopy, e1, Option.bind_eq_bind, Option.bind_some]
    exact g1
  · intro p hp
    rw [g7]; exact e3 p (g3.mem_iff.1 hp)
  · rw [g6, ← e4]; exact g3.map _
  · rw [g6, List.pairwise_map]; exact g4
  · obtain ⟨ps, p1, p2, p3⟩ := hl
    refine ⟨ps, p1.frame ?_, fun p hp => by have := p2 p hp; omega, ?_⟩
    · intro p hp
      rw [g8 p (fun hc => by have := e6 cs e2 p hc; have := p2 p hp; omega)]
      exact (e5 p (p2 p hp)).2
    · rw [← p3]
      apply List.map_congr_left
      intro p hp
      rw [g6]; exact (e5 p (p2 p hp)).1

/-- a strict weak order that is not total on objects: compare by `n / 2` -/
def lessHalf : Obj → Obj → Bool
  | .imm a, .imm b => a / 2 < b / 2
  | _, .imm _ => true
  | _, _ => false

/-- the hypotheses of `c41_sort` are met by `lessHalf` ... -/
example : (∀ a b, lessHalf a b = true → lessHalf b a = false) ∧
    (∀ a b c, lessHalf a b = false → lessHalf b c = false → lessHalf a c = false) := by
  constructor
  · intro a b; cases a <;> cases b <;> simp [lessHalf]; omega
  · intro a b c; cases a <;> cases b <;> cases c <;> simp [lessHalf]; omega
/-- ... and a list with equal keys: 3 1 2 1 9 sorts to 1 1 3 2 9 (3 and 2 keep their order) -/
example : (sortBy lessHalf 9 9 sample (.ptr 5)).map (fun r => (r.2, r.1.cdr 6, r.1.cdr 8, r.1.cdr 5, r.1.cdr 7, r.1.cdr 9)) =
    some (.ptr 6, .ptr 8, .ptr 5, .ptr 7, .ptr 9, .nil) := by decide

end Verif.Lists

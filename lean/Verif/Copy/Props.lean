import Verif.Copy.Model
/-
C55: copying within and between sequences.
-/
namespace Verif.Copy
variable {α : Type}

/-- The elements `start ≤ k < stop` of a list. -/
def slice (l : List α) (start stop : Nat) : List α := (l.drop start).take (stop - start)

/-- `to` with its elements from position `at_` on replaced by `xs`. -/
def overwrite (to : List α) (at_ : Nat) (xs : List α) : List α := to.take at_ ++ (xs ++ to.drop (at_ + xs.length))

/-! ### single accesses -/

theorem ref_nat {m : Mem α} {a i : Nat} (h : i < (seq m a).length) : ref m a (i : Int) = some ((seq m a)[i]) := by
  unfold ref
  rw [if_pos (Int.natCast_nonneg _), Int.toNat_natCast, List.getElem?_eq_getElem h]

theorem ref_out {m : Mem α} {a : Nat} {i : Int} (h : i < 0 ∨ len m a ≤ i) : ref m a i = none := by
  unfold ref
  split
  · rename_i h0
    rw [List.getElem?_eq_none]
    unfold len at h; omega
  · rfl

theorem seq_some {m : Mem α} {a : Nat} (h : a < m.length) : m[a]? = some (seq m a) := by
  simp [seq, List.getD, List.getElem?_eq_getElem h]

theorem mem_of_seq {m : Mem α} {a : Nat} (h : 0 < (seq m a).length) : a < m.length := by
  rcases Nat.lt_or_ge a m.length with h' | h'
  · exact h'
  · simp [seq, List.getD, List.getElem?_eq_none h'] at h

theorem seq_set {m : Mem α} {a b : Nat} {l : List α} (h : a < m.length) : seq (m.set a l) b = if b = a then l else seq m b := by
  unfold seq
  rw [List.getD_eq_getElem?_getD, List.getD_eq_getElem?_getD, List.getElem?_set]
  by_cases hb : b = a
  · subst hb; simp [h]
  · rw [if_neg hb, if_neg (Ne.symm hb)]

theorem set_nat {m : Mem α} {a i : Nat} {x : α} (h : i < (seq m a).length) : set m a (i : Int) x = some (m.set a ((seq m a).set i x)) := by
  unfold set len
  rw [if_pos ⟨Int.natCast_nonneg _, by omega⟩, Int.toNat_natCast]

theorem set_out {m : Mem α} {a : Nat} {i : Int} {x : α} (h : i < 0 ∨ len m a ≤ i) : set m a i x = none := by
  unfold set; rw [if_neg]; omega

/-! ### the loops -/

/-- What the loops compute: `k` elements copied, positions above or below already done.  Stated with the elements of the memory before
the copy. -/
theorem copyUp_spec {to frm : Nat} : ∀ (k i j : Nat) (m : Mem α), i ≤ j → i + k ≤ (seq m to).length → j + k ≤ (seq m frm).length →
    copyUp m to frm i j ((j + k : Nat) : Int) = some (m.set to (overwrite (seq m to) i (slice (seq m frm) j (j + k)))) := by
  intro k
  induction k with
  | zero =>
    intro i j m _ h1 _
    rw [copyUp, if_pos (by omega)]
    congr 1
    rcases Nat.lt_or_ge to m.length with h | h
    · refine List.ext_getElem? (fun b => ?_)
      rw [List.getElem?_set]
      by_cases hb : to = b
      · subst hb
        simp [h, overwrite, slice]
        exact (List.getElem?_eq_getElem h).symm.trans (seq_some h) |> Option.some.inj
      · rw [if_neg hb]
    · rw [List.set_eq_of_length_le h]
  | succ k ih =>
    intro i j m hij h1 h2
    have hto : to < m.length := mem_of_seq (by omega)
    rw [copyUp, if_neg (by omega), ref_nat (by omega)]
    simp only [Option.bind_eq_bind, Option.bind_some]
    rw [set_nat (by omega)]
    simp only [Option.bind_some]
    have e1 : ((i : Int) + 1) = ((i + 1 : Nat) : Int) := by omega
    have e2 : ((j : Int) + 1) = ((j + 1 : Nat) : Int) := by omega
    have e3 : ((j + (k + 1) : Nat) : Int) = ((j + 1 + k : Nat) : Int) := by omega
    rw [e1, e2, e3, ih (i + 1) (j + 1) _ (by omega) (by rw [seq_set hto, if_pos rfl, List.length_set]; omega)
      (by rw [seq_set hto]; split <;> first | omega | (rename_i e; subst e; rw [List.length_set]; omega))]
    rw [List.set_set]
    congr 2
    rw [seq_set hto, if_pos rfl, seq_set hto]
    have hfrm : ∀ n, j < n → (if frm = to then (seq m to).set i (seq m frm)[j] else seq m frm)[n]? = (seq m frm)[n]? := by
      intro n hn
      split
      · rename_i e; subst e
        rw [List.getElem?_set, if_neg (by omega)]
      · rfl
    have hsl : slice (if frm = to then (seq m to).set i (seq m frm)[j] else seq m frm) (j + 1) (j + 1 + k) = slice (seq m frm) (j + 1) (j + 1 + k) := by
      refine List.ext_getElem? (fun n => ?_)
      simp only [slice, List.getElem?_take, List.getElem?_drop]
      split
      · exact hfrm _ (by omega)
      · rfl
    rw [hsl]
    have hl : (slice (seq m frm) (j + 1) (j + 1 + k)).length = k := by simp [slice]; omega
    have hl' : (slice (seq m frm) j (j + (k + 1))).length = k + 1 := by simp [slice]; omega
    have hs : slice (seq m frm) j (j + (k + 1)) = (seq m frm)[j] :: slice (seq m frm) (j + 1) (j + 1 + k) := by
      unfold slice
      rw [List.drop_eq_getElem_cons (by omega), show j + (k + 1) - j = k + 1 by omega, show j + 1 + k - (j + 1) = k by omega, List.take_succ_cons]
    rw [hs]
    unfold overwrite
    rw [List.length_cons, hl, List.drop_set_of_lt (by omega), show i + (k + 1) = i + 1 + k by omega]
    rw [List.take_add_one, List.take_set_of_le (Nat.le_refl _), List.getElem?_set_self (by omega)]
    simp

theorem copyDown_spec {to frm : Nat} : ∀ (k i j : Nat) (m : Mem α), j ≤ i → i + k ≤ (seq m to).length → j + k ≤ (seq m frm).length →
    copyDown m to frm ((i : Int) + k - 1) ((j : Int) + k - 1) j = some (m.set to (overwrite (seq m to) i (slice (seq m frm) j (j + k)))) := by
  intro k
  induction k with
  | zero =>
    intro i j m _ h1 _
    rw [copyDown, if_pos (by omega)]
    congr 1
    rcases Nat.lt_or_ge to m.length with h | h
    · refine List.ext_getElem? (fun b => ?_)
      rw [List.getElem?_set]
      by_cases hb : to = b
      · subst hb
        simp [h, overwrite, slice]
        exact (List.getElem?_eq_getElem h).symm.trans (seq_some h) |> Option.some.inj
      · rw [if_neg hb]
    · rw [List.set_eq_of_length_le h]
  | succ k ih =>
    intro i j m hij h1 h2
    have hto : to < m.length := mem_of_seq (by omega)
    have e1 : ((i : Int) + (k + 1 : Nat) - 1) = ((i + k : Nat) : Int) := by omega
    have e2 : ((j : Int) + (k + 1 : Nat) - 1) = ((j + k : Nat) : Int) := by omega
    rw [e1, e2, copyDown, if_neg (by omega), ref_nat (by omega)]
    simp only [Option.bind_eq_bind, Option.bind_some]
    rw [set_nat (by omega)]
    simp only [Option.bind_some]
    have e3 : ((i + k : Nat) : Int) - 1 = (i : Int) + k - 1 := by omega
    have e4 : ((j + k : Nat) : Int) - 1 = (j : Int) + k - 1 := by omega
    rw [e3, e4, ih i j _ hij (by rw [seq_set hto, if_pos rfl, List.length_set]; omega) (by rw [seq_set hto]; split <;> first | omega | (rename_i e; subst e; rw [List.length_set]; omega))]
    rw [List.set_set]
    congr 2
    rw [seq_set hto, if_pos rfl, seq_set hto]
    have hsl : slice (if frm = to then (seq m to).set (i + k) (seq m frm)[j + k] else seq m frm) j (j + k) = slice (seq m frm) j (j + k) := by
      refine List.ext_getElem? (fun n => ?_)
      simp only [slice, List.getElem?_take, List.getElem?_drop]
      split
      · split
        · rename_i e; subst e
          rw [List.getElem?_set, if_neg (by omega)]
        · rfl
      · rfl
    rw [hsl]
    have hl : (slice (seq m frm) j (j + k)).length = k := by simp [slice]; omega
    have hs : slice (seq m frm) j (j + (k + 1)) = slice (seq m frm) j (j + k) ++ [(seq m frm)[j + k]] := by
      unfold slice
      rw [show j + (k + 1) - j = k + 1 by omega, show j + k - j = k by omega, List.take_add_one, List.getElem?_drop, List.getElem?_eq_getElem (by omega)]
      rfl
    rw [hs]
    unfold overwrite
    rw [List.length_append, hl, List.take_set_of_le (by omega)]
    simp only [List.append_assoc, List.length_singleton, List.singleton_append]
    rw [List.drop_eq_getElem_cons (i := i + k) (by rw [List.length_set]; omega), List.getElem_set_self, List.drop_set_of_lt (by omega)]
    rfl

/-! ### C55 -/

/-- **C55** (copying).  Within one object or between two, overlapping or not: if both ranges lie inside of the objects, `string-copy!`, `vector-copy!`
and `bytevector-copy!` replace the elements of the destination by the elements the source had before, and change nothing
else. -/
theorem c55_copy (m : Mem α) (to frm at_ start stop : Nat) (h1 : start ≤ stop) (h2 : stop ≤ (seq m frm).length) (h3 : at_ + (stop - start) ≤ (seq m to).length) :
    subCopy m to at_ frm start stop = some (m.set to (overwrite (seq m to) at_ (slice (seq m frm) start stop))) := by
  obtain ⟨k, rfl⟩ : ∃ k, stop = start + k := ⟨stop - start, by omega⟩
  rw [show start + k - start = k by omega] at h3
  unfold subCopy
  have hlim : min ((start + k : Nat) : Int) ((start : Int) + (len m to - (at_ : Int))) = ((start + k : Nat) : Int) := by
    unfold len; omega
  simp only [hlim]
  split
  · exact copyUp_spec k at_ start m (by omega) h3 h2
  · have e1 : (at_ : Int) + (((start + k : Nat) : Int) - (start : Int) - 1) = (at_ : Int) + k - 1 := by omega
    have e2 : ((start + k : Nat) : Int) - 1 = (start : Int) + k - 1 := by omega
    rw [e1, e2]
    exact copyDown_spec k at_ start m (by omega) h3 h2

/-- If the destination is too short and the copy does not start below the source position, as much is copied as fits. -/
theorem c55_short_partial (m : Mem α) (to frm at_ start stop : Nat) (h1 : start ≤ stop) (h2 : stop ≤ (seq m frm).length) (h3 : at_ ≤ (seq m to).length)
    (h4 : at_ ≤ start) :
    subCopy m to at_ frm start stop =
      some (m.set to (overwrite (seq m to) at_ (slice (seq m frm) start (min stop (start + ((seq m to).length - at_)))))) := by
  obtain ⟨k, hk⟩ : ∃ k, min stop (start + ((seq m to).length - at_)) = start + k := ⟨min stop (start + ((seq m to).length - at_)) - start, by omega⟩
  unfold subCopy
  have hlim : min (stop : Int) ((start : Int) + (len m to - (at_ : Int))) = ((start + k : Nat) : Int) := by
    unfold len; omega
  simp only [hlim]
  rw [if_pos (by omega), hk]
  exact copyUp_spec k at_ start m h4 (by omega) (by omega)

/-- If the destination is too short (by at least one element, but not full), and the copy starts above the source position, the first access is
outside of the destination. -/
theorem c55_short_fails (m : Mem α) (to frm at_ start stop : Nat) (h1 : at_ < (seq m to).length) (h2 : (seq m to).length < at_ + (stop - start)) (h3 : start < at_) :
    subCopy m to at_ frm start stop = none := by
  unfold subCopy
  simp only
  rw [if_neg (by omega), copyDown]
  have hl : len m to = (seq m to).length := rfl
  rw [if_neg (by omega)]
  cases ref m frm (min (stop : Int) ((start : Int) + (len m to - (at_ : Int))) - 1) with
  | none => rfl
  | some x =>
    simp only [Option.bind_eq_bind, Option.bind_some]
    rw [set_out (by right; omega)]
    rfl

/-- The full statement: whatever does not fit in the destination is left out. -/
def C55Full : Prop := ∀ (m : Mem Nat) (to frm at_ start stop : Nat), start ≤ stop → stop ≤ (seq m frm).length → at_ ≤ (seq m to).length →
    subCopy m to at_ frm start stop =
      some (m.set to (overwrite (seq m to) at_ (slice (seq m frm) start (min stop (start + ((seq m to).length - at_))))))

/-- `(vector-copy! (vector 1 2 3) 2 (vector 4 5 6))`: the first write is at position 4 of a vector of length 3. -/
theorem c55_counterexample : ¬ C55Full := by
  intro h
  have := h [[1, 2, 3], [4, 5, 6]] 0 1 2 0 3 (by decide) (by decide) (by decide)
  rw [c55_short_fails _ _ _ _ _ _ (by decide) (by decide) (by decide)] at this
  cases this

/-- overlapping ranges of one vector, both ways; a range of another vector. -/
example : subCopy [[1, 2, 3, 4, 5]] 0 1 0 0 4 = some [[1, 1, 2, 3, 4]] ∧ subCopy [[1, 2, 3, 4, 5]] 0 0 0 1 5 = some [[2, 3, 4, 5, 5]] ∧
    subCopy [[1, 2, 3, 4, 5], [6, 7, 8]] 0 2 1 1 3 = some [[1, 2, 7, 8, 5], [6, 7, 8]] := by
  refine ⟨?_, ?_, ?_⟩
  · exact c55_copy [[1, 2, 3, 4, 5]] 0 0 1 0 4 (by decide) (by decide) (by decide)
  · exact c55_copy [[1, 2, 3, 4, 5]] 0 0 0 1 5 (by decide) (by decide) (by decide)
  · exact c55_copy [[1, 2, 3, 4, 5], [6, 7, 8]] 0 1 2 1 3 (by decide) (by decide) (by decide)

/-! ### filling -/

/-- **C55** (filling).  `string-fill!` and `vector-fill!` with a range. -/
theorem c55_fill (m : Mem α) (a start stop : Nat) (x : α) (h1 : start ≤ stop) (h2 : stop ≤ (seq m a).length) :
    subFill m a x start stop = some (m.set a (overwrite (seq m a) start (List.replicate (stop - start) x))) := by
  obtain ⟨k, rfl⟩ : ∃ k, stop = start + k := ⟨stop - start, by omega⟩
  rw [show start + k - start = k by omega]
  clear h1
  induction k generalizing start m with
  | zero =>
    rw [subFill, if_pos (by omega)]
    congr 1
    rcases Nat.lt_or_ge a m.length with h | h
    · refine List.ext_getElem? (fun b => ?_)
      rw [List.getElem?_set]
      by_cases hb : a = b
      · subst hb
        simp [h, overwrite]
        exact (List.getElem?_eq_getElem h).symm.trans (seq_some h) |> Option.some.inj
      · rw [if_neg hb]
    · rw [List.set_eq_of_length_le h]
  | succ k ih =>
    have hto : a < m.length := mem_of_seq (by omega)
    rw [subFill, if_neg (by omega), set_nat (by omega)]
    simp only [Option.bind_eq_bind, Option.bind_some]
    have e1 : ((start : Int) + 1) = ((start + 1 : Nat) : Int) := by omega
    have e3 : ((start + (k + 1) : Nat) : Int) = ((start + 1 + k : Nat) : Int) := by omega
    rw [e1, e3, ih _ (start + 1) (by rw [seq_set hto, if_pos rfl, List.length_set]; omega), List.set_set]
    congr 2
    rw [seq_set hto, if_pos rfl]
    unfold overwrite
    rw [List.length_replicate, List.length_replicate, List.drop_set_of_lt (by omega), show start + (k + 1) = start + 1 + k by omega]
    rw [List.take_add_one, List.take_set_of_le (Nat.le_refl _), List.getElem?_set_self (by omega), List.replicate_succ]
    simp

example : subFill [[1, 2, 3, 4]] 0 9 1 3 = some [[1, 9, 9, 4]] := c55_fill [[1, 2, 3, 4]] 0 1 3 9 (by decide) (by decide)

/-! ### new objects -/

theorem seq_old {m : Mem α} {l : List α} {a : Nat} (h : a < m.length) : seq (m ++ [l]) a = seq m a := by
  simp [seq, List.getD, List.getElem?_append_left h]

theorem seq_last {m : Mem α} {l : List α} : seq (m ++ [l]) m.length = l := by simp [seq, List.getD]

theorem set_last {m : Mem α} {l l' : List α} : (m ++ [l]).set m.length l' = m ++ [l'] := by simp

/-- **C55** (`vector-copy`, `string-copy`, `bytevector-copy` of a range): a new object with the elements of the range; nothing else changes. -/
theorem c55_subvector (d : α) (m : Mem α) (a start stop : Nat) (ha : a < m.length) (h1 : start ≤ stop) (h2 : stop ≤ (seq m a).length) :
    subvector d m a start stop = some (m ++ [slice (seq m a) start stop], m.length) := by
  unfold subvector make
  rw [if_pos (by omega)]
  simp only [Option.bind_eq_bind, Option.bind_some]
  have hn : ((stop : Int) - (start : Int)).toNat = stop - start := by omega
  rw [hn]
  have := c55_copy (m ++ [List.replicate (stop - start) d]) m.length a 0 start stop h1 (by rw [seq_old ha]; exact h2) (by rw [seq_last]; simp)
  rw [show ((0 : Nat) : Int) = 0 from rfl] at this
  rw [this, seq_last, seq_old ha, set_last]
  have hl : (slice (seq m a) start stop).length = stop - start := by simp [slice]; omega
  simp [overwrite, hl]

theorem sumLength_eq (m : Mem α) : ∀ (vecs : List Nat) (l : Int), sumLength m vecs l = l + ((vecs.map (seq m)).flatten.length : Nat) := by
  intro vecs
  induction vecs with
  | nil => intro l; simp [sumLength]
  | cons v vecs ih =>
    intro l
    rw [sumLength, ih, len, List.map_cons, List.flatten_cons, List.length_append]
    omega

theorem copyInto_spec (m : Mem α) : ∀ (vecs : List Nat) (done : List α) (rest : List α), (∀ v ∈ vecs, v < m.length) →
    rest.length = (vecs.map (seq m)).flatten.length →
    copyInto m.length vecs done.length (m ++ [done ++ rest]) = some (m ++ [done ++ (vecs.map (seq m)).flatten]) := by
  intro vecs
  induction vecs with
  | nil =>
    intro done rest _ h
    have : rest = [] := List.eq_nil_of_length_eq_zero (by simpa using h)
    subst this
    rfl
  | cons v vecs ih =>
    intro done rest hv h
    rw [List.map_cons, List.flatten_cons, List.length_append] at h
    have hv' : v < m.length := hv v (by simp)
    rw [copyInto]
    have hc := c55_copy (m ++ [done ++ rest]) m.length v done.length 0 (seq m v).length (Nat.zero_le _) (by rw [seq_old hv']; exact Nat.le_refl _)
      (by rw [seq_last, List.length_append]; omega)
    rw [show ((0 : Nat) : Int) = 0 from rfl] at hc
    simp only [len, seq_old hv']
    rw [hc, seq_last, seq_old hv', set_last]
    simp only [Option.bind_eq_bind, Option.bind_some]
    have ho : overwrite (done ++ rest) done.length (slice (seq m v) 0 (seq m v).length) = (done ++ seq m v) ++ rest.drop (seq m v).length := by
      have : slice (seq m v) 0 (seq m v).length = seq m v := by simp [slice]
      rw [this]
      unfold overwrite
      rw [List.take_left, List.drop_append, List.drop_eq_nil_of_le (by omega), show done.length + (seq m v).length - done.length = (seq m v).length by omega]
      simp
    rw [ho]
    have := ih (done ++ seq m v) (rest.drop (seq m v).length) (fun x hx => hv x (by simp [hx])) (by rw [List.length_drop]; omega)
    rw [List.length_append] at this
    rw [show ((done.length : Int) + ((seq m v).length : Int)) = ((done.length + (seq m v).length : Nat) : Int) by omega, this]
    simp

/-- **C55** (`vector-append`, `bytevector-append`): a new object with the elements of all arguments, in order; nothing else changes. -/
theorem c55_append (d : α) (m : Mem α) (vecs : List Nat) (h : ∀ v ∈ vecs, v < m.length) :
    append d m vecs = some (m ++ [(vecs.map (seq m)).flatten], m.length) := by
  unfold append make
  rw [sumLength_eq, Int.zero_add, if_pos (Int.natCast_nonneg _)]
  simp only [Option.bind_eq_bind, Option.bind_some, Int.toNat_natCast]
  have := copyInto_spec m vecs [] (List.replicate (vecs.map (seq m)).flatten.length d) h (by simp)
  simp only [List.length_nil, List.nil_append] at this
  rw [show ((0 : Nat) : Int) = 0 from rfl] at this
  rw [this]
  rfl

example : append 0 [[1, 2], [], [3]] [2, 0, 0, 1] = some ([[1, 2], [], [3], [3, 1, 2, 1, 2]], 3) := c55_append 0 [[1, 2], [], [3]] [2, 0, 0, 1] (by decide)

/-! ### conversions -/

theorem toListLoop_spec (m : Mem α) (a start : Nat) : ∀ (k : Nat) (l : List α), start + k ≤ (seq m a).length →
    toListLoop m a start ((start : Int) + k - 1) l = some (slice (seq m a) start (start + k) ++ l) := by
  intro k
  induction k with
  | zero => intro l _; rw [toListLoop, if_pos (by omega)]; simp [slice]
  | succ k ih =>
    intro l h
    have e1 : ((start : Int) + (k + 1 : Nat) - 1) = ((start + k : Nat) : Int) := by omega
    rw [e1, toListLoop, if_neg (by omega), ref_nat (by omega)]
    simp only [Option.bind_eq_bind, Option.bind_some]
    rw [show ((start + k : Nat) : Int) - 1 = (start : Int) + k - 1 by omega, ih _ (by omega)]
    congr 1
    unfold slice
    rw [show start + (k + 1) - start = k + 1 by omega, show start + k - start = k by omega, List.take_add_one, List.getElem?_drop,
      List.getElem?_eq_getElem (by omega)]
    simp

/-- **C55** (`vector->list`, `string->list`, `bytevector->list`): the elements of the range, in order. -/
theorem c55_to_list (m : Mem α) (a start stop : Nat) (h1 : start ≤ stop) (h2 : stop ≤ (seq m a).length) : toList m a start stop = some (slice (seq m a) start stop) := by
  obtain ⟨k, rfl⟩ : ∃ k, stop = start + k := ⟨stop - start, by omega⟩
  have := toListLoop_spec m a start k [] (by omega)
  unfold toList
  rw [show ((start + k : Nat) : Int) - 1 = (start : Int) + k - 1 by omega, this, List.append_nil]

theorem fillFrom_spec : ∀ (l done rest : List α), rest.length = l.length → fillFrom l done.length (done ++ rest) = done ++ l := by
  intro l
  induction l with
  | nil => intro done rest h; rw [fillFrom, List.eq_nil_of_length_eq_zero h]
  | cons x l ih =>
    intro done rest h
    cases rest with
    | nil => simp at h
    | cons y rest =>
      rw [fillFrom, List.set_append_right _ _ (Nat.le_refl _), Nat.sub_self, List.set_cons_zero]
      have := ih (done ++ [x]) rest (by simpa using h)
      simpa using this

/-- **C55** (`list->vector`, `list->string`, `list->bytevector`): a new object with the elements of the list. -/
theorem c55_from_list (d : α) (m : Mem α) (l : List α) : fromList d m l = (m ++ [l], m.length) := by
  have := fillFrom_spec l [] (List.replicate l.length d) (by simp)
  unfold fromList
  simp only [List.length_nil, List.nil_append] at this
  rw [this]

theorem convLoop_spec {β : Type} (f : α → β) (m : Mem α) (a start : Nat) (m' : Mem β) : ∀ (l : Nat) (done rest : List β), rest.length = l →
    start + done.length + l ≤ (seq m a).length →
    convLoop f m a (m' ++ [done ++ rest]) m'.length done.length ((start : Int) + done.length) ((start : Int) + done.length + l) =
      some (m' ++ [done ++ (slice (seq m a) (start + done.length) (start + done.length + l)).map f]) := by
  intro l
  induction l with
  | zero =>
    intro done rest h _
    rw [convLoop, if_pos (by omega), List.eq_nil_of_length_eq_zero h]
    simp [slice]
  | succ l ih =>
    intro done rest h h2
    cases rest with
    | nil => simp at h
    | cons y rest =>
      rw [convLoop, if_neg (by omega), show ((start : Int) + (done.length : Int)) = ((start + done.length : Nat) : Int) by omega, ref_nat (by omega)]
      simp only [Option.bind_eq_bind, Option.bind_some]
      rw [set_nat (by rw [seq_last]; simp), seq_last, set_last]
      simp only [Option.bind_some]
      rw [List.set_append_right _ _ (Nat.le_refl _), Nat.sub_self, List.set_cons_zero]
      have := ih (done ++ [f (seq m a)[start + done.length]]) rest (by simpa using h) (by simp; omega)
      simp only [List.length_append, List.length_singleton, List.append_assoc, List.singleton_append] at this
      rw [show ((done.length : Int) + 1) = ((done.length + 1 : Nat) : Int) by omega,
        show (((start + done.length : Nat) : Int) + 1) = (start : Int) + ((done.length + 1 : Nat) : Int) by omega,
        show (((start + done.length : Nat) : Int) + ((l + 1 : Nat) : Int)) = (start : Int) + ((done.length + 1 : Nat) : Int) + (l : Int) by omega, this]
      congr 3
      unfold slice
      rw [List.drop_eq_getElem_cons (i := start + done.length) (by omega), show start + done.length + (l + 1) - (start + done.length) = l + 1 by omega,
        show start + (done.length + 1) + l - (start + (done.length + 1)) = l by omega, List.take_succ_cons]
      rfl

/-- **C55** (`vector->string`, `string->vector`): a new object with the converted elements of the range. -/
theorem c55_convert {β : Type} (f : α → β) (d : β) (m : Mem α) (a start stop : Nat) (m' : Mem β) (h1 : start ≤ stop) (h2 : stop ≤ (seq m a).length) :
    conv f d m a start stop m' = some (m' ++ [(slice (seq m a) start stop).map f], m'.length) := by
  unfold conv make
  rw [if_pos (by omega)]
  simp only [Option.bind_eq_bind, Option.bind_some, len, seq_last, List.length_replicate]
  have := convLoop_spec f m a start m' (stop - start) [] (List.replicate (stop - start) d) (by simp) (by simp; omega)
  simp only [List.length_nil, List.nil_append, Nat.add_zero] at this
  rw [show ((0 : Nat) : Int) = 0 from rfl, Int.add_zero] at this
  rw [show ((stop : Int) - (start : Int)).toNat = stop - start by omega,
    show min (stop : Int) ((start : Int) + (((stop - start : Nat) : Int) - 0)) = (start : Int) + ((stop - start : Nat) : Int) by omega, this,
    show start + (stop - start) = stop by omega]
  rfl

/-- applying a procedure with a state to the elements of a list, from left to right. -/
def mapM' {σ β : Type} (p : α → σ → Option (β × σ)) : List α → σ → Option (List β × σ)
  | [], s => some ([], s)
  | x :: l, s => (p x s).bind fun r => (mapM' p l r.2).map fun t => (r.1 :: t.1, t.2)

theorem mapLoop_spec {σ β : Type} (p : α → σ → Option (β × σ)) (m : Mem α) (v : Nat) (m' : Mem β) : ∀ (l : Nat) (done rest : List β) (s : σ), rest.length = l →
    done.length + l = (seq m v).length →
    mapLoop p m v (len m v) (m' ++ [done ++ rest]) m'.length done.length s = (mapM' p ((seq m v).drop done.length) s).map fun t => (m' ++ [done ++ t.1], t.2) := by
  intro l
  induction l with
  | zero =>
    intro done rest s h h2
    rw [mapLoop, if_pos (by unfold len; omega), List.eq_nil_of_length_eq_zero h, List.drop_eq_nil_of_le (by omega)]
    rfl
  | succ l ih =>
    intro done rest s h h2
    cases rest with
    | nil => simp at h
    | cons y rest =>
      rw [mapLoop, if_neg (by unfold len; omega), ref_nat (by omega), List.drop_eq_getElem_cons (by omega)]
      simp only [Option.bind_eq_bind, Option.bind_some, mapM']
      cases hp : p (seq m v)[done.length] s with
      | none => rfl
      | some r =>
        obtain ⟨z, s'⟩ := r
        simp only [Option.bind_some]
        rw [set_nat (by rw [seq_last]; simp), seq_last, set_last]
        simp only [Option.bind_some]
        rw [List.set_append_right _ _ (Nat.le_refl _), Nat.sub_self, List.set_cons_zero]
        have := ih (done ++ [z]) rest s' (by simpa using h) (by simp; omega)
        simp only [List.length_append, List.length_singleton, List.append_assoc, List.singleton_append] at this
        rw [show ((done.length : Int) + 1) = ((done.length + 1 : Nat) : Int) by omega, this, Option.map_map]
        rfl

/-- **C55** (`vector-map`, `string-map`): the procedure is applied to the elements from left to right, once each, and the results are
collected in a new object; if it fails, so does the whole. -/
theorem c55_map {σ β : Type} (d : β) (p : α → σ → Option (β × σ)) (m : Mem α) (v : Nat) (m' : Mem β) (s : σ) :
    mapSeq d p m v m' s = (mapM' p (seq m v) s).map fun t => (m' ++ [t.1], m'.length, t.2) := by
  unfold mapSeq make
  rw [if_pos (by unfold len; omega)]
  simp only [Option.bind_eq_bind, Option.bind_some]
  have := mapLoop_spec p m v m' (seq m v).length [] (List.replicate (seq m v).length d) s (by simp) (by simp)
  simp only [List.length_nil, List.nil_append, List.drop_zero] at this
  rw [show ((0 : Nat) : Int) = 0 from rfl] at this
  rw [show (len m v).toNat = (seq m v).length from Int.toNat_natCast _, this]
  cases mapM' p (seq m v) s <;> rfl

example : toList [[1, 2, 3, 4]] 0 1 3 = some [2, 3] ∧ conv Nat.succ 0 [[1, 2, 3, 4]] 0 1 4 [[7]] = some ([[7], [3, 4, 5]], 1) ∧
    mapSeq 0 (fun x s => some (x + s, s + 1)) [[10, 20, 30]] 0 [] 1 = some ([[11, 22, 33]], 0, 4) :=
  ⟨c55_to_list [[1, 2, 3, 4]] 0 1 3 (by decide) (by decide), c55_convert Nat.succ 0 [[1, 2, 3, 4]] 0 1 4 [[7]] (by decide) (by decide), c55_map 0 _ [[10, 20, 30]] 0 [] 1⟩

end Verif.Copy

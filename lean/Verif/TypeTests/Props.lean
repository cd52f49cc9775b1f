import Verif.TypeTests.Model
import Verif.Imm.Props
import Mathlib.Tactic.ByContra
import Mathlib.Tactic.SplitIfs
/-
C78: every object has one type.
-/
namespace Verif.TypeTests
open Verif.Imm (Obj isaptr objFromSize sizeFromObj testsL c02_disjointL c02_pointersL)

/-- All type tests, those of immediate objects first (boolean, fixnum, void, character, null, symbol, end of file). -/
def tests (H : Heap) (T : Tags) : List (Obj → Bool) :=
  testsL ++ [isflonum H T, isstring H T, isbytevector H T, isiport H T, isoport H T, ispair H, isvector H, isbox H, isrecord H, isprocedure H]

/-- A heap after the first allocation: `2 ^ k` bytes at an even address, not around address 0; descriptors are at different, even addresses. -/
structure Sane (H : Heap) (T : Tags) (k : Nat) : Prop where
  size : 4 ≤ k ∧ k < 64
  mask : H.mask = hmask k
  even : isaptr H.base = true
  zero : isobjptr H 0 = false
  ptrs : ∀ t ∈ T.all, isaptr t = true
  nodup : T.all.Nodup

theorem mask_bit0 (k : Nat) : (hmask k).getLsbD 0 = true := by
  simp [hmask]

theorem isaptr_iff (o : Obj) : isaptr o = true ↔ o.getLsbD 0 = false := by
  unfold isaptr
  rw [beq_iff_eq]
  constructor
  · intro h
    have := congrArg (fun x : Obj => x.getLsbD 0) h
    simpa using this
  · intro h
    apply BitVec.eq_of_getLsbD_eq
    intro i hi
    rw [BitVec.getLsbD_and]
    rcases i with _ | i
    · rw [h]; rfl
    · simp [BitVec.getLsbD_one]

theorem bit0_mod (o : Obj) : o.getLsbD 0 = false ↔ o.toNat % 2 = 0 := by
  rw [BitVec.getLsbD, Nat.testBit_zero]
  simp

/-- heap pointers are even. -/
theorem objptr_even {H : Heap} {T : Tags} {k : Nat} (s : Sane H T k) {o : Obj} (h : isobjptr H o = true) : isaptr o = true := by
  unfold isobjptr at h
  rw [beq_iff_eq] at h
  have h0 := congrArg (fun x : Obj => x.getLsbD 0) h
  simp only [BitVec.getLsbD_and, s.mask, mask_bit0, Bool.and_true] at h0
  have h0 : (o - H.base).getLsbD 0 = false := by simpa using h0
  have hb := (bit0_mod _).mp ((isaptr_iff _).mp s.even)
  rw [isaptr_iff, bit0_mod]
  rw [bit0_mod, BitVec.toNat_sub] at h0
  have := H.base.isLt
  omega

theorem objptr_ne {H : Heap} {T : Tags} {k : Nat} (s : Sane H T k) {o : Obj} (h : isobjptr H o = true) : o ≠ 0 := by
  rintro rfl
  rw [s.zero] at h
  cases h

/-- even offsets inside the heap are heap pointers. -/
theorem objptr_in {H : Heap} {T : Tags} {k : Nat} (s : Sane H T k) {d : Nat} (h2 : d % 2 = 0) (hd : d < 2 ^ k) :
    isobjptr H (H.base + BitVec.ofNat 64 d) = true := by
  have hk := s.size.2
  have hkk : 2 ^ k < 2 ^ 64 := Nat.pow_lt_pow_right (by decide) hk
  unfold isobjptr
  have hc : H.base + BitVec.ofNat 64 d - H.base = BitVec.ofNat 64 d := by rw [BitVec.add_comm, BitVec.add_sub_cancel]
  rw [beq_iff_eq, s.mask, hc]
  apply BitVec.eq_of_getLsbD_eq
  intro i hi
  have hx : (BitVec.ofNat 64 d).getLsbD i = d.testBit i := by
    rw [BitVec.getLsbD_ofNat]; simp [hi]
  rw [BitVec.getLsbD_and, hx]
  rcases Nat.lt_or_ge i k with hik | hik
  · rcases i with _ | i
    · have : d.testBit 0 = false := by rw [Nat.testBit_zero]; simp [h2]
      simp [this]
    · have hm : (BitVec.ofNat 64 (2 ^ k) - 1#64) = BitVec.ofNat 64 (2 ^ k - 1) := by
        apply BitVec.eq_of_toNat_eq
        have : 0 < 2 ^ k := Nat.two_pow_pos k
        rw [BitVec.toNat_sub, BitVec.toNat_ofNat, BitVec.toNat_ofNat, BitVec.toNat_ofNat, Nat.mod_eq_of_lt hkk]
        omega
      have : (hmask k).getLsbD (i + 1) = false := by
        unfold hmask
        have h3 : (BitVec.ofNat 64 (2 ^ k - 1)).getLsbD (i + 1) = true := by
          rw [BitVec.getLsbD_ofNat, Nat.testBit_two_pow_sub_one]; simp [hi, hik]
        rw [hm, BitVec.getLsbD_or, BitVec.getLsbD_not, h3]
        simp [BitVec.getLsbD_one]
      simp [this]
  · have : d.testBit i = false := Nat.testBit_lt_two_pow (Nat.lt_of_lt_of_le hd (Nat.pow_le_pow_right (by decide) hik))
    simp [this]

/-- tags are odd. -/
theorem tag_odd (n : BitVec 32) : isaptr (objFromSize n) = false := by
  rw [← Bool.not_eq_true, isaptr_iff]
  simp [objFromSize]

theorem tag12 : objFromSize 1 ≠ objFromSize 2 ∧ objFromSize 1 ≠ objFromSize 3 ∧ objFromSize 2 ≠ objFromSize 3 := by decide

/-- The type of an object that is not immediate. -/
def cls (H : Heap) (T : Tags) (o : Obj) : Nat :=
  if isobjptr H o then
    if isaptr (hdr H o) then
      if hdr H o = T.flonum then 7 else if hdr H o = T.string then 8 else if hdr H o = T.bytevector then 9
      else if hdr H o ∈ [T.iclosed, T.ifile, T.istring, T.ibytevector] then 10 else 11
    else if H.mem o = objFromSize 3 then 12 else if H.mem o = objFromSize 1 then 13 else if H.mem o = objFromSize 2 then 14
    else if isobjptr H (H.mem o) then 15 else 16
  else 16

theorem sized_odd {h : Obj} (hs : sized h = true) : isaptr h = false := by
  simp only [sized, Bool.and_eq_true, Bool.not_eq_true'] at hs
  exact hs.1

/-- the tests of objects that are not immediate hold of one class of pointers. -/
theorem test_ptr {H : Heap} {T : Tags} {k : Nat} (s : Sane H T k) (o : Obj) (j : Nat) (t : Obj → Bool) (hj : (tests H T)[j + 7]? = some t) (ht : t o = true) :
    isaptr o = true ∧ o ≠ 0 ∧ cls H T o = j + 7 := by
  have hl : testsL.length = 7 := rfl
  have nd := s.nodup
  have ptr : ∀ t ∈ T.all, isaptr t = true := s.ptrs
  simp only [Tags.all, List.nodup_cons, List.mem_cons, List.not_mem_nil, or_false, not_or] at nd ptr
  obtain ⟨⟨f1, f2, f3, f4, f5, f6, f7, f8, f9, f10⟩, ⟨g2, g3, g4, g5, g6, g7, g8, g9, g10⟩, ⟨b3, b4, b5, b6, b7, b8, b9, b10⟩, ⟨c4, c5, c6, c7, c8, c9, c10⟩,
    ⟨d5, d6, d7, d8, d9, d10⟩, ⟨e6, e7, e8, e9, e10⟩, ⟨i7, i8, i9, i10⟩, _⟩ := nd
  rw [tests, List.getElem?_append_right (by omega), hl, Nat.add_sub_cancel] at hj
  have heap : isobjptr H o = true → isaptr o = true ∧ o ≠ 0 := fun h => ⟨objptr_even s h, objptr_ne s h⟩
  have odd1 : ∀ n, H.mem o = objFromSize n → isobjptr H (H.mem o) = false := by
    intro n hn
    by_contra hc
    have := objptr_even s (by simpa using hc)
    rw [hn, tag_odd] at this
    cases this
  match j, hj with
  | 0, hj =>
    simp at hj; subst hj
    simp only [isflonum, isnative, Bool.and_eq_true, beq_iff_eq] at ht
    refine ⟨(heap ht.1).1, (heap ht.1).2, ?_⟩
    simp [cls, ht.1, ht.2, ptr]
  | 1, hj =>
    simp at hj; subst hj
    simp only [isstring, isnative, Bool.and_eq_true, beq_iff_eq] at ht
    refine ⟨(heap ht.1).1, (heap ht.1).2, ?_⟩
    simp [cls, ht.1, ht.2, ptr, Ne.symm f1]
  | 2, hj =>
    simp at hj; subst hj
    simp only [isbytevector, isnative, Bool.and_eq_true, beq_iff_eq] at ht
    refine ⟨(heap ht.1).1, (heap ht.1).2, ?_⟩
    simp [cls, ht.1, ht.2, ptr, Ne.symm f2, Ne.symm g2]
  | 3, hj =>
    simp at hj; subst hj
    simp only [isiport, Bool.and_eq_true, Bool.or_eq_true, beq_iff_eq] at ht
    refine ⟨(heap ht.1).1, (heap ht.1).2, ?_⟩
    rcases ht.2 with h | h | h | h <;>
      simp [cls, ht.1, h, ptr, Ne.symm f3, Ne.symm g3, Ne.symm b3, Ne.symm f4, Ne.symm g4, Ne.symm b4, Ne.symm f5, Ne.symm g5, Ne.symm b5, Ne.symm f6, Ne.symm g6, Ne.symm b6]
  | 4, hj =>
    simp at hj; subst hj
    simp only [isoport, Bool.and_eq_true, Bool.or_eq_true, beq_iff_eq] at ht
    refine ⟨(heap ht.1).1, (heap ht.1).2, ?_⟩
    rcases ht.2 with h | h | h | h <;>
      simp [cls, ht.1, h, ptr, Ne.symm f7, Ne.symm g7, Ne.symm b7, Ne.symm c7, Ne.symm d7, Ne.symm e7, Ne.symm i7, Ne.symm f8, Ne.symm g8, Ne.symm b8, Ne.symm c8, Ne.symm d8, Ne.symm e8, Ne.symm i8,
        Ne.symm f9, Ne.symm g9, Ne.symm b9, Ne.symm c9, Ne.symm d9, Ne.symm e9, Ne.symm i9, Ne.symm f10, Ne.symm g10, Ne.symm b10, Ne.symm c10, Ne.symm d10, Ne.symm e10, Ne.symm i10]
  | 5, hj =>
    simp at hj; subst hj
    simp only [ispair, istagged, Bool.and_eq_true, beq_iff_eq] at ht
    refine ⟨(heap ht.1).1, (heap ht.1).2, ?_⟩
    simp only [cls, ht.1, sized_odd ht.2.1, ht.2.2, if_true, Bool.false_eq_true, if_false]
  | 6, hj =>
    simp at hj; subst hj
    simp only [isvector, istagged, Bool.and_eq_true, beq_iff_eq] at ht
    refine ⟨(heap ht.1).1, (heap ht.1).2, ?_⟩
    simp only [cls, ht.1, sized_odd ht.2.1, ht.2.2, if_true, Bool.false_eq_true, if_false, tag12.2.1]
  | 7, hj =>
    simp at hj; subst hj
    simp only [isbox, istagged, Bool.and_eq_true, beq_iff_eq] at ht
    refine ⟨(heap ht.1).1, (heap ht.1).2, ?_⟩
    simp only [cls, ht.1, sized_odd ht.2.1, ht.2.2, if_true, Bool.false_eq_true, if_false, tag12.2.2, Ne.symm tag12.1]
  | 8, hj =>
    simp at hj; subst hj
    simp only [isrecord, istyped, Bool.and_eq_true] at ht
    refine ⟨(heap ht.1).1, (heap ht.1).2, ?_⟩
    have hn : ∀ n, H.mem o ≠ objFromSize n := fun n hn => by
      have := odd1 n hn; rw [ht.2.2] at this; cases this
    simp only [cls, ht.1, sized_odd ht.2.1, ht.2.2, if_true, Bool.false_eq_true, if_false, hn]
  | 9, hj =>
    simp at hj; subst hj
    unfold isprocedure at ht
    split_ifs at ht with h0 h1 h2
    · simp only [Bool.and_eq_true, Bool.not_eq_true'] at h1
      refine ⟨h1.1, h0, ?_⟩
      simp [cls, h1.2]
    · have ho : isobjptr H o = true := by simpa using h2
      simp only [iscode, Bool.and_eq_true, Bool.not_eq_true'] at ht
      refine ⟨(heap ho).1, h0, ?_⟩
      have hn : ∀ n, H.mem o ≠ objFromSize n := fun n hn => by
        have := ht.2.1; rw [hn, tag_odd] at this; cases this
      simp only [cls, ho, sized_odd ht.1, ht.2.2.2, if_true, Bool.false_eq_true, if_false, hn]
  | j + 10, hj => simp at hj

/-- **C78** (partial).  Whatever is in memory, at most one type test holds of a word.  Missing: the time before the first allocation (`c78_counterexample`). -/
theorem c78_disjoint_partial {H : Heap} {T : Tags} {k : Nat} (s : Sane H T k) (o : Obj) (i j : Nat) (t u : Obj → Bool) (hi : (tests H T)[i]? = some t)
    (hj : (tests H T)[j]? = some u) (ht : t o = true) (hu : u o = true) : i = j := by
  have imm : ∀ i t, (tests H T)[i]? = some t → i < 7 → testsL[i]? = some t := by
    intro i t h hi
    rwa [tests, List.getElem?_append_left (by exact hi)] at h
  have no : ∀ (i : Nat) (t : Obj → Bool), testsL[i]? = some t → t o = true → isaptr o = true → o ≠ 0 → False := by
    intro i t h ht hp hz
    have := c02_pointersL o hp hz t (List.mem_of_getElem? h)
    rw [ht] at this
    cases this
  rcases Nat.lt_or_ge i 7 with h1 | h1 <;> rcases Nat.lt_or_ge j 7 with h2 | h2
  · exact c02_disjointL o i j t u (imm i t hi h1) (imm j u hj h2) ht hu
  · obtain ⟨j, rfl⟩ := Nat.exists_eq_add_of_le' h2
    obtain ⟨hp, hz, _⟩ := test_ptr s o j u hj hu
    exact (no i t (imm i t hi h1) ht hp hz).elim
  · obtain ⟨i, rfl⟩ := Nat.exists_eq_add_of_le' h1
    obtain ⟨hp, hz, _⟩ := test_ptr s o i t hi ht
    exact (no j u (imm j u hj h2) hu hp hz).elim
  · obtain ⟨i, rfl⟩ := Nat.exists_eq_add_of_le' h1
    obtain ⟨j, rfl⟩ := Nat.exists_eq_add_of_le' h2
    rw [← (test_ptr s o i t hi ht).2.2, ← (test_ptr s o j u hj hu).2.2]

/-! ### What is constructed has its type -/

/-- `hp` is `j` words above the start of the heap. -/
def At (H : Heap) (k : Nat) (hp : Obj) (j : Nat) : Prop := hp = H.base + BitVec.ofNat 64 (8 * j) ∧ 8 * j ≤ 2 ^ k

theorem at_sub {H : Heap} {hp : Obj} {j : Nat} (h : hp = H.base + BitVec.ofNat 64 (8 * (j + 1))) : hp - 8 = H.base + BitVec.ofNat 64 (8 * j) := by
  rw [h, show 8 * (j + 1) = 8 * j + 8 from rfl, BitVec.ofNat_add, ← BitVec.add_assoc]
  exact BitVec.add_sub_cancel _ _

theorem at_inj {H : Heap} {i j k : Nat} (hk : k < 64) (hi : 8 * i ≤ 2 ^ k) (hj : 8 * j ≤ 2 ^ k)
    (h : H.base + BitVec.ofNat 64 (8 * i) = H.base + BitVec.ofNat 64 (8 * j)) : i = j := by
  have hkk : 2 ^ k < 2 ^ 64 := Nat.pow_lt_pow_right (by decide) hk
  have h := congrArg (fun x => x - H.base) h
  simp only [BitVec.add_comm H.base, BitVec.add_sub_cancel] at h
  have h := congrArg BitVec.toNat h
  rw [BitVec.toNat_ofNat, BitVec.toNat_ofNat, Nat.mod_eq_of_lt (by omega), Nat.mod_eq_of_lt (by omega)] at h
  omega

/-- words that are stored below `hp` leave the others alone; `hp` goes down. -/
theorem pushes_at {H : Heap} {k : Nat} (hk : k < 64) (ws : List Obj) : ∀ (m : Obj → Obj) (hp : Obj) (j : Nat), At H k hp j → ws.length ≤ j →
    At H k (pushes m hp ws).2 (j - ws.length) ∧
      ∀ i, j ≤ i → 8 * i ≤ 2 ^ k → (pushes m hp ws).1 (H.base + BitVec.ofNat 64 (8 * i)) = m (H.base + BitVec.ofNat 64 (8 * i)) := by
  induction ws with
  | nil => intro m hp j h _; exact ⟨h, fun _ _ _ => rfl⟩
  | cons w ws ih =>
    intro m hp j h hl
    simp only [List.length_cons] at hl
    obtain ⟨j, rfl⟩ : ∃ j', j = j' + 1 := ⟨j - 1, by omega⟩
    have h8 := at_sub h.1
    have hb := h.2
    obtain ⟨a, b⟩ := ih (upd m (hp - 8) w) (hp - 8) j ⟨h8, by omega⟩ (by omega)
    refine ⟨?_, fun i hi hik => ?_⟩
    · rw [List.length_cons, show j + 1 - (ws.length + 1) = j - ws.length by omega]; exact a
    · show (pushes (upd m (hp - 8) w) (hp - 8) ws).1 _ = _
      rw [b i (by omega) hik, upd, if_neg]
      rw [h8]
      intro he
      have := at_inj hk hik (by omega) he
      omega

theorem pushes_append (m : Obj → Obj) (hp : Obj) (xs ys : List Obj) : pushes m hp (xs ++ ys) = pushes (pushes m hp xs).1 (pushes m hp xs).2 ys := by
  induction xs generalizing m hp with
  | nil => rfl
  | cons x xs ih => exact ih _ _

/-- the last two words stored: header and first word of the object. -/
theorem last_two (H : Heap) (hp : Obj) (rest : List Obj) (first h : Obj) :
    let r := pushes H.mem hp (rest ++ [first, h])
    r.1 (r.2 + 8 - 8) = h ∧ r.1 (r.2 + 8) = first := by
  intro r
  have hr : r = pushes H.mem hp (rest ++ [first, h]) := rfl
  rw [pushes_append] at hr
  generalize (pushes H.mem hp rest).1 = m at hr
  generalize (pushes H.mem hp rest).2 = p at hr
  rw [hr]
  simp only [pushes]
  have e1 : p - 8 - 8 + 8 = p - 8 := BitVec.sub_add_cancel _ _
  have e2 : p - 8 ≠ p - 8 - 8 := by
    intro he
    generalize p - 8 = q at he
    have := congrArg BitVec.toNat he
    rw [BitVec.toNat_sub] at this
    have := q.isLt
    have h8 : (8 : Obj).toNat = 8 := rfl
    omega
  rw [e1]
  refine ⟨?_, ?_⟩
  · simp [upd]
  · rw [upd, if_neg e2, upd, if_pos rfl]

/-- a block: its header and first word, and that it is in the heap. -/
theorem block_at {H : Heap} {T : Tags} {k : Nat} (s : Sane H T k) {hp : Obj} {j : Nat} (ha : At H k hp j) (rest : List Obj) (first h : Obj)
    (hl : rest.length + 2 ≤ j) (o : Obj) (m : Obj → Obj) (ho : o = (pushes H.mem hp (rest ++ [first, h])).2 + 8) (hm : m = (pushes H.mem hp (rest ++ [first, h])).1) :
    isobjptr { H with mem := m } o = true ∧ hdr { H with mem := m } o = h ∧ m o = first := by
  obtain ⟨h1, h2⟩ := last_two H hp rest first h
  refine ⟨?_, ?_, ?_⟩
  · have := (pushes_at s.size.2 (rest ++ [first, h]) H.mem hp j ha (by simpa using hl)).1.1
    rw [ho, this, show (8 : Obj) = BitVec.ofNat 64 8 from rfl, BitVec.add_assoc, ← BitVec.ofNat_add]
    refine objptr_in (H := { H with mem := m }) (T := T) (k := k) ⟨s.size, s.mask, s.even, s.zero, s.ptrs, s.nodup⟩ (by omega) ?_
    have := ha.2
    simp only [List.length_append, List.length_cons, List.length_nil]
    omega
  · rw [hdr, ho, hm]; exact h1
  · rw [ho, hm]; exact h2

/-- sizes from 1 pass the test of headers. -/
theorem sized_ok (n : Nat) (h1 : 1 ≤ n) (h2 : n < 2 ^ 31) : sized (objFromSize (BitVec.ofNat 32 n)) = true := by
  have hs : sizeFromObj (objFromSize (BitVec.ofNat 32 n)) = BitVec.ofNat 32 n := (Verif.Imm.c02_header _).1
  have hi : (BitVec.ofNat 32 n).toInt = n := by
    rw [BitVec.toInt_eq_toNat_of_lt] <;> rw [BitVec.toNat_ofNat, Nat.mod_eq_of_lt (by omega)]
    omega
  rw [sized, tag_odd, hs, hi]
  simp only [Bool.not_false, Bool.true_and, decide_eq_true_eq]
  omega

/-- The test number `n` holds of `o`, and no other. -/
def Only (H : Heap) (T : Tags) (n : Nat) (o : Obj) : Prop := ∀ i t, (tests H T)[i]? = some t → (t o = true ↔ i = n)

theorem only_of {H : Heap} {T : Tags} {k : Nat} (s : Sane H T k) {n : Nat} {o : Obj} {t : Obj → Bool} (hn : (tests H T)[n]? = some t) (ht : t o = true) :
    Only H T n o := by
  intro i u hi
  constructor
  · intro hu; exact c78_disjoint_partial s o i n u t hi hn hu ht
  · rintro rfl; rw [hn] at hi; cases hi; exact ht

theorem sane_mem {H : Heap} {T : Tags} {k : Nat} (s : Sane H T k) (m : Obj → Obj) : Sane { H with mem := m } T k :=
  ⟨s.size, s.mask, s.even, s.zero, s.ptrs, s.nodup⟩

/-- **C78**.  What `cons` returns is a pair and nothing else. -/
theorem c78_cons {H : Heap} {T : Tags} {k : Nat} (s : Sane H T k) {hp : Obj} {j : Nat} (ha : At H k hp j) (hl : 4 ≤ j) (a d : Obj) :
    Only (cons H hp a d).1 T 12 (cons H hp a d).2 := by
  refine only_of (sane_mem s _) rfl ?_
  obtain ⟨h1, h2, h3⟩ := block_at s ha [d, a] (objFromSize 3) (objFromSize 3) (by simpa using hl) _ _ rfl rfl
  simp only [ispair, istagged, Bool.and_eq_true, beq_iff_eq]
  exact ⟨h1, (congrArg sized h2).trans (sized_ok 3 (by decide) (by decide)), h3⟩

/-- **C78**.  What `vector` and `make-vector` return is a vector and nothing else. -/
theorem c78_vector {H : Heap} {T : Tags} {k : Nat} (s : Sane H T k) {hp : Obj} {j : Nat} (ha : At H k hp j) (xs : List Obj) (hl : xs.length + 2 ≤ j)
    (hx : xs.length + 1 < 2 ^ 31) : Only (vector H hp xs).1 T 13 (vector H hp xs).2 := by
  refine only_of (sane_mem s _) rfl ?_
  obtain ⟨h1, h2, h3⟩ := block_at s ha xs.reverse (objFromSize 1) (objFromSize (BitVec.ofNat 32 (xs.length + 1))) (by simpa using hl) _ _ rfl rfl
  simp only [isvector, istagged, Bool.and_eq_true, beq_iff_eq]
  exact ⟨h1, (congrArg sized h2).trans (sized_ok _ (by omega) hx), h3⟩

/-- **C78**.  What `box` returns is a box and nothing else. -/
theorem c78_box {H : Heap} {T : Tags} {k : Nat} (s : Sane H T k) {hp : Obj} {j : Nat} (ha : At H k hp j) (hl : 3 ≤ j) (a : Obj) :
    Only (box H hp a).1 T 14 (box H hp a).2 := by
  refine only_of (sane_mem s _) rfl ?_
  obtain ⟨h1, h2, h3⟩ := block_at s ha [a] (objFromSize 2) (objFromSize 2) (by simpa using hl) _ _ rfl rfl
  simp only [isbox, istagged, Bool.and_eq_true, beq_iff_eq]
  exact ⟨h1, (congrArg sized h2).trans (sized_ok 2 (by decide) (by decide)), h3⟩

/-- **C78**.  What `make-record` returns is a record and nothing else. -/
theorem c78_record {H : Heap} {T : Tags} {k : Nat} (s : Sane H T k) {hp : Obj} {j : Nat} (ha : At H k hp j) (c : Nat) (rtd : Obj) (hl : c + 2 ≤ j)
    (hx : c + 1 < 2 ^ 31) (hr : isobjptr H rtd = true) : Only (makeRecord H hp c rtd).1 T 15 (makeRecord H hp c rtd).2 := by
  refine only_of (sane_mem s _) rfl ?_
  obtain ⟨h1, h2, h3⟩ := block_at s ha (List.replicate c 0) rtd (objFromSize (BitVec.ofNat 32 (c + 1))) (by simpa using hl) _ _ rfl rfl
  simp only [isrecord, istyped, Bool.and_eq_true]
  exact ⟨h1, (congrArg sized h2).trans (sized_ok _ (by omega) hx), (congrArg (isobjptr H) h3).trans hr⟩

theorem proc_of {H : Heap} {o : Obj} (h0 : o ≠ 0) (h1 : isobjptr H o = true) (h2 : sized (hdr H o) = true) (h3 : iscode H (H.mem o) = true) : isprocedure H o = true := by
  rw [isprocedure, if_neg h0, h1, h2, h3]
  simp

/-- **C78**.  Closures are procedures and nothing else; the entry point is a pointer to static data. -/
theorem c78_closure {H : Heap} {T : Tags} {k : Nat} (s : Sane H T k) {hp : Obj} {j : Nat} (ha : At H k hp j) (fvs : List Obj) (code : Obj)
    (hl : fvs.length + 2 ≤ j) (hx : fvs.length + 1 < 2 ^ 31) (hc : isaptr code = true) (hz : code ≠ 0) (hn : isobjptr H code = false) :
    Only (closure H hp fvs code).1 T 16 (closure H hp fvs code).2 := by
  have s' : Sane (closure H hp fvs code).1 T k := sane_mem s _
  refine only_of s' rfl ?_
  obtain ⟨h1, h2, h3⟩ := block_at s ha fvs.reverse code (objFromSize (BitVec.ofNat 32 (fvs.length + 1))) (by simpa using hl) _ _ rfl rfl
  have h1' : isobjptr (closure H hp fvs code).1 (closure H hp fvs code).2 = true := h1
  have h2' : hdr (closure H hp fvs code).1 (closure H hp fvs code).2 = _ := h2
  have h3' : (closure H hp fvs code).1.mem (closure H hp fvs code).2 = code := h3
  have hn' : isobjptr (closure H hp fvs code).1 code = false := hn
  have h0 : (closure H hp fvs code).2 ≠ 0 := objptr_ne s' h1'
  refine proc_of h0 h1' (h2' ▸ sized_ok _ (Nat.le_add_left 1 fvs.length) hx) ?_
  rw [h3', iscode, hc, hn']
  simpa using hz

/-- **C78**.  Procedures without free variables, which are outside of the heap, are procedures and nothing else. -/
theorem c78_static {H : Heap} {T : Tags} {k : Nat} (s : Sane H T k) (o : Obj) (hp : isaptr o = true) (hz : o ≠ 0) (hn : isobjptr H o = false) : Only H T 16 o := by
  refine only_of s rfl ?_
  show isprocedure H o = true
  rw [isprocedure, if_neg hz, hp, hn]
  rfl

/-- **C78**.  Native objects are of the type of their descriptor and of no other. -/
theorem c78_native {H : Heap} {T : Tags} {k : Nat} (s : Sane H T k) {hp : Obj} {j : Nat} (ha : At H k hp j) (hl : 2 ≤ j) (p t : Obj) :
    (t = T.flonum → Only (pushptr H hp p t).1 T 7 (pushptr H hp p t).2) ∧ (t = T.string → Only (pushptr H hp p t).1 T 8 (pushptr H hp p t).2) ∧
      (t = T.bytevector → Only (pushptr H hp p t).1 T 9 (pushptr H hp p t).2) ∧
      (t = T.iclosed ∨ t = T.ifile ∨ t = T.istring ∨ t = T.ibytevector → Only (pushptr H hp p t).1 T 10 (pushptr H hp p t).2) ∧
      (t = T.oclosed ∨ t = T.ofile ∨ t = T.ostring ∨ t = T.obytevector → Only (pushptr H hp p t).1 T 11 (pushptr H hp p t).2) := by
  have s' : Sane (pushptr H hp p t).1 T k := sane_mem s _
  obtain ⟨h1, h2, _⟩ := block_at s ha [] p t (by simpa using hl) _ _ rfl rfl
  have h1' : isobjptr (pushptr H hp p t).1 (pushptr H hp p t).2 = true := h1
  have h2' : hdr (pushptr H hp p t).1 (pushptr H hp p t).2 = t := h2
  refine ⟨fun h => only_of s' rfl ?_, fun h => only_of s' rfl ?_, fun h => only_of s' rfl ?_, fun h => only_of s' rfl ?_, fun h => only_of s' rfl ?_⟩
  all_goals
    generalize (pushptr H hp p t).1 = H' at *
    generalize (pushptr H hp p t).2 = o at *
  · show isnative H' o T.flonum = true
    rw [isnative, h1', h2', h]; simp
  · show isnative H' o T.string = true
    rw [isnative, h1', h2', h]; simp
  · show isnative H' o T.bytevector = true
    rw [isnative, h1', h2', h]; simp
  · show isiport H' T o = true
    rw [isiport, h1', h2']
    rcases h with h | h | h | h <;> simp [h]
  · show isoport H' T o = true
    rw [isoport, h1', h2']
    rcases h with h | h | h | h <;> simp [h]

/-- **C78**.  Allocation does not change the type of the objects there are: words stored below `hp` leave headers and contents above it alone. -/
theorem c78_keep {H : Heap} {T : Tags} {k : Nat} (s : Sane H T k) {hp : Obj} {j : Nat} (ha : At H k hp j) (ws : List Obj) (hl : ws.length ≤ j) (i : Nat)
    (hi : j ≤ i) (hik : 8 * (i + 1) ≤ 2 ^ k) (n : Nat) (h : Only H T n (H.base + BitVec.ofNat 64 (8 * (i + 1)))) :
    Only { H with mem := (pushes H.mem hp ws).1 } T n (H.base + BitVec.ofNat 64 (8 * (i + 1))) := by
  obtain ⟨_, b⟩ := pushes_at s.size.2 ws H.mem hp j ha hl
  have e1 := b (i + 1) (by omega) hik
  have e2 := b i hi (by omega)
  have e3 : H.base + BitVec.ofNat 64 (8 * (i + 1)) - 8 = H.base + BitVec.ofNat 64 (8 * i) := at_sub rfl
  generalize hO : H.base + BitVec.ofNat 64 (8 * (i + 1)) = o at *
  rw [← e3] at e2
  have key : ∀ i : Nat, ((tests { H with mem := (pushes H.mem hp ws).1 } T)[i]?).map (fun t : Obj → Bool => t o) = ((tests H T)[i]?).map (fun t : Obj → Bool => t o) := by
    intro i
    have : (tests { H with mem := (pushes H.mem hp ws).1 } T).map (fun t : Obj → Bool => t o) = (tests H T).map (fun t : Obj → Bool => t o) := by
      have hh : hdr { H with mem := (pushes H.mem hp ws).1 } o = hdr H o := e2
      have hp' : ∀ x, isobjptr { H with mem := (pushes H.mem hp ws).1 } x = isobjptr H x := fun _ => rfl
      simp only [tests, List.map_append, List.map_cons, List.map_nil, isflonum, isstring, isbytevector, isiport, isoport, ispair, isvector, isbox, isrecord,
        isprocedure, isnative, istagged, istyped, iscode, hp', hh, e1]
    rw [← List.getElem?_map, ← List.getElem?_map, this]
  intro i' t ht
  have k1 := key i'
  rw [ht] at k1
  cases hu : (tests H T)[i']? with
  | none => rw [hu] at k1; simp at k1
  | some u =>
    rw [hu] at k1
    simp only [Option.map_some, Option.some.injEq] at k1
    rw [k1]
    exact h i' u hu

/-- Type tests are disjoint in every state of a program. -/
def C78Full : Prop := ∀ (H : Heap) (T : Tags) (k : Nat), (Sane H T k ∨ ∃ m, H = start m) → ∀ (o : Obj) (i j : Nat) (t u : Obj → Bool),
  (tests H T)[i]? = some t → (tests H T)[j]? = some u → t o = true → u o = true → i = j

/-- **C78** (refuted).  Before the first allocation the mask is 0, every word counts as a heap pointer, and the tests look at the memory around it: the fixnum 5 may
pass for a pair. -/
theorem c78_counterexample : ¬ C78Full := by
  intro h
  have := h (start (fun _ => objFromSize 3)) ⟨0, 0, 0, 0, 0, 0, 0, 0, 0, 0, 0⟩ 4 (.inr ⟨_, rfl⟩) (Verif.Imm.mkim0 5) 1 12 _ _ rfl rfl (by decide) (by decide)
  omega

/-- A small heap with room for a pair. -/
example : ∃ H T, Sane H T 6 ∧ At H 6 (H.base + BitVec.ofNat 64 (8 * 8)) 8 := by
  refine ⟨⟨4096#64, hmask 6, fun _ => 0⟩, ⟨2, 4, 6, 8, 10, 12, 14, 16, 18, 20, 22⟩, ?_, rfl, ?_⟩
  · refine ⟨⟨by decide, by decide⟩, rfl, by decide, by decide, ?_, ?_⟩
    · intro t ht
      simp only [Tags.all, List.mem_cons, List.not_mem_nil, or_false] at ht
      rcases ht with rfl | rfl | rfl | rfl | rfl | rfl | rfl | rfl | rfl | rfl | rfl <;> decide
    · simp [Tags.all]
  · decide

end Verif.TypeTests

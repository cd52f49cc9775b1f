import Verif.ByteVec.Model
import Verif.StrMem.Props
import Verif.Imm.Props
/-
Property C80: bytevectors of LibL.
-/
namespace Verif.ByteVec
open Verif.Imm Verif.StrMem

/-- A number that is a byte. -/
def IsByte (x : Int) : Prop := 0 ≤ x ∧ x ≤ 255

instance (x : Int) : Decidable (IsByte x) := inferInstanceAs (Decidable (0 ≤ x ∧ x ≤ 255))

/-- `byte?` holds exactly of the numbers 0 to 255, and no bytevector primitive has undefined behaviour. -/
def C80Full : Prop :=
  (∀ o, isByteObj o = true ↔ ∃ n : Int, IsByte n ∧ o = mkim0 (BitVec.ofInt 64 n)) ∧
  (∀ k : Int, makeBytevector1 k ≠ .error .ub)

theorem bind_ok {α β : Type} (a : α) (f : α → Except Fault β) : (Except.ok a >>= f) = f a := rfl
theorem bind_error {α β : Type} (e : Fault) (f : α → Except Fault β) : (Except.error e >>= f) = .error e := rfl
theorem ck_true {b : Bool} (h : b = true) : ck b = .ok () := if_pos h
theorem ck_false {b : Bool} (h : b = false) : ck b = .error .assert := if_neg (by simp [h])
theorem mem_some {α : Type} (a : α) : mem (some a) = .ok a := rfl

theorem byte_ok {n : Int} (h : IsByte n) : byteFromFixnum n = .ok n.toNat := by
  unfold byteFromFixnum
  rw [ck_true (by simpa [IsByte] using h), bind_ok]

theorem byte_bad {n : Int} (h : ¬ IsByte n) : byteFromFixnum n = .error .assert := by
  unfold byteFromFixnum
  rw [ck_false (by simpa [IsByte] using h), bind_error]

theorem malloc_ok (n : Nat) : mallocbvdata n = .ok ⟨n, malloc n⟩ := by
  unfold mallocbvdata
  rw [if_pos (by omega)]; rfl

/-! ### Constructors -/

/-- `(make-bytevector k c)`: `k` copies of the byte `c`; an assertion fails if `c` is no byte or `k` is negative. -/
theorem c80_make (k c : Int) :
    (0 ≤ k → IsByte c → ∃ d, makeBytevector2 k c = .ok d ∧ HoldsBytes d (List.replicate k.toNat c.toNat)) ∧
    (¬ (0 ≤ k ∧ IsByte c) → makeBytevector2 k c = .error .assert) ∧
    (∀ l, residualMakeBytevector k (c :: l) = makeBytevector2 k c) ∧ residualMakeBytevector k [] = makeBytevector1 k := by
  refine ⟨fun hk hc => ?_, fun h => ?_, fun _ => rfl, rfl⟩
  · obtain ⟨n, rfl⟩ := Int.eq_ofNat_of_zero_le hk
    have hm := memset_mid c.toNat n [] (malloc n) [] (length_malloc n)
    simp only [List.nil_append, List.append_nil, List.length_nil] at hm
    have h2 : c.toNat % 256 = c.toNat := Nat.mod_eq_of_lt (by unfold IsByte at hc; omega)
    refine ⟨⟨n, List.replicate n (some c.toNat)⟩, ?_, by simp, by simp, ?_⟩
    · unfold makeBytevector2 makebytevector
      rw [byte_ok hc, bind_ok, ck_true (by simpa using hk), bind_ok, malloc_ok, bind_ok]
      simp only [hm, mem_some, bind_ok, h2]
    · intro b hb
      rw [List.mem_replicate] at hb
      unfold IsByte at hc; omega
  · unfold makeBytevector2
    by_cases hc : IsByte c
    · rw [byte_ok hc, bind_ok]
      unfold makebytevector
      rw [ck_false (by simpa using fun hk => h ⟨hk, hc⟩), bind_error]
    · rw [byte_bad hc, bind_error]

example : (0 : Int) ≤ 3 ∧ IsByte 255 := by decide

theorem putBytes_mid : ∀ (xs : List Int) (a m : Mem), m.length = xs.length → (∀ x ∈ xs, IsByte x) →
    putBytes (a ++ m) a.length xs = .ok (a ++ xs.map fun x => some x.toNat) := by
  intro xs
  induction xs with
  | nil => intro a m h _; rw [List.length_eq_zero_iff.mp h]; rfl
  | cons x xs ih =>
    intro a m h hb
    cases m with
    | nil => simp at h
    | cons y m =>
      have hx := hb x List.mem_cons_self
      have h2 : x.toNat % 256 = x.toNat := Nat.mod_eq_of_lt (by unfold IsByte at hx; omega)
      have h1 := ih (a ++ [some x.toNat]) m (by simpa using h) (fun z hz => hb z (List.mem_cons_of_mem _ hz))
      simp only [List.append_assoc, List.cons_append, List.nil_append, List.length_append, List.length_singleton] at h1
      unfold putBytes
      rw [byte_ok hx, bind_ok, store_mid, mem_some, bind_ok, h2, h1]
      rfl

theorem putBytes_bad : ∀ (xs : List Int) (a m : Mem), m.length = xs.length → (∃ x ∈ xs, ¬ IsByte x) →
    putBytes (a ++ m) a.length xs = .error .assert := by
  intro xs
  induction xs with
  | nil => rintro a m _ ⟨x, hx, _⟩; cases hx
  | cons x xs ih =>
    intro a m h hb
    cases m with
    | nil => simp at h
    | cons y m =>
      unfold putBytes
      by_cases hx : IsByte x
      · have h1 := ih (a ++ [some (x.toNat % 256)]) m (by simpa using h) (by
          obtain ⟨z, hz, hn⟩ := hb
          rcases List.mem_cons.1 hz with rfl | hz
          · exact absurd hx hn
          · exact ⟨z, hz, hn⟩)
        simp only [List.append_assoc, List.cons_append, List.nil_append, List.length_append, List.length_singleton] at h1
        rw [byte_ok hx, bind_ok, store_mid, mem_some, bind_ok, h1]
      · rw [byte_bad hx, bind_error]

/-- `(bytevector b ...)` holds its operands; an assertion fails if one of them is no byte. -/
theorem c80_bytevector (xs : List Int) :
    ((∀ x ∈ xs, IsByte x) → ∃ d, bytevector xs = .ok d ∧ HoldsBytes d (xs.map Int.toNat)) ∧
    ((∃ x ∈ xs, ¬ IsByte x) → bytevector xs = .error .assert) := by
  constructor
  · intro h
    have hp := putBytes_mid xs [] (malloc xs.length) (length_malloc _) h
    simp only [List.nil_append, List.length_nil] at hp
    refine ⟨⟨xs.length, xs.map fun x => some x.toNat⟩, ?_, by simp, by simp, ?_⟩
    · unfold bytevector allocbytevector
      rw [malloc_ok, bind_ok]
      simp only [hp, bind_ok]
    · intro c hc
      obtain ⟨x, hx, rfl⟩ := List.mem_map.1 hc
      have := h x hx
      unfold IsByte at this; omega
  · intro h
    have hp := putBytes_bad xs [] (malloc xs.length) (length_malloc _) h
    simp only [List.nil_append, List.length_nil] at hp
    unfold bytevector allocbytevector
    rw [malloc_ok, bind_ok]
    simp only [hp, bind_error]

example : ∀ x ∈ [(0 : Int), 255, 7], IsByte x := by decide
example : ∃ x ∈ [(0 : Int), 256], ¬ IsByte x := by decide

/-- The boxed fixnum `n`. -/
def fix (n : Int) : Obj := mkim0 (BitVec.ofInt 64 n)

theorem fix_val (n : Int) (h : -536870912 ≤ n ∧ n < 536870912) : (getim0s (fix n)).toInt = n := by
  have hi : (BitVec.ofInt 64 n).toInt = n := by
    rw [BitVec.toInt_ofInt]
    apply Int.bmod_eq_of_le <;> omega
  unfold fix
  rw [c01_fixnum30_exact _ (by omega), hi]

theorem byteObj_fix (n : Int) (h : -536870912 ≤ n ∧ n < 536870912) : byteFromObj (fix n) = byteFromFixnum n := by
  unfold byteFromObj
  rw [ck_true (show isim0 (fix n) = true from c01_fixnum30_tag _), bind_ok, fix_val n h]

theorem listLoop_put : ∀ (xs : List Int) (m : Mem) (i : Nat), (∀ x ∈ xs, -536870912 ≤ x ∧ x < 536870912) →
    listLoop m i xs.length (xs.map fix) = putBytes m i xs := by
  intro xs
  induction xs with
  | nil => intro m i _; rfl
  | cons x xs ih =>
    intro m i h
    simp only [List.length_cons, List.map_cons, listLoop, putBytes, byteObj_fix x (h x List.mem_cons_self)]
    congr 1; funext b
    congr 1; funext m'
    exact ih m' (i + 1) fun z hz => h z (List.mem_cons_of_mem _ hz)

/-- `list->bytevector`, and `bytevector` used as a procedure, do the same as `bytevector` in operator position on lists of fixnums; an element that is no fixnum
fails an assertion. -/
theorem c80_list (xs : List Int) (h : ∀ x ∈ xs, -536870912 ≤ x ∧ x < 536870912) :
    listToBytevector (xs.map fix) = bytevector xs ∧
    ∀ (o : Obj) (l : List Obj), isFixnumL o = false → (∀ x ∈ xs, IsByte x) → listToBytevector (xs.map fix ++ o :: l) = .error .assert := by
  constructor
  · unfold listToBytevector bytevector
    simp only [List.length_map]
    congr 1; funext d
    rw [listLoop_put xs d.mem 0 h]
  · intro o l ho hb
    have key : ∀ (ys : List Int) (a m : Mem), (∀ x ∈ ys, IsByte x) → m.length = ys.length + 1 + l.length →
        listLoop (a ++ m) a.length (ys.length + 1 + l.length) (ys.map fix ++ o :: l) = .error .assert := by
      intro ys
      induction ys with
      | nil =>
        intro a m _ _
        rw [show ([] : List Int).length + 1 + l.length = l.length + 1 by simp; omega]
        simp only [List.map_nil, List.nil_append, listLoop, byteFromObj]
        rw [ck_false (show isim0 o = false from ho), bind_error, bind_error]
      | cons y ys ih =>
        intro a m hy hm
        cases m with
        | nil => simp only [List.length_nil, List.length_cons] at hm; omega
        | cons z m =>
          have hy1 := hy y List.mem_cons_self
          have h1 := ih (a ++ [some (y.toNat % 256)]) m (fun z hz => hy z (List.mem_cons_of_mem _ hz)) (by simp only [List.length_cons] at hm; omega)
          simp only [List.append_assoc, List.cons_append, List.nil_append, List.length_append, List.length_singleton] at h1
          rw [show (y :: ys).length + 1 + l.length = (ys.length + 1 + l.length) + 1 by simp only [List.length_cons]; omega]
          simp only [List.map_cons, List.cons_append, listLoop]
          rw [byteObj_fix y (by unfold IsByte at hy1; omega), byte_ok hy1, bind_ok, store_mid, mem_some, bind_ok, h1]
    have hl : (xs.map fix ++ o :: l).length = xs.length + 1 + l.length := by
      simp only [List.length_append, List.length_map, List.length_cons]; omega
    have hk := key xs [] (malloc (xs.length + 1 + l.length)) hb (length_malloc _)
    simp only [List.nil_append, List.length_nil] at hk
    unfold listToBytevector allocbytevector
    rw [hl, malloc_ok, bind_ok]
    simp only [hk, bind_error]

example : ∀ x ∈ [(0 : Int), 255, 7], -536870912 ≤ x ∧ x < 536870912 := by decide

/-! ### Access -/

/-- `bytevector-u8-ref` gives the byte at the index; outside of the bytevector an assertion fails. -/
theorem c80_ref (d : Data) (s : List Nat) (h : HoldsBytes d s) (k : Int) :
    (∀ i : Nat, k = i → ∀ hi : i < s.length, u8Ref d k = .ok s[i]) ∧ ((k < 0 ∨ (s.length : Int) ≤ k) → u8Ref d k = .error .assert) := by
  have hl := h.1
  constructor
  · rintro i rfl hi
    unfold u8Ref bytevectorref
    rw [ck_true (by simp; omega), bind_ok, bind_ok]
    have := load_bytes h i hi
    rw [show (i : Int).toNat = i from rfl, this, List.getElem?_eq_getElem hi, mem_some]
  · intro hk
    unfold u8Ref bytevectorref
    rw [ck_false (by simp; omega), bind_error, bind_error]

/-- `bytevector-u8-set!` changes the byte at the index and nothing else; outside of the bytevector, and if the value is no byte, an assertion fails. -/
theorem c80_set (d : Data) (s : List Nat) (h : HoldsBytes d s) (k b : Int) :
    (0 ≤ k → k < s.length → IsByte b → ∃ d', u8Set d k b = .ok d' ∧ HoldsBytes d' (s.set k.toNat b.toNat)) ∧
    (¬ (0 ≤ k ∧ k < s.length ∧ IsByte b) → u8Set d k b = .error .assert) := by
  obtain ⟨hl, hm, hs⟩ := h
  constructor
  · intro h0 h1 hb
    have h2 : b.toNat % 256 = b.toNat := Nat.mod_eq_of_lt (by unfold IsByte at hb; omega)
    refine ⟨⟨d.len, (s.set k.toNat b.toNat).map some⟩, ?_, by simpa using hl, rfl, ?_⟩
    · unfold u8Set bytevectorref
      rw [ck_true (by simp; omega), bind_ok, bind_ok, byte_ok hb, bind_ok]
      unfold store
      rw [if_pos (by rw [hm, List.length_map]; omega), mem_some, bind_ok, h2, hm, List.map_set]
    · intro c hc
      rcases List.mem_or_eq_of_mem_set hc with hc | rfl
      · exact hs c hc
      · unfold IsByte at hb; omega
  · intro hn
    unfold u8Set bytevectorref
    by_cases hk : 0 ≤ k ∧ k < d.len
    · have hb : ¬ IsByte b := fun hb => hn ⟨hk.1, by omega, hb⟩
      rw [ck_true (by simpa using hk), bind_ok, bind_ok, byte_bad hb, bind_error]
    · rw [ck_false (by simpa using hk), bind_error, bind_error]

example : HoldsBytes ⟨3, [some 1, some 255, some 0]⟩ [1, 255, 0] := by unfold HoldsBytes; decide

/-- What was written last at index `i`. -/
def lastAt (i : Nat) : List (Int × Int) → Option Nat
  | [] => none
  | w :: ws => (lastAt i ws).or (if w.1 = i then some w.2.toNat else none)

theorem u8Set_mem {d d' : Data} {k b : Int} (h : u8Set d k b = .ok d') :
    0 ≤ k ∧ k < d.len ∧ IsByte b ∧ k.toNat < d.mem.length ∧ d' = ⟨d.len, d.mem.set k.toNat (some b.toNat)⟩ := by
  unfold u8Set bytevectorref at h
  by_cases hk : 0 ≤ k ∧ k < d.len
  · rw [ck_true (by simpa using hk), bind_ok, bind_ok] at h
    by_cases hb : IsByte b
    · rw [byte_ok hb, bind_ok] at h
      unfold store at h
      split at h
      · next hlt =>
        rw [mem_some, bind_ok] at h
        have h2 : b.toNat % 256 = b.toNat := Nat.mod_eq_of_lt (by unfold IsByte at hb; omega)
        rw [h2] at h
        exact ⟨hk.1, hk.2, hb, hlt, (Except.ok.inj h).symm⟩
      · cases h
    · rw [byte_bad hb, bind_error] at h; cases h
  · rw [ck_false (by simpa using hk), bind_error, bind_error] at h; cases h

theorem u8Sets_ref : ∀ (ws : List (Int × Int)) (d d' : Data), u8Sets d ws = .ok d' → d.mem.length = d.len →
    d'.len = d.len ∧ d'.mem.length = d.len ∧ ∀ i, i < d.len → load d'.mem i = (lastAt i ws).or (load d.mem i) := by
  intro ws
  induction ws with
  | nil =>
    intro d d' h hl
    obtain rfl := Except.ok.inj h
    exact ⟨rfl, hl, fun i _ => by simp [lastAt]⟩
  | cons w ws ih =>
    intro d d' h hl
    unfold u8Sets at h
    cases h1 : u8Set d w.1 w.2 with
    | error e => rw [h1, bind_error] at h; cases h
    | ok d1 =>
      rw [h1, bind_ok] at h
      obtain ⟨hk0, hk1, hb, hlt, rfl⟩ := u8Set_mem h1
      obtain ⟨e1, e2, e3⟩ := ih _ _ h (by simpa using hl)
      refine ⟨e1, e2, fun i hi => ?_⟩
      rw [e3 i hi]
      rw [show lastAt i (w :: ws) = (lastAt i ws).or (if w.1 = i then some w.2.toNat else none) from rfl]
      generalize lastAt i ws = L
      by_cases hw : w.1 = (i : Int)
      · have hwi : w.1.toNat = i := by omega
        have : load (d.mem.set w.1.toNat (some w.2.toNat)) i = some w.2.toNat := by
          unfold load
          rw [hwi, List.getElem?_set_self (by omega)]; rfl
        rw [this, if_pos hw]
        cases L <;> rfl
      · have hwi : w.1.toNat ≠ i := by omega
        have : load (d.mem.set w.1.toNat (some w.2.toNat)) i = load d.mem i := by
          unfold load
          rw [List.getElem?_set_ne hwi]
        rw [this, if_neg hw]
        cases L <;> rfl

/-- A bytevector made without a byte to fill it: after any run of `bytevector-u8-set!` a reference gives the byte written last at its index; only
an index that was never written is undefined. -/
theorem c80_writes (k : Int) (hk : 0 ≤ k) (ws : List (Int × Int)) :
    ∃ d, makeBytevector1 k = .ok d ∧ ((d.len : Int) = k) ∧
      ((∀ w ∈ ws, 0 ≤ w.1 ∧ w.1 < k ∧ IsByte w.2) → ∃ d', u8Sets d ws = .ok d') ∧
      ∀ d', u8Sets d ws = .ok d' → ∀ i : Nat, (i : Int) < k → u8Ref d' i = mem (lastAt i ws) := by
  obtain ⟨n, rfl⟩ := Int.eq_ofNat_of_zero_le hk
  refine ⟨⟨n, malloc n⟩, malloc_ok n, rfl, ?_, ?_⟩
  · have key : ∀ (vs : List (Int × Int)) (d : Data), d.len = n → d.mem.length = n → (∀ w ∈ vs, 0 ≤ w.1 ∧ w.1 < (n : Int) ∧ IsByte w.2) →
        ∃ d', u8Sets d vs = .ok d' := by
      intro vs
      induction vs with
      | nil => intro d _ _ _; exact ⟨d, rfl⟩
      | cons w vs ih =>
        intro d hl hm hv
        obtain ⟨h0, h1, hb⟩ := hv w List.mem_cons_self
        have hset : u8Set d w.1 w.2 = .ok ⟨d.len, d.mem.set w.1.toNat (some (w.2.toNat % 256))⟩ := by
          unfold u8Set bytevectorref
          rw [ck_true (by simp; omega), bind_ok, bind_ok, byte_ok hb, bind_ok]
          unfold store
          rw [if_pos (by omega), mem_some, bind_ok]
        unfold u8Sets
        rw [hset, bind_ok]
        exact ih _ hl (by simpa using hm) fun z hz => hv z (List.mem_cons_of_mem _ hz)
    exact key ws _ rfl (length_malloc n)
  · intro d' hd i hi
    obtain ⟨e1, e2, e3⟩ := u8Sets_ref ws _ _ hd (length_malloc n)
    simp only at e1 e2 e3
    have h1 : load (malloc n) i = none := by
      unfold load malloc
      rw [List.getElem?_replicate]
      split <;> rfl
    unfold u8Ref bytevectorref
    rw [ck_true (by simp; omega), bind_ok, bind_ok, show (i : Int).toNat = i from rfl, e3 i (by omega), h1]
    simp

example : ∀ w ∈ [((0 : Int), (5 : Int)), (1, 255), (0, 7)], 0 ≤ w.1 ∧ w.1 < 2 ∧ IsByte w.2 := by decide
example : lastAt 0 [(0, 5), (1, 255), (0, 7)] = some 7 := by decide

/-! ### Comparison and copies -/

theorem memcmp_spec : ∀ (s t : List Nat) (a b : Mem), s.length = t.length → a.length = b.length →
    memcmpEq (a ++ s.map some) (b ++ t.map some) a.length s.length = some (decide (s = t)) := by
  intro s
  induction s with
  | nil => intro t a b h _; cases t with
    | nil => rfl
    | cons _ _ => simp at h
  | cons x s ih =>
    intro t a b h hab
    cases t with
    | nil => simp at h
    | cons y t =>
      have h1 : load (a ++ (x :: s).map some) a.length = some x := by simp [load]
      have h2 : load (b ++ (y :: t).map some) a.length = some y := by rw [hab]; simp [load]
      have h3 := ih t (a ++ [some x]) (b ++ [some y]) (by simpa using h) (by simpa using hab)
      simp only [List.append_assoc, List.cons_append, List.nil_append, List.length_append, List.length_singleton] at h3
      simp only [List.length_cons, memcmpEq, h1, h2, Option.bind_eq_bind, Option.bind_some]
      simp only [List.map_cons, h3]
      by_cases hxy : x = y
      · simp [hxy]
      · simp [hxy]

/-- `bytevector=?` is equality of the contents. -/
theorem c80_equal (d0 d1 : Data) (s0 s1 : List Nat) (h0 : HoldsBytes d0 s0) (h1 : HoldsBytes d1 s1) :
    bytevectoreq d0 d1 = .ok (decide (s0 = s1)) := by
  obtain ⟨l0, m0, _⟩ := h0
  obtain ⟨l1, m1, _⟩ := h1
  unfold bytevectoreq
  by_cases hl : s0.length = s1.length
  · rw [if_neg (by omega), m0, m1, l0]
    have := memcmp_spec s0 s1 [] [] hl rfl
    simp only [List.nil_append, List.length_nil] at this
    rw [this]; rfl
  · rw [if_pos (by omega)]
    have : s0 ≠ s1 := fun e => hl (by rw [e])
    simp [this]

/-- `bytevector-copy` gives a new bytevector with the bytes from `frm` up to `stop`; bounds out of order or out of range fail an assertion.  The copy made
for `open-input-bytevector` holds the same bytes. -/
theorem c80_copy (d : Data) (s : List Nat) (h : HoldsBytes d s) (frm stop : Int) :
    (0 ≤ frm → frm ≤ stop → stop ≤ s.length → ∃ d', bytevectorCopy3 d frm stop = .ok d' ∧ HoldsBytes d' ((s.drop frm.toNat).take (stop - frm).toNat)) ∧
    (¬ (0 ≤ frm ∧ frm ≤ stop ∧ stop ≤ s.length) → bytevectorCopy3 d frm stop = .error .assert) ∧
    (0 ≤ frm → frm ≤ s.length → ∃ d', bytevectorCopy2 d frm = .ok d' ∧ HoldsBytes d' (s.drop frm.toNat)) ∧
    (∃ d', bytevectorCopy1 d = .ok d' ∧ HoldsBytes d' s) ∧
    (∃ d', dupbytevector d = .ok d' ∧ HoldsBytes d' s) := by
  obtain ⟨hl, hm, hs⟩ := h
  have sub : ∀ f t : Int, 0 ≤ f → f ≤ t → t ≤ s.length → ∃ d', subbytevector d f t = .ok d' ∧ HoldsBytes d' ((s.drop f.toNat).take (t - f).toNat) := by
    intro f t h0 h1 h2
    obtain ⟨i, rfl⟩ := Int.eq_ofNat_of_zero_le h0
    obtain ⟨n, hn⟩ := Int.eq_ofNat_of_zero_le (show 0 ≤ t - i by omega)
    have hlen : ((s.drop i).take n).length = n := by
      rw [List.length_take, List.length_drop]; omega
    refine ⟨⟨n, ((s.drop i).take n).map some⟩, ?_, ?_, ?_, ?_⟩
    · unfold subbytevector
      rw [ck_true (by simp; omega), bind_ok, hn, malloc_ok, bind_ok]
      have e := memcpy_mid (((s.drop i).take n).map some) [] (malloc n) [] ((s.take i).map some) ((s.drop (i + n)).map some)
        (by rw [length_malloc, List.length_map, hlen])
      have hsplit : (s.take i).map some ++ ((s.drop i).take n).map some ++ (s.drop (i + n)).map some = s.map some := by
        rw [← List.map_append, ← List.map_append, List.append_assoc, ← List.drop_drop, List.take_append_drop, List.take_append_drop]
      have hi : ((s.take i).map some).length = i := by
        rw [List.length_map, List.length_take]; omega
      rw [hsplit, hi, List.length_map, hlen] at e
      simp only [List.nil_append, List.append_nil, List.length_nil] at e
      simp only [hm, Int.ofNat_eq_natCast, Int.toNat_natCast, e, mem_some, bind_ok]
    · simp only [hn]; exact hlen.symm
    · simp only [hn]; rfl
    · intro c hc
      exact hs c (List.mem_of_mem_drop (List.mem_of_mem_take hc))
  refine ⟨fun h0 h1 h2 => sub frm stop h0 h1 h2, fun hn => ?_, fun h0 h1 => ?_, ?_, ?_⟩
  · unfold bytevectorCopy3 subbytevector
    rw [ck_false, bind_error]
    rw [hl]
    cases hb : (decide (0 ≤ frm) && decide (frm ≤ stop) && decide (stop ≤ (s.length : Int))) with
    | false => rfl
    | true =>
      simp only [Bool.and_eq_true, decide_eq_true_eq] at hb
      exact absurd ⟨hb.1.1, hb.1.2, hb.2⟩ hn
  · obtain ⟨d', e1, e2⟩ := sub frm s.length h0 h1 (Int.le_refl _)
    refine ⟨d', by unfold bytevectorCopy2; rw [hl]; exact e1, ?_⟩
    rwa [List.take_of_length_le (by rw [List.length_drop]; omega)] at e2
  · obtain ⟨d', e1, e2⟩ := sub 0 s.length (Int.le_refl _) (by omega) (Int.le_refl _)
    refine ⟨d', by unfold bytevectorCopy1; rw [hl]; exact e1, ?_⟩
    rwa [List.take_of_length_le (by rw [List.length_drop]; omega)] at e2
  · refine ⟨⟨s.length, s.map some⟩, ?_, rfl, rfl, hs⟩
    unfold dupbytevector
    have e := memcpy_mid (s.map some) [] (malloc s.length) [] [] [] (by simp [malloc])
    simp only [List.nil_append, List.append_nil, List.length_nil, List.length_map] at e
    rw [hl, malloc_ok, bind_ok]
    simp only [hm, e, mem_some, bind_ok]

/-! ### `byte?` -/

/-- `byte?` holds exactly of the words from 3 to 1023, … -/
theorem c80_byte_words (o : Obj) : isByteObj o = true ↔ 3 ≤ o.toInt ∧ o.toInt ≤ 1023 := by
  simp only [isByteObj, BitVec.sle, Bool.and_eq_true, decide_eq_true_eq]
  rw [show (mkim0 0).toInt = 3 by decide, show (mkim0 255).toInt = 1023 by decide]

theorem mkim0_toNat (i : BitVec 64) : (mkim0 i).toNat = i.toNat % 2 ^ 30 * 4 + 3 := by
  unfold mkim0
  rw [BitVec.toNat_or, BitVec.toNat_shiftLeft, BitVec.toNat_and]
  have h1 : i.toNat &&& (0x3fffffff#64).toNat = i.toNat % 2 ^ 30 := Nat.and_two_pow_sub_one_eq_mod i.toNat 30
  have h2 : i.toNat % 2 ^ 30 < 2 ^ 30 := Nat.mod_lt _ (by decide)
  rw [h1]
  have h3 : (i.toNat % 2 ^ 30) <<< 2 % 2 ^ 64 = (i.toNat % 2 ^ 30) <<< 2 := Nat.mod_eq_of_lt (by rw [Nat.shiftLeft_eq]; omega)
  rw [h3, show (3#64).toNat = 3 from rfl, ← Nat.shiftLeft_add_eq_or_of_lt (by decide : 3 < 2 ^ 2), Nat.shiftLeft_eq]

/-- … among fixnums exactly of those from 0 to 255. -/
theorem c80_byte_partial (n : Int) (h : -536870912 ≤ n ∧ n < 536870912) : isByteObj (fix n) = true ↔ IsByte n := by
  rw [c80_byte_words]
  have h1 := mkim0_toNat (BitVec.ofInt 64 n)
  rw [BitVec.toNat_ofInt] at h1
  have h2 : (fix n).toInt = ((fix n).toNat : Int) := BitVec.toInt_eq_toNat_of_lt (by unfold fix; rw [h1]; omega)
  rw [h2]
  unfold fix IsByte
  rw [h1]
  omega

example : isByteObj (fix 255) = true ∧ isByteObj (fix 256) = false ∧ isByteObj (fix (-1)) = false := by decide

/-- The empty list, the end-of-file object and the character with code 1 are bytes for `byte?`. -/
theorem c80_byte_counterexample :
    isByteObj (mkimmL 0 3) = true ∧ isNullL (mkimmL 0 3) = true ∧ isByteObj (mkimmL 0 7) = true ∧ isEofL (mkimmL 0 7) = true ∧
    isByteObj (mkimmL 1 2) = true ∧ isCharL (mkimmL 1 2) = true := by decide

/-- `(make-bytevector -1)` writes outside of its block, where `(make-bytevector -1 0)` fails an assertion. -/
theorem c80_negative_counterexample :
    makeBytevector1 (-1) = .error .ub ∧ makeBytevector2 (-1) 0 = .error .assert := ⟨rfl, rfl⟩

theorem c80_counterexample : ¬ C80Full := fun h => h.2 (-1) rfl

end Verif.ByteVec

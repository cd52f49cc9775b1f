import Verif.Stab.Model
import Verif.Symt.Props
/-
The address hash table refines a finite map from objects to marks.
-/
namespace Verif.Stab
open Verif.Equal (Obj Heap Node feq seq)
open Verif.Symt (prev slot prev_slot slot_inj)

variable {F : Type} [DecidableEq F]

theorem slot_lt {sz c t : Nat} (hc : c < sz) (ht : t < sz) : slot sz c t < sz := by
  unfold slot; split <;> omega

theorem slot_surj {sz c i : Nat} (hc : c < sz) (hi : i < sz) : ∃ t < sz, slot sz c t = i := by
  by_cases h : i ≤ c
  · exact ⟨c - i, by omega, by unfold slot; rw [if_pos (by omega)]; omega⟩
  · exact ⟨c + sz - i, by omega, by unfold slot; rw [if_neg (by omega)]; omega⟩

/-- number of slots in use -/
def cnt (v : Nat → Nat) (sz : Nat) : Nat := ((List.range sz).filter fun i => v i ≠ 0).length

theorem exists_free {v : Nat → Nat} {sz c : Nat} (hc : c < sz) (h : cnt v sz < sz) : ∃ t < sz, v (slot sz c t) = 0 := by
  by_contra hno
  push Not at hno
  have : (List.range sz).filter (fun i => v i ≠ 0) = List.range sz := by
    rw [List.filter_eq_self]
    intro i hi
    obtain ⟨t, ht, e⟩ := slot_surj hc (List.mem_range.1 hi)
    have := hno t ht
    rw [e] at this
    simpa using this
  unfold cnt at h
  rw [this] at h
  simp at h

theorem cnt_set_le (v : Nat → Nat) (sz i w : Nat) : cnt (set v i w) sz ≤ cnt v sz + 1 := by
  unfold cnt
  induction sz with
  | zero => simp
  | succ n ih =>
    rw [List.range_succ, List.filter_append, List.filter_append, List.length_append, List.length_append]
    by_cases hn : n = i
    · subst hn
      have e : (List.range n).filter (fun j => decide (set v n w j ≠ 0)) = (List.range n).filter (fun j => decide (v j ≠ 0)) := by
        refine List.filter_congr fun j hj => ?_
        have : j ≠ n := by have := List.mem_range.1 hj; omega
        simp [set, this]
      rw [e]
      have : (List.filter (fun j => decide (set v n w j ≠ 0)) [n]).length ≤ 1 := List.length_filter_le _ _
      omega
    · have e : List.filter (fun j => decide (set v i w j ≠ 0)) [n] = List.filter (fun j => decide (v j ≠ 0)) [n] := by
        refine List.filter_congr fun j hj => ?_
        simp only [List.mem_singleton] at hj
        subst hj
        simp [set, hn]
      rw [e]
      omega

theorem cnt_set_used {v : Nat → Nat} {sz i w : Nat} (h : v i ≠ 0) (hw : w ≠ 0) : cnt (set v i w) sz = cnt v sz := by
  unfold cnt
  congr 1
  refine List.filter_congr fun j _ => ?_
  unfold set
  split
  · next e => subst e; simp [h, hw]
  · rfl

/-- the slots form a correct index -/
structure Index (v : Nat → Nat) (sz : Nat) : Prop where
  inj : ∀ i < sz, ∀ j < sz, key (v i) = key (v j) → key (v i) ≠ 0 → i = j
  path : ∀ i < sz, key (v i) ≠ 0 → ∃ t < sz, slot sz (key (v i) % sz) t = i ∧ ∀ s < t, v (slot sz (key (v i) % sz) s) ≠ 0

/-- result of a probe sequence that meets a free slot -/
theorem probe_run {v : Nat → Nat} {sz o c : Nat} (hc : c < sz) : ∀ {d t0 : Nat}, t0 + d < sz → v (slot sz c (t0 + d)) = 0 → ∀ n > d,
    ∃ t, t0 ≤ t ∧ t ≤ t0 + d ∧ (∀ s, t0 ≤ s → s < t → v (slot sz c s) ≠ 0 ∧ key (v (slot sz c s)) ≠ o) ∧
      ((v (slot sz c t) = 0 ∧ probe v sz o n (slot sz c t0) = some (false, slot sz c t)) ∨
       (v (slot sz c t) ≠ 0 ∧ key (v (slot sz c t)) = o ∧ probe v sz o n (slot sz c t0) = some (true, slot sz c t))) := by
  intro d
  induction d with
  | zero =>
    intro t0 ht hz n hn
    obtain ⟨n, rfl⟩ : ∃ m, n = m + 1 := ⟨n - 1, by omega⟩
    rw [Nat.add_zero] at hz
    refine ⟨t0, le_rfl, by omega, fun s _ _ => by omega, .inl ⟨hz, ?_⟩⟩
    unfold probe; rw [if_pos hz]
  | succ d ih =>
    intro t0 ht hz n hn
    obtain ⟨n, rfl⟩ : ∃ m, n = m + 1 := ⟨n - 1, by omega⟩
    by_cases h0 : v (slot sz c t0) = 0
    · refine ⟨t0, le_rfl, by omega, fun s _ _ => by omega, .inl ⟨h0, ?_⟩⟩
      unfold probe; rw [if_pos h0]
    · by_cases hk : key (v (slot sz c t0)) = o
      · refine ⟨t0, le_rfl, by omega, fun s _ _ => by omega, .inr ⟨h0, hk, ?_⟩⟩
        unfold probe; rw [if_neg h0, if_pos hk]
      · have e : probe v sz o (n + 1) (slot sz c t0) = probe v sz o n (slot sz c (t0 + 1)) := by
          conv => lhs; unfold probe
          rw [if_neg h0, if_neg hk, prev_slot hc (by omega)]
        rw [e]
        obtain ⟨t, h1, h2, h3, h4⟩ := ih (t0 := t0 + 1) (by omega) (by rw [show t0 + 1 + d = t0 + (d + 1) by omega]; exact hz) n (by omega)
        refine ⟨t, by omega, by omega, fun s hs hst => ?_, h4⟩
        by_cases hs0 : s = t0
        · subst hs0; exact ⟨h0, hk⟩
        · exact h3 s (by omega) hst

theorem probeFree_run {v : Nat → Nat} {sz c : Nat} (hc : c < sz) : ∀ {d t0 : Nat}, t0 + d < sz → v (slot sz c (t0 + d)) = 0 → ∀ n > d,
    ∃ t, t0 ≤ t ∧ t ≤ t0 + d ∧ (∀ s, t0 ≤ s → s < t → v (slot sz c s) ≠ 0) ∧
      v (slot sz c t) = 0 ∧ probeFree v sz n (slot sz c t0) = some (slot sz c t) := by
  intro d
  induction d with
  | zero =>
    intro t0 ht hz n hn
    obtain ⟨n, rfl⟩ : ∃ m, n = m + 1 := ⟨n - 1, by omega⟩
    rw [Nat.add_zero] at hz
    refine ⟨t0, le_rfl, by omega, fun s _ _ => by omega, hz, ?_⟩
    unfold probeFree; rw [if_pos hz]
  | succ d ih =>
    intro t0 ht hz n hn
    obtain ⟨n, rfl⟩ : ∃ m, n = m + 1 := ⟨n - 1, by omega⟩
    by_cases h0 : v (slot sz c t0) = 0
    · refine ⟨t0, le_rfl, by omega, fun s _ _ => by omega, h0, ?_⟩
      unfold probeFree; rw [if_pos h0]
    · have e : probeFree v sz (n + 1) (slot sz c t0) = probeFree v sz n (slot sz c (t0 + 1)) := by
        conv => lhs; unfold probeFree
        rw [if_neg h0, prev_slot hc (by omega)]
      rw [e]
      obtain ⟨t, h1, h2, h3, h4⟩ := ih (t0 := t0 + 1) (by omega) (by rw [show t0 + 1 + d = t0 + (d + 1) by omega]; exact hz) n (by omega)
      refine ⟨t, by omega, by omega, fun s hs hst => ?_, h4⟩
      by_cases hs0 : s = t0
      · subst hs0; exact h0
      · exact h3 s (by omega) hst

theorem slot_zero {sz c : Nat} : slot sz c 0 = c := by unfold slot; rw [if_pos (by omega)]; omega

/-- the probe finds an object iff it is in the table -/
theorem probe_spec {v : Nat → Nat} {sz o : Nat} (hI : Index v sz) (hc : cnt v sz < sz) (ho : o ≠ 0) :
    (∃ i < sz, key (v i) = o ∧ probe v sz o sz (o % sz) = some (true, i)) ∨
    ((∀ i < sz, key (v i) ≠ o) ∧ ∃ t < sz, v (slot sz (o % sz) t) = 0 ∧ (∀ s < t, v (slot sz (o % sz) s) ≠ 0) ∧
      probe v sz o sz (o % sz) = some (false, slot sz (o % sz) t)) := by
  have hm : o % sz < sz := Nat.mod_lt _ (by omega)
  obtain ⟨d, hd, hz⟩ := exists_free hm hc
  obtain ⟨t, _, h2, h3, h4⟩ := probe_run (o := o) hm (d := d) (t0 := 0) (by omega) (by simpa using hz) sz (by omega)
  rw [slot_zero] at h4
  rcases h4 with ⟨h4, h5⟩ | ⟨h4, h5, h6⟩
  · refine .inr ⟨fun i hi hk => ?_, t, by omega, h4, fun s hs => (h3 s (by omega) hs).1, h5⟩
    obtain ⟨t', ht', e', hp⟩ := hI.path i hi (by rw [hk]; exact ho)
    rw [hk] at e' hp
    by_cases hlt : t' < t
    · have := (h3 t' (by omega) hlt).2
      rw [e'] at this
      exact this hk
    · by_cases heq : t' = t
      · subst heq
        rw [e'] at h4
        rw [h4] at hk
        simp [key] at hk
        omega
      · exact hp t (by omega) h4
  · exact .inl ⟨slot sz (o % sz) t, slot_lt hm (by omega), h5, h6⟩

theorem probeFree_spec {v : Nat → Nat} {sz o : Nat} (hc : cnt v sz < sz) :
    ∃ t < sz, v (slot sz (o % sz) t) = 0 ∧ (∀ s < t, v (slot sz (o % sz) s) ≠ 0) ∧
      probeFree v sz sz (o % sz) = some (slot sz (o % sz) t) := by
  have hm : o % sz < sz := Nat.mod_lt _ (by omega)
  obtain ⟨d, hd, hz⟩ := exists_free hm hc
  obtain ⟨t, _, h2, h3, h4, h5⟩ := probeFree_run hm (d := d) (t0 := 0) (by omega) (by simpa using hz) sz (by omega)
  rw [slot_zero] at h5
  exact ⟨t, by omega, h4, fun s hs => h3 s (by omega) hs, h5⟩

/-- storing a new object at the end of its probe sequence -/
theorem Index.insert {v : Nat → Nat} {sz w t : Nat} (hI : Index v sz) (ht : t < sz) (h0 : v (slot sz (key w % sz) t) = 0)
    (hp : ∀ s < t, v (slot sz (key w % sz) s) ≠ 0) (hk : key w ≠ 0) (hno : ∀ i < sz, key (v i) ≠ key w) :
    Index (set v (slot sz (key w % sz) t) w) sz := by
  have hm : key w % sz < sz := Nat.mod_lt _ (by omega)
  have hnz : ∀ j, v j ≠ 0 → set v (slot sz (key w % sz) t) w j ≠ 0 := by
    intro j hj
    unfold set
    split
    · intro e; rw [e] at hk; simp [key] at hk
    · exact hj
  constructor
  · intro i hi j hj e hne
    unfold set at e hne
    split at e <;> split at e
    · next a b => rw [a, b]
    · next a b => exact (hno j hj e.symm).elim
    · next a b => exact (hno i hi e).elim
    · next a b =>
      rw [if_neg a] at hne
      exact hI.inj i hi j hj e hne
  · intro i hi hne
    by_cases hi' : i = slot sz (key w % sz) t
    · have e : set v (slot sz (key w % sz) t) w i = w := by unfold set; rw [if_pos hi']
      rw [e]
      exact ⟨t, ht, hi'.symm, fun s hs => hnz _ (hp s hs)⟩
    · have e : set v (slot sz (key w % sz) t) w i = v i := by unfold set; rw [if_neg hi']
      rw [e] at hne ⊢
      obtain ⟨t', ht', e', hp'⟩ := hI.path i hi hne
      exact ⟨t', ht', e', fun s hs => hnz _ (hp' s hs)⟩

/-- overwriting a used slot by a nonzero word with the same key or key 0 -/
theorem Index.over {v : Nat → Nat} {sz i w : Nat} (hI : Index v sz) (hw : w ≠ 0) (hk : key w = key (v i) ∨ key w = 0) :
    Index (set v i w) sz := by
  have hnz : ∀ j, v j ≠ 0 → set v i w j ≠ 0 := by
    intro j hj; unfold set; split
    · exact hw
    · exact hj
  have hkey : ∀ j, key (set v i w j) ≠ 0 → key (set v i w j) = key (v j) := by
    intro j hj
    unfold set at hj ⊢
    split
    · next e =>
      subst e
      rw [if_pos rfl] at hj
      rcases hk with hk | hk
      · exact hk
      · exact (hj hk).elim
    · rfl
  constructor
  · intro a ha b hb e hne
    have h1 := hkey a hne
    have h2 := hkey b (by rw [← e]; exact hne)
    exact hI.inj a ha b hb (by rw [← h1, ← h2, e]) (by rw [← h1]; exact hne)
  · intro a ha hne
    have h1 := hkey a hne
    rw [h1] at hne ⊢
    obtain ⟨t', ht', e', hp'⟩ := hI.path a ha hne
    exact ⟨t', ht', e', fun s hs => hnz _ (hp' s hs)⟩

/-- reinsertion of the selected words of a table into a bigger one -/
theorem reinsert_spec {sel : Nat → Bool} {v : Nat → Nat} {sz nsz : Nat} (hI : Index v sz) (hsel : ∀ w, sel w = true → key w ≠ 0)
    (hroom : ((List.range sz).filter fun i => sel (v i)).length < nsz) :
    ∃ nv, reinsert sel v sz nsz = some nv ∧ Index nv nsz ∧ cnt nv nsz ≤ ((List.range sz).filter fun i => sel (v i)).length ∧
      ∀ w, key w ≠ 0 → ((∃ i < nsz, nv i = w) ↔ ∃ i < sz, v i = w ∧ sel w = true) := by
  have key' : ∀ k ≤ sz, ∃ nv, (List.range k).foldlM (reinsertStep sel v nsz) (fun _ => 0) = some nv ∧ Index nv nsz ∧
      cnt nv nsz ≤ ((List.range k).filter fun i => sel (v i)).length ∧
      ∀ w, key w ≠ 0 → ((∃ i < nsz, nv i = w) ↔ ∃ i < k, v i = w ∧ sel w = true) := by
    intro k
    induction k with
    | zero =>
      intro _
      refine ⟨fun _ => 0, rfl, ⟨fun i _ j _ _ h => ?_, fun i _ h => ?_⟩, by simp [cnt], fun w hw => ⟨?_, ?_⟩⟩
      · simp [key] at h
      · simp [key] at h
      · rintro ⟨i, _, rfl⟩; simp [key] at hw
      · rintro ⟨i, hi, _⟩; omega
    | succ k ih =>
      intro hk
      obtain ⟨nv, e1, h1, h2, h3⟩ := ih (by omega)
      rw [List.range_succ, List.foldlM_append, e1]
      simp only [Option.bind_eq_bind, Option.bind_some, List.foldlM_cons, List.foldlM_nil]
      have hmono : ((List.range k).filter fun i => sel (v i)).length ≤ ((List.range sz).filter fun i => sel (v i)).length := by
        refine List.Sublist.length_le (List.Sublist.filter _ ?_)
        exact (List.range_sublist).2 (by omega)
      unfold reinsertStep
      cases hs : sel (v k) with
      | false =>
        refine ⟨nv, by simp, h1, ?_, fun w hw => ?_⟩
        · simpa [List.filter_append, hs] using h2
        · rw [h3 w hw]
          constructor
          · rintro ⟨i, hi, e, hse⟩; exact ⟨i, by omega, e, hse⟩
          · rintro ⟨i, hi, e, hse⟩
            refine ⟨i, ?_, e, hse⟩
            by_contra hcon
            have : i = k := by omega
            subst this
            rw [e, hse] at hs
            cases hs
      | true =>
        have hkk := hsel _ hs
        obtain ⟨t, ht, hz, hp, e⟩ := probeFree_spec (v := nv) (sz := nsz) (o := key (v k)) (by omega)
        have hno : ∀ i < nsz, key (nv i) ≠ key (v k) := by
          intro i hi he
          obtain ⟨j, hj, ej, _⟩ := (h3 (nv i) (by rw [he]; exact hkk)).1 ⟨i, hi, rfl⟩
          have := hI.inj j (by omega) k (by omega) (by rw [ej, he]) (by rw [ej, he]; exact hkk)
          omega
        refine ⟨set nv (slot nsz (key (v k) % nsz) t) (v k), by simp [e], h1.insert ht hz hp hkk hno, ?_, fun w hw => ?_⟩
        · have := cnt_set_le nv nsz (slot nsz (key (v k) % nsz) t) (v k)
          simp only [List.filter_append, hs, List.length_append, List.filter_cons, List.filter_nil, if_true, List.length_cons,
            List.length_nil]
          omega
        · constructor
          · rintro ⟨i, hi, rfl⟩
            unfold set at hw ⊢
            split
            · exact ⟨k, by omega, rfl, hs⟩
            · next hne =>
              rw [if_neg hne] at hw
              obtain ⟨j, hj, ej, hse⟩ := (h3 _ hw).1 ⟨i, hi, rfl⟩
              exact ⟨j, by omega, ej, hse⟩
          · rintro ⟨i, hi, e2, hse⟩
            by_cases hik : i = k
            · subst hik
              exact ⟨_, slot_lt (Nat.mod_lt _ (by omega)) ht, by unfold set; rw [if_pos rfl]; exact e2⟩
            · obtain ⟨j, hj, ej⟩ := (h3 w hw).2 ⟨i, by omega, e2, hse⟩
              refine ⟨j, hj, ?_⟩
              unfold set
              rw [if_neg]
              · exact ej
              · intro hjj; rw [hjj, hz] at ej; rw [← ej] at hw; simp [key] at hw
  exact key' sz le_rfl

/-! ### the table as a map -/

/-- table invariant -/
structure Inv (t : Tab) : Prop where
  idx : Index t.v t.sz
  cnt : cnt t.v t.sz ≤ t.u
  le : t.u ≤ t.maxu
  max : t.maxu = t.sz / 2
  pos : 2 ≤ t.sz

theorem Inv.room {t : Tab} (h : Inv t) : Stab.cnt t.v t.sz < t.sz := by
  have h1 := h.cnt
  have h2 := h.le
  have h3 := h.max
  have h4 := h.pos
  omega

/-- object `o` is in the table, with mark `m` -/
def Has (t : Tab) (o : Nat) (m : Bool) : Prop := ∃ i < t.sz, t.v i = o + m.toNat

/-- a possible object address -/
def Addr (o : Nat) : Prop := o ≠ 0 ∧ o % 2 = 0

theorem key_add {o : Nat} (ho : Addr o) (m : Bool) : key (o + m.toNat) = o := by
  obtain ⟨h1, h2⟩ := ho
  unfold key
  cases m <;> simp only [Bool.toNat_true, Bool.toNat_false] <;> omega

theorem of_key {w o : Nat} (h : key w = o) : ∃ m : Bool, w = o + m.toNat := by
  unfold key at h
  by_cases hw : w % 2 = 0
  · exact ⟨false, by simp; omega⟩
  · exact ⟨true, by simp; omega⟩

theorem Has.uniq {t : Tab} (hI : Inv t) {o : Nat} (ho : Addr o) {m m' : Bool} (h : Has t o m) (h' : Has t o m') : m = m' := by
  obtain ⟨i, hi, e⟩ := h
  obtain ⟨j, hj, e'⟩ := h'
  have : i = j := hI.idx.inj i hi j hj (by rw [e, e', key_add ho, key_add ho]) (by rw [e, key_add ho]; exact ho.1)
  subst this
  rw [e] at e'
  revert e'
  cases m <;> cases m' <;> simp

theorem inv_new : Inv newTab := by
  refine ⟨⟨fun i _ j _ _ h => ?_, fun i _ h => ?_⟩, ?_, by simp [newTab], by simp [newTab], by simp [newTab]⟩
  · simp [newTab, key] at h
  · simp [newTab, key] at h
  · simp [newTab, cnt]

theorem has_new (o : Nat) (ho : Addr o) (m : Bool) : ¬ Has newTab o m := by
  rintro ⟨i, _, e⟩
  simp only [newTab] at e
  exact ho.1 (by omega)

/-- what stabnew does to the map -/
inductive NewSpec (t : Tab) (o : Nat) : Bool → Tab → Prop
  | add {t'} : Inv t' → (∀ m, ¬ Has t o m) → (∀ q, Addr q → ∀ m, Has t' q m ↔ (Has t q m ∨ (q = o ∧ m = false))) → NewSpec t o true t'
  | mark {t' m0} : Inv t' → Has t o m0 → (∀ q, Addr q → ∀ m, Has t' q m ↔ ((q ≠ o ∧ Has t q m) ∨ (q = o ∧ m = true))) →
      NewSpec t o false t'

theorem has_set {v : Nat → Nat} {sz i w : Nat} (hi : i < sz) (P : Nat → Prop) :
    (∃ j < sz, P (set v i w j)) ↔ (P w ∨ ∃ j < sz, j ≠ i ∧ P (v j)) := by
  unfold set
  constructor
  · rintro ⟨j, hj, e⟩
    by_cases h : j = i
    · rw [if_pos h] at e; exact .inl e
    · rw [if_neg h] at e; exact .inr ⟨j, hj, h, e⟩
  · rintro (h | ⟨j, hj, hne, h⟩)
    · exact ⟨i, hi, by rw [if_pos rfl]; exact h⟩
    · exact ⟨j, hj, by rw [if_neg hne]; exact h⟩

theorem stabnew_spec {H : Heap F} {o : Nat} {t : Tab} {circ : Bool} (hI : Inv t) (ho : Addr o) (hH : H o ≠ none)
    (hc : (circ && isNative H o) = false) : ∃ b t', stabnew H o t circ = some (b, t') ∧ NewSpec t o b t' := by
  unfold stabnew
  rw [if_neg hH, hc]
  simp only [Bool.false_eq_true, if_false, Option.bind_eq_bind]
  rcases probe_spec hI.idx hI.room ho.1 with ⟨i, hi, hk, e⟩ | ⟨hno, s, hs, hz, hp, e⟩
  · rw [e]
    simp only [Option.bind_some, if_true]
    have hne : t.v i ≠ 0 := by intro h; rw [h] at hk; simp [key] at hk; exact ho.1 hk.symm
    refine ⟨false, _, rfl, ?_⟩
    obtain ⟨m0, hm0⟩ := of_key hk
    refine .mark (m0 := m0) ⟨?_, ?_, hI.le, hI.max, hI.pos⟩ ⟨i, hi, hm0⟩ fun q hq m => ?_
    · exact hI.idx.over (by omega) (.inl (by rw [hk]; exact key_add ho true))
    · simp only
      rw [cnt_set_used hne (by omega)]; exact hI.cnt
    · unfold Has
      simp only
      rw [has_set hi (fun w => w = q + m.toNat), hk]
      constructor
      · rintro (h | ⟨j, hj, hne, h⟩)
        · refine .inr ?_
          have h1 := congrArg key h
          rw [key_add hq, show o + 1 = o + true.toNat from rfl, key_add ho] at h1
          subst h1
          refine ⟨rfl, ?_⟩
          cases m
          · simp at h
          · rfl
        · refine .inl ⟨?_, j, hj, h⟩
          rintro rfl
          exact hne (hI.idx.inj j hj i hi (by rw [h, key_add ho, hk]) (by rw [h, key_add ho]; exact ho.1))
      · rintro (⟨hqo, j, hj, h⟩ | ⟨rfl, rfl⟩)
        · refine .inr ⟨j, hj, ?_, h⟩
          rintro rfl
          rw [h, key_add hq] at hk
          exact hqo hk
        · exact .inl rfl
  · rw [e]
    simp only [Option.bind_some, Bool.false_eq_true, if_false]
    have habs : ∀ m, ¬ Has t o m := by
      rintro m ⟨i, hi, e⟩
      exact hno i hi (by rw [e]; exact key_add ho m)
    have ko : key o = o := by have := key_add ho false; simpa using this
    by_cases hu : t.u = t.maxu
    · rw [if_pos hu]
      have hlen : ((List.range t.sz).filter fun i => liveW (t.v i)).length ≤ cnt t.v t.sz := by
        unfold cnt
        refine List.Sublist.length_le ?_
        refine List.monotone_filter_right _ ?_
        intro i hi
        simp only [liveW, decide_eq_true_eq] at hi ⊢
        intro h0
        rw [h0] at hi
        simp [key] at hi
      have h2 := hI.cnt
      have h3 := hI.max
      have h4 := hI.pos
      have h5 := hI.room
      obtain ⟨nv, e1, n1, n2, n3⟩ := reinsert_spec (sel := liveW) (nsz := t.sz * 2) hI.idx (by simp [liveW]) (by omega)
      rw [e1]
      simp only [Option.bind_some]
      obtain ⟨s', hs', hz', hp', e'⟩ := probeFree_spec (v := nv) (sz := t.sz * 2) (o := o) (by omega)
      rw [e']
      simp only [Option.bind_some]
      refine ⟨true, _, rfl, ?_⟩
      have hcon : ∀ q, Addr q → ∀ m : Bool, (∃ i < t.sz * 2, nv i = q + m.toNat) ↔ Has t q m := by
        intro q hq m
        rw [n3 _ (by rw [key_add hq]; exact hq.1)]
        unfold Has
        constructor
        · rintro ⟨i, hi, h, _⟩; exact ⟨i, hi, h⟩
        · rintro ⟨i, hi, h⟩; exact ⟨i, hi, h, by unfold liveW; rw [key_add hq]; simpa using hq.1⟩
      have hno' : ∀ i < t.sz * 2, key (nv i) ≠ o := by
        intro i hi hk
        obtain ⟨m, hm⟩ := of_key hk
        exact habs m ((hcon o ho m).1 ⟨i, hi, hm⟩)
      refine .add ⟨?_, ?_, ?_, rfl, by simp only; omega⟩ habs fun q hq m => ?_
      · have := n1.insert (w := o) hs' (by rw [ko]; exact hz') (by rw [ko]; exact hp') (by rw [ko]; exact ho.1) (by rw [ko]; exact hno')
        rw [ko] at this
        exact this
      · simp only
        have := cnt_set_le nv (t.sz * 2) (slot (t.sz * 2) (o % (t.sz * 2)) s') o
        omega
      · simp only; omega
      · unfold Has
        simp only
        rw [has_set (slot_lt (Nat.mod_lt _ (by omega)) hs') (fun w => w = q + m.toNat)]
        constructor
        · rintro (h | ⟨j, hj, _, h⟩)
          · have h1 := congrArg key h
            rw [key_add hq, ko] at h1
            subst h1
            refine .inr ⟨rfl, ?_⟩
            cases m
            · rfl
            · simp at h
          · exact .inl ((hcon q hq m).1 ⟨j, hj, h⟩)
        · rintro (h | ⟨rfl, rfl⟩)
          · obtain ⟨j, hj, h⟩ := (hcon q hq m).2 h
            refine .inr ⟨j, hj, ?_, h⟩
            intro hjj; rw [hjj, hz'] at h; exact hq.1 (by omega)
          · exact .inl (by simp)
    · rw [if_neg hu]
      refine ⟨true, _, rfl, ?_⟩
      refine .add ⟨?_, ?_, ?_, hI.max, hI.pos⟩ habs fun q hq m => ?_
      · have := hI.idx.insert (w := o) hs (by rw [ko]; exact hz) (by rw [ko]; exact hp) (by rw [ko]; exact ho.1) (by rw [ko]; exact hno)
        rw [ko] at this
        exact this
      · simp only
        have := cnt_set_le t.v t.sz (slot t.sz (o % t.sz) s) o
        have := hI.cnt
        omega
      · simp only
        have := hI.le
        omega
      · unfold Has
        simp only
        have := hI.pos
        rw [has_set (slot_lt (Nat.mod_lt _ (by omega)) hs) (fun w => w = q + m.toNat)]
        constructor
        · rintro (h | ⟨j, hj, _, h⟩)
          · have h1 := congrArg key h
            rw [key_add hq, ko] at h1
            subst h1
            refine .inr ⟨rfl, ?_⟩
            cases m
            · rfl
            · simp at h
          · exact .inl ⟨j, hj, h⟩
        · rintro (⟨j, hj, h⟩ | ⟨rfl, rfl⟩)
          · refine .inr ⟨j, hj, ?_, h⟩
            intro hjj; rw [hjj, hz] at h; exact hq.1 (by omega)
          · exact .inl (by simp)

/-- stabdelifu removes an unmarked object -/
theorem stabdelifu_spec {o : Nat} {t : Tab} (hI : Inv t) (ho : Addr o) : ∃ t', stabdelifu o t = some t' ∧ Inv t' ∧
    ∀ q, Addr q → ∀ m, Has t' q m ↔ (Has t q m ∧ (q = o → m = true)) := by
  unfold stabdelifu
  simp only [Option.bind_eq_bind]
  rcases probe_spec hI.idx hI.room ho.1 with ⟨i, hi, hk, e⟩ | ⟨hno, s, hs, hz, hp, e⟩
  · rw [e]
    simp only [Option.bind_some, if_true]
    obtain ⟨m0, hm0⟩ := of_key hk
    have hne : t.v i ≠ 0 := by have := ho.1; omega
    have h2 := ho.2
    cases m0 with
    | true =>
      have e2 : t.v i % 2 = 1 := by rw [hm0]; simp only [Bool.toNat_true]; omega
      rw [if_pos e2]
      refine ⟨t, rfl, hI, fun q hq m => ⟨fun h => ⟨h, ?_⟩, fun h => h.1⟩⟩
      rintro rfl
      exact h.uniq hI ho ⟨i, hi, hm0⟩
    | false =>
      have e2 : ¬ t.v i % 2 = 1 := by rw [hm0]; simp only [Bool.toNat_false]; omega
      rw [if_neg e2]
      refine ⟨_, rfl, ⟨hI.idx.over (by omega) (.inr (by decide)), ?_, hI.le, hI.max, hI.pos⟩, fun q hq m => ?_⟩
      · simp only; rw [cnt_set_used hne (by omega)]; exact hI.cnt
      · unfold Has
        simp only
        rw [has_set hi (fun w => w = q + m.toNat)]
        constructor
        · rintro (h | ⟨j, hj, hne, h⟩)
          · have h1 := congrArg key h
            rw [key_add hq] at h1
            exact (hq.1 (by rw [← h1]; decide)).elim
          · refine ⟨⟨j, hj, h⟩, ?_⟩
            rintro rfl
            exact (hne (hI.idx.inj j hj i hi (by rw [h, key_add ho, hk]) (by rw [h, key_add ho]; exact ho.1))).elim
        · rintro ⟨⟨j, hj, h⟩, hm⟩
          refine .inr ⟨j, hj, ?_, h⟩
          rintro rfl
          have h1 := congrArg key h
          rw [hk, key_add hq] at h1
          subst h1
          have := hm rfl
          subst this
          rw [hm0] at h
          simp at h
  · rw [e]
    refine ⟨t, by simp, hI, fun q hq m => ⟨fun h => ⟨h, ?_⟩, fun h => h.1⟩⟩
    rintro rfl
    obtain ⟨i, hi, h⟩ := h
    exact (hno i hi (by rw [h, key_add ho])).elim

theorem growTo_spec (lim : Nat) : ∀ n nsz, 2 ≤ nsz → lim + 2 ≤ nsz + 2 * n → 0 < n → ∃ m, growTo lim n nsz = some m ∧ lim ≤ m ∧ nsz ≤ m := by
  intro n
  induction n with
  | zero => intro nsz h1 h2 h3; omega
  | succ n ih =>
    intro nsz h1 h2 _
    unfold growTo
    by_cases h : nsz < lim
    · rw [if_pos h]
      cases n with
      | zero => omega
      | succ n =>
        obtain ⟨m, hm, h3, h4⟩ := ih (nsz * 2) (by omega) (by omega) (by omega)
        exact ⟨m, hm, h3, by omega⟩
    · rw [if_neg h]; exact ⟨nsz, rfl, by omega, le_rfl⟩

/-- stabend returns a table iff something is marked -/
theorem stabend_spec {t : Tab} (hI : Inv t) : ∃ e, stabend t = some e ∧ (e.isSome = true ↔ ∃ i < t.sz, markW (t.v i) = true) := by
  unfold stabend
  by_cases h : ((List.range t.sz).filter fun i => markW (t.v i)).length = 0
  · refine ⟨none, by simp [h], ?_⟩
    simp only [Option.isSome_none, Bool.false_eq_true, false_iff]
    rintro ⟨i, hi, hm⟩
    rw [List.length_eq_zero_iff] at h
    have : i ∈ (List.range t.sz).filter fun i => markW (t.v i) := List.mem_filter.2 ⟨List.mem_range.2 hi, hm⟩
    rw [h] at this
    simp at this
  · simp only [ne_eq, h, not_false_eq_true, if_true, Option.bind_eq_bind]
    obtain ⟨nsz, e1, h1, h2⟩ := growTo_spec (((List.range t.sz).filter fun i => markW (t.v i)).length * 2)
      (((List.range t.sz).filter fun i => markW (t.v i)).length + 1) 8 (by omega) (by omega) (by omega)
    rw [e1]
    simp only [Option.bind_some]
    obtain ⟨nv, e2, _⟩ := reinsert_spec (sel := markW) (nsz := nsz) hI.idx (by simp [markW]; intros; assumption) (by omega)
    rw [e2]
    refine ⟨_, rfl, ?_⟩
    simp only [Option.isSome_some, true_iff]
    obtain ⟨i, hi⟩ := List.exists_mem_of_length_pos (Nat.pos_of_ne_zero h)
    rw [List.mem_filter, List.mem_range] at hi
    exact ⟨i, hi.1, hi.2⟩

end Verif.Stab

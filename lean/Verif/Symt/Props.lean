import Verif.Symt.Model
import Mathlib.Data.List.Nodup
import Mathlib.Data.List.Perm.Subperm
import Mathlib.Data.Nat.Bitwise
import Mathlib.Tactic.Ring
import Mathlib.Tactic.NormNum
/-
C09: symbol interning.
-/
namespace Verif.Symt

variable {α : Type} [DecidableEq α]

/-- the slot visited after `t` steps from `c` -/
def slot (sz c t : Nat) : Nat := if t ≤ c then c - t else c + sz - t

theorem prev_slot {sz c t : Nat} (hc : c < sz) (ht : t + 1 < sz) : prev sz (slot sz c t) = slot sz c (t + 1) := by
  unfold prev slot
  split <;> split <;> split <;> omega

/-- `v` is a correct index of `a` under `hash` -/
structure Index (hash : α → Nat) (a : List α) (v : Nat → Option Nat) (sz : Nat) (dom : Nat → Prop) : Prop where
  pos : 0 < sz
  range : ∀ i j, v i = some j → i < sz ∧ j < a.length ∧ dom j
  inj : ∀ i i' j, v i = some j → v i' = some j → i = i'
  path : ∀ j, dom j → ∀ n, a[j]? = some n → ∃ t < sz, v (slot sz (hash n % sz) t) = some j ∧
    ∀ s < t, (v (slot sz (hash n % sz) s)).isSome

theorem slot_inj {sz c t t' : Nat} (hc : c < sz) (ht : t < sz) (ht' : t' < sz) (e : slot sz c t = slot sz c t') : t = t' := by
  unfold slot at e
  split at e <;> split at e <;> omega

theorem exists_free {hash : α → Nat} {a : List α} {v : Nat → Option Nat} {sz : Nat} {dom : Nat → Prop} (hI : Index hash a v sz dom)
    (hlt : a.length < sz) {c : Nat} (hc : c < sz) : ∃ t < sz, v (slot sz c t) = none := by
  by_contra hno
  push Not at hno
  have hsome : ∀ t, t < sz → ∃ j, v (slot sz c t) = some j := fun t ht => Option.ne_none_iff_exists'.1 (hno t ht)
  let f : Nat → Nat := fun t => (v (slot sz c t)).getD 0
  have hf : ∀ t, t < sz → v (slot sz c t) = some (f t) := by
    intro t ht
    obtain ⟨j, hj⟩ := hsome t ht
    simp [f, hj]
  have hnd : ((List.range sz).map f).Nodup := by
    refine List.Nodup.map_on ?_ List.nodup_range
    intro x hx y hy hxy
    rw [List.mem_range] at hx hy
    refine slot_inj hc hx hy (hI.inj _ _ (f x) (hf x hx) ?_)
    rw [hxy]; exact hf y hy
  have hsub : (List.range sz).map f ⊆ List.range a.length := by
    intro x hx
    obtain ⟨t, ht, rfl⟩ := List.mem_map.1 hx
    rw [List.mem_range] at ht ⊢
    exact (hI.range _ _ (hf t ht)).2.1
  have := (List.subperm_of_subset hnd hsub).length_le
  simp at this
  omega

theorem probeFree_spec {v : Nat → Option Nat} {sz c : Nat} (hc : c < sz) : ∀ {n t t0 : Nat}, t0 ≤ t → t < sz → sz - t0 ≤ n →
    v (slot sz c t) = none → ∃ t', t0 ≤ t' ∧ t' < sz ∧ probeFree v sz n (slot sz c t0) = some (slot sz c t') ∧
      v (slot sz c t') = none ∧ ∀ s, t0 ≤ s → s < t' → (v (slot sz c s)).isSome := by
  intro n
  induction n with
  | zero => intro t t0 h1 h2 h3; omega
  | succ n ih =>
    intro t t0 h1 h2 h3 h4
    rw [probeFree]
    match e : v (slot sz c t0) with
    | none => exact ⟨t0, le_refl _, by omega, rfl, e, fun s _ _ => by omega⟩
    | some j =>
      have hne : t0 ≠ t := by rintro rfl; rw [h4] at e; simp at e
      obtain ⟨t', g1, g2, g3, g4, g5⟩ := ih (t := t) (t0 := t0 + 1) (by omega) h2 (by omega) h4
      refine ⟨t', by omega, g2, ?_, g4, ?_⟩
      · dsimp only
        rw [prev_slot hc (by omega)]; exact g3
      · intro s hs1 hs2
        by_cases hs : s = t0
        · rw [hs, e]; rfl
        · exact g5 s (by omega) hs2

theorem slot_zero {sz c : Nat} : slot sz c 0 = c := by simp [slot]

theorem Index.store {hash : α → Nat} {a : List α} {v : Nat → Option Nat} {sz : Nat} {dom : Nat → Prop} (hI : Index hash a v sz dom)
    {b : List α} (hab : a <+: b) {j t : Nat} {n : α} (hj : b[j]? = some n) (hnj : ¬ dom j) (ht : t < sz)
    (hfree : v (slot sz (hash n % sz) t) = none) (hocc : ∀ s < t, (v (slot sz (hash n % sz) s)).isSome)
    (hda : ∀ k, dom k → k < a.length) :
    Index hash b (set v (slot sz (hash n % sz) t) j) sz (fun k => dom k ∨ k = j) := by
  obtain ⟨w, rfl⟩ := hab
  have hc : hash n % sz < sz := Nat.mod_lt _ hI.pos
  have hjb : j < (a ++ w).length := by
    rw [List.getElem?_eq_some_iff] at hj; exact hj.1
  refine ⟨hI.pos, ?_, ?_, ?_⟩
  · intro i k hk
    unfold set at hk
    split at hk
    · rename_i hi
      simp only [Option.some.injEq] at hk
      subst hi hk
      refine ⟨?_, hjb, Or.inr rfl⟩
      unfold slot; split <;> omega
    · obtain ⟨h1, h2, h3⟩ := hI.range i k hk
      exact ⟨h1, by rw [List.length_append]; omega, Or.inl h3⟩
  · intro i i' k hk hk'
    unfold set at hk hk'
    split at hk <;> split at hk'
    · omega
    · simp only [Option.some.injEq] at hk; subst hk
      exact absurd (hI.range _ _ hk').2.2 hnj
    · simp only [Option.some.injEq] at hk'; subst hk'
      exact absurd (hI.range _ _ hk).2.2 hnj
    · exact hI.inj _ _ _ hk hk'
  · intro k hk m hm
    rcases hk with hk | rfl
    · have hm' : a[k]? = some m := by rw [List.getElem?_append_left (hda k hk)] at hm; exact hm
      obtain ⟨t', g1, g2, g3⟩ := hI.path k hk m hm'
      refine ⟨t', g1, ?_, ?_⟩
      · unfold set; split
        · rename_i e; rw [e, hfree] at g2; simp at g2
        · exact g2
      · intro s hs
        unfold set; split
        · rfl
        · exact g3 s hs
    · rw [hj] at hm; simp only [Option.some.injEq] at hm; subst hm
      refine ⟨t, ht, by simp [set], ?_⟩
      intro s hs
      unfold set; split
      · rfl
      · exact hocc s hs

/-- table invariant -/
structure Inv (hash : α → Nat) (t : Table α) : Prop where
  pow : ∃ k, t.sz = 2 ^ (k + 1)
  idx : Index hash t.a t.v t.sz (fun j => j < t.a.length)
  nodup : t.a.Nodup
  maxu : t.maxu = t.sz / 2
  le : t.a.length ≤ t.maxu

theorem land_mod {k : Nat} (h : Nat) : h &&& (2 ^ k - 1) = h % 2 ^ k := Nat.and_two_pow_sub_one_eq_mod h k

theorem probe_spec {hash : α → Nat} {t : Table α} (hI : Inv hash t) (name : α) :
    (∃ j, t.a[j]? = some name ∧ probe t.a t.v t.sz name t.sz (hash name % t.sz) = some (.found j)) ∨
    (name ∉ t.a ∧ ∃ s < t.sz, probe t.a t.v t.sz name t.sz (hash name % t.sz) = some (.free (slot t.sz (hash name % t.sz) s)) ∧
      t.v (slot t.sz (hash name % t.sz) s) = none ∧ ∀ s' < s, (t.v (slot t.sz (hash name % t.sz) s')).isSome) := by
  have hsz := hI.idx.pos
  have hc : hash name % t.sz < t.sz := Nat.mod_lt _ hsz
  set c := hash name % t.sz with hcd
  have hlt : t.a.length < t.sz := by
    have := hI.le; rw [hI.maxu] at this; omega
  obtain ⟨tf, hf1, hf2⟩ := exists_free hI.idx hlt hc
  have main : ∀ n t0, t0 ≤ tf → t.sz - t0 ≤ n → (∀ s < t0, (t.v (slot t.sz c s)).isSome) →
      (∀ s < t0, ∀ j, t.v (slot t.sz c s) = some j → t.a[j]? ≠ some name) →
      (∃ j, t.a[j]? = some name ∧ probe t.a t.v t.sz name n (slot t.sz c t0) = some (.found j)) ∨
      (name ∉ t.a ∧ ∃ s < t.sz, probe t.a t.v t.sz name n (slot t.sz c t0) = some (.free (slot t.sz c s)) ∧
        t.v (slot t.sz c s) = none ∧ ∀ s' < s, (t.v (slot t.sz c s')).isSome) := by
    intro n
    induction n with
    | zero => intro t0 h1 h2; omega
    | succ n ih =>
      intro t0 h1 h2 h3 h4
      rw [probe]
      match e : t.v (slot t.sz c t0) with
      | none =>
        right
        refine ⟨?_, t0, by omega, rfl, e, h3⟩
        intro hmem
        obtain ⟨j, hj⟩ := List.getElem?_of_mem hmem
        obtain ⟨s, g1, g2, g3⟩ := hI.idx.path j (by rw [List.getElem?_eq_some_iff] at hj; exact hj.1) name hj
        rw [← hcd] at g2 g3
        rcases Nat.lt_trichotomy s t0 with hl | hl | hl
        · exact h4 s hl j g2 hj
        · rw [hl, e] at g2; simp at g2
        · have := g3 t0 hl; rw [e] at this; simp at this
      | some j =>
        dsimp only
        by_cases hj : t.a[j]? = some name
        · left; exact ⟨j, hj, by rw [if_pos hj]⟩
        · rw [if_neg hj]
          have hne : t0 ≠ tf := by rintro rfl; rw [hf2] at e; simp at e
          rw [prev_slot hc (by omega)]
          refine ih (t0 + 1) (by omega) (by omega) ?_ ?_
          · intro s hs
            by_cases hs' : s = t0
            · rw [hs', e]; rfl
            · exact h3 s (by omega)
          · intro s hs k hk
            by_cases hs' : s = t0
            · rw [hs', e] at hk; simp only [Option.some.injEq] at hk; subst hk; exact hj
            · exact h4 s (by omega) k hk
  have := main t.sz 0 (Nat.zero_le _) (by omega) (by intro s hs; omega) (by intro s hs; omega)
  rwa [slot_zero] at this

theorem rehash_spec {hash : α → Nat} {t : Table α} (hI : Inv hash t) {nsz : Nat} (hpow : ∃ k, nsz = 2 ^ k)
    (hlt : t.a.length < nsz) : ∀ {is : List Nat} {nv : Nat → Option Nat} {dom : Nat → Prop}, is.Nodup →
    Index hash t.a nv nsz dom → (∀ j, dom j → j < t.a.length) → (∀ i ∈ is, ∀ j, t.v i = some j → ¬ dom j) →
    ∃ nv', rehashLoop hash t.a t.v nsz is nv = some nv' ∧
      Index hash t.a nv' nsz (fun j => dom j ∨ ∃ i ∈ is, t.v i = some j) := by
  intro is
  induction is with
  | nil =>
    intro nv dom _ hX _ _
    exact ⟨nv, rfl, by simpa using hX⟩
  | cons i is ih =>
    intro nv dom hnd hX hd hfresh
    rw [List.nodup_cons] at hnd
    rw [rehashLoop]
    match e : t.v i with
    | none =>
      dsimp only
      obtain ⟨nv', g1, g2⟩ := ih hnd.2 hX hd (fun i' hi' => hfresh i' (by simp [hi']))
      refine ⟨nv', g1, ?_⟩
      have : (fun j => dom j ∨ ∃ i' ∈ i :: is, t.v i' = some j) = (fun j => dom j ∨ ∃ i' ∈ is, t.v i' = some j) := by
        funext j; simp [e]
      rw [this]; exact g2
    | some j =>
      have hj := (hI.idx.range i j e).2.1
      have hjn : t.a[j]? = some t.a[j] := List.getElem?_eq_getElem hj
      obtain ⟨k, hk⟩ := hpow
      have hc : hash t.a[j] % nsz < nsz := Nat.mod_lt _ (by omega)
      obtain ⟨tf, hf1, hf2⟩ := exists_free hX hlt hc
      obtain ⟨t', _, g2, g3, g4, g5⟩ := probeFree_spec (n := nsz) (t0 := 0) hc (Nat.zero_le tf) hf1 (by omega) hf2
      rw [slot_zero] at g3
      have hX' := hX.store (List.prefix_refl _) hjn (hfresh i (by simp) j e) g2 g4 (fun s hs => g5 s (Nat.zero_le _) hs) hd
      have hland : hash t.a[j] &&& (nsz - 1) = hash t.a[j] % nsz := by rw [hk]; exact land_mod _
      obtain ⟨nv', e1, e2⟩ := ih hnd.2 hX'
        (by
          rintro x (hx | rfl)
          · exact hd x hx
          · exact hj)
        (by
          rintro i' hi' j' hj' (hx | rfl)
          · exact hfresh i' (by simp [hi']) j' hj' hx
          · have := hI.idx.inj i i' j' e hj'
            subst this; exact hnd.1 hi')
      refine ⟨nv', ?_, ?_⟩
      · simp only [hjn, Option.bind_eq_bind, Option.bind_some, hland, g3]
        exact e1
      · have : (fun j_1 => dom j_1 ∨ ∃ i' ∈ i :: is, t.v i' = some j_1) =
            (fun k => (dom k ∨ k = j) ∨ ∃ i' ∈ is, t.v i' = some k) := by
          funext x
          simp only [List.mem_cons, exists_eq_or_imp, e, Option.some.injEq, eq_iff_iff]
          constructor
          · rintro (h | h | h)
            · exact Or.inl (Or.inl h)
            · exact Or.inl (Or.inr h.symm)
            · exact Or.inr h
          · rintro ((h | h) | h)
            · exact Or.inl h
            · exact Or.inr (Or.inl h.symm)
            · exact Or.inr (Or.inr h)
        rw [this]; exact e2

theorem index_empty {hash : α → Nat} {a : List α} {sz : Nat} (h : 0 < sz) : Index hash a (fun _ => none) sz (fun _ => False) :=
  ⟨h, by simp, by simp, by simp⟩

/-- one call: the table behaves as the list of its names -/
theorem intern_spec (hash : α → Nat) (t : Table α) (hI : t = empty ∨ Inv hash t) (name : α) :
    ∃ t' s, intern hash t name = some (t', s) ∧ Inv hash t' ∧ t'.a[s]? = some name ∧
      t'.a = if name ∈ t.a then t.a else t.a ++ [name] := by
  rcases hI with rfl | hI
  · refine ⟨_, _, by rw [intern, if_pos (show (empty : Table α).sz = 0 from rfl)], ?_, ?_, ?_⟩
    · have h64 : hash name &&& (64 - 1) = slot 64 (hash name % 64) 0 := by
        rw [slot_zero]; exact land_mod (k := 6) _
      have := (index_empty (hash := hash) (a := []) (sz := 64) (by omega)).store (b := [name]) (j := 0) (t := 0) (n := name)
        (List.nil_prefix) rfl (by simp) (by omega) rfl (by simp) (by simp)
      refine ⟨⟨5, rfl⟩, ?_, by simp [store], rfl, by simp [store]⟩
      simp only [store, List.length_nil, List.nil_append, h64]
      have e : (fun j => j < [name].length) = (fun k => False ∨ k = 0) := by
        funext j; simp [Nat.lt_one_iff]
      rw [e]; exact this
    · simp [store]
    · simp [store, empty]
  · have hsz := hI.idx.pos
    obtain ⟨k, hk⟩ := hI.pow
    have hland : hash name &&& (t.sz - 1) = hash name % t.sz := by rw [hk]; exact land_mod _
    have hlt : t.a.length < t.sz := by
      have := hI.le; rw [hI.maxu] at this; omega
    rw [intern, if_neg (by omega)]
    rcases probe_spec hI name with ⟨j, h1, h2⟩ | ⟨h1, s, h2, h3, h4, h5⟩
    · refine ⟨t, j, ?_, hI, h1, ?_⟩
      · simp only [hland, h2, Option.bind_eq_bind, Option.bind_some]
      · rw [if_pos (List.mem_of_getElem? h1)]
    · simp only [hland, h3, Option.bind_eq_bind, Option.bind_some]
      rw [if_neg h1]
      have hnd' : (t.a ++ [name]).Nodup := by
        rw [List.nodup_append]
        refine ⟨hI.nodup, by simp, ?_⟩
        rintro a ha b hb rfl
        rw [List.mem_singleton] at hb; subst hb; exact h1 ha
      have hdom : (fun j => j < (t.a ++ [name]).length) = (fun j => j < t.a.length ∨ j = t.a.length) := by
        funext j; simp; omega
      have hlast : (t.a ++ [name])[t.a.length]? = some name := by simp
      by_cases hfull : t.a.length = t.maxu
      · rw [if_pos hfull]
        obtain ⟨nv, e1, e2⟩ := rehash_spec hI (nsz := t.sz * 2) ⟨k + 2, by rw [hk]; ring⟩ (by omega) (is := List.range t.sz)
          (nv := fun _ => none) (dom := fun _ => False) List.nodup_range (index_empty (by omega)) (by simp) (by simp)
        have hd : (fun j => False ∨ ∃ i ∈ List.range t.sz, t.v i = some j) = (fun j => j < t.a.length) := by
          funext j
          simp only [false_or, List.mem_range, eq_iff_iff]
          constructor
          · rintro ⟨i, _, hi⟩; exact (hI.idx.range i j hi).2.1
          · intro hj
            obtain ⟨x, hx1, hx2, _⟩ := hI.idx.path j hj _ (List.getElem?_eq_getElem hj)
            exact ⟨_, (hI.idx.range _ _ hx2).1, hx2⟩
        rw [hd] at e2
        have hc : hash name % (t.sz * 2) < t.sz * 2 := Nat.mod_lt _ (by omega)
        obtain ⟨tf, f1, f2⟩ := exists_free e2 (by omega) hc
        obtain ⟨t', _, g2, g3, g4, g5⟩ := probeFree_spec (n := t.sz * 2) (t0 := 0) hc (Nat.zero_le tf) f1 (by omega) f2
        rw [slot_zero] at g3
        have hland2 : hash name &&& (t.sz * 2 - 1) = hash name % (t.sz * 2) := by
          rw [hk, show 2 ^ (k + 1) * 2 = 2 ^ (k + 2) by ring]; exact land_mod _
        simp only [e1, Option.bind_some, hland2, g3]
        refine ⟨_, _, rfl, ⟨⟨k + 1, by simp only [store]; rw [hk]; ring⟩, ?_, hnd', rfl, ?_⟩, hlast, rfl⟩
        · simp only [store, hdom]
          exact e2.store (List.prefix_append _ _) hlast (by simp) g2 g4 (fun s hs => g5 s (Nat.zero_le _) hs) (fun _ h => h)
        · simp only [store, List.length_append, List.length_singleton]
          have := hI.maxu
          omega
      · rw [if_neg hfull]
        refine ⟨_, _, rfl, ⟨⟨k, hk⟩, ?_, hnd', hI.maxu, ?_⟩, hlast, rfl⟩
        · simp only [store, hdom]
          exact hI.idx.store (List.prefix_append _ _) hlast (by simp) h2 h4 h5 (fun _ h => h)
        · simp only [store, List.length_append, List.length_singleton]
          have := hI.le
          omega

theorem internAll_spec (hash : α → Nat) (ns : List α) : ∀ (t : Table α), (t = empty ∨ Inv hash t) →
    ∃ t' ss, internAll hash t ns = some (t', ss) ∧ (t' = empty ∨ Inv hash t') ∧ t.a <+: t'.a ∧ t'.a.Nodup ∧
      ss.length = ns.length ∧ (∀ (i : Nat) (n : α) (s : Nat), ns[i]? = some n → ss[i]? = some s → t'.a[s]? = some n) ∧
      (∀ x ∈ t'.a, x ∈ t.a ∨ x ∈ ns) := by
  induction ns with
  | nil =>
    intro t hI
    refine ⟨t, [], rfl, hI, List.prefix_refl _, ?_, rfl, by simp, fun x hx => Or.inl hx⟩
    rcases hI with rfl | hI
    · simp [empty]
    · exact hI.nodup
  | cons n ns ih =>
    intro t hI
    obtain ⟨t1, s, e1, e2, e3, e4⟩ := intern_spec hash t hI n
    obtain ⟨t2, ss, g1, g2, g3, g4, g5, g6, g7⟩ := ih t1 (Or.inr e2)
    have hpre : t.a <+: t1.a := by
      rw [e4]; split
      · exact List.prefix_refl _
      · exact List.prefix_append _ _
    refine ⟨t2, s :: ss, ?_, g2, hpre.trans g3, g4, by simp [g5], ?_, ?_⟩
    · simp only [internAll, e1, g1, Option.bind_eq_bind, Option.bind_some]
    · intro i m s' hm hs'
      cases i with
      | zero =>
        simp only [List.getElem?_cons_zero, Option.some.injEq] at hm hs'
        subst hm hs'
        obtain ⟨w, hw⟩ := g3
        rw [← hw, List.getElem?_append_left]
        · exact e3
        · rw [List.getElem?_eq_some_iff] at e3; exact e3.1
      | succ i => exact g6 i m s' (by simpa using hm) (by simpa using hs')
    · intro x hx
      rcases g7 x hx with h | h
      · rw [e4] at h
        split at h
        · exact Or.inl h
        · rcases List.mem_append.1 h with h | h
          · exact Or.inl h
          · right; simp at h; simp [h]
      · right; simp [h]

/-- C09: whatever the hash function and the history of calls, starting from the empty table every call returns
(all probe loops terminate), two calls return the same symbol iff their names are equal, and the name of each symbol
returned during the history is, at the end, still the name it was interned under. -/
theorem c09_intern (hash : α → Nat) (ns : List α) :
    ∃ t ss, internAll hash empty ns = some (t, ss) ∧ ss.length = ns.length ∧
      (∀ (i : Nat) (n : α) (s : Nat), ns[i]? = some n → ss[i]? = some s → symbolname t s = some n) ∧
      (∀ (i j : Nat) (ni nj : α) (si sj : Nat), ns[i]? = some ni → ns[j]? = some nj → ss[i]? = some si → ss[j]? = some sj →
        (si = sj ↔ ni = nj)) := by
  obtain ⟨t, ss, e1, e2, e3, e4, e5, e6, e7⟩ := internAll_spec hash ns empty (Or.inl rfl)
  refine ⟨t, ss, e1, e5, e6, ?_⟩
  intro i j ni nj si sj h1 h2 h3 h4
  have a1 := e6 i ni si h1 h3
  have a2 := e6 j nj sj h2 h4
  constructor
  · rintro rfl
    rw [a1] at a2; simpa using a2
  · rintro rfl
    rw [List.getElem?_eq_some_iff] at a1 a2
    obtain ⟨p1, p2⟩ := a1
    obtain ⟨q1, q2⟩ := a2
    exact (List.Nodup.getElem_inj_iff e4).1 (p2.trans q2.symm)

/-- C09: a symbol returned early keeps its name in every later table (also across growth of the table): interning more
names only extends the list of names. -/
theorem c09_stable (hash : α → Nat) (ns ms : List α) (t : Table α) (ss : List Nat)
    (h : internAll hash empty ns = some (t, ss)) :
    ∃ t' ss', internAll hash t ms = some (t', ss') ∧ ∀ s n, symbolname t s = some n → symbolname t' s = some n := by
  obtain ⟨t0, ss0, e1, e2, _⟩ := internAll_spec hash ns empty (Or.inl rfl)
  rw [h] at e1
  simp only [Option.some.injEq, Prod.mk.injEq] at e1
  obtain ⟨rfl, rfl⟩ := e1
  obtain ⟨t', ss', g1, g2, g3, _⟩ := internAll_spec hash ms t e2
  refine ⟨t', ss', g1, ?_⟩
  intro s n hs
  obtain ⟨w, hw⟩ := g3
  unfold symbolname at *
  rw [← hw, List.getElem?_append_left]
  · exact hs
  · rw [List.getElem?_eq_some_iff] at hs; exact hs.1

/-- C09: no symbols are made up: the table holds exactly the names interned. -/
theorem c09_exact (hash : α → Nat) (ns : List α) (t : Table α) (ss : List Nat)
    (h : internAll hash empty ns = some (t, ss)) (n : α) : (∃ s, symbolname t s = some n) ↔ n ∈ ns := by
  obtain ⟨t0, ss0, e1, _, _, _, e5, e6, e7⟩ := internAll_spec hash ns empty (Or.inl rfl)
  rw [h] at e1
  simp only [Option.some.injEq, Prod.mk.injEq] at e1
  obtain ⟨rfl, rfl⟩ := e1
  constructor
  · rintro ⟨s, hs⟩
    rcases e7 n (List.mem_of_getElem? hs) with hx | hx
    · simp [empty] at hx
    · exact hx
  · intro hn
    obtain ⟨i, hi⟩ := List.getElem?_of_mem hn
    have hil : i < ns.length := by rw [List.getElem?_eq_some_iff] at hi; exact hi.1
    exact ⟨_, e6 i n _ hi (List.getElem?_eq_getElem (by omega : i < ss.length))⟩

/-- `prev` is the C expression `(i-1) & (sz-1)` on 64-bit `size_t`. -/
theorem prev_eq (k i : Nat) (hk : k ≤ 63) (hi : i < 2 ^ k) :
    ((BitVec.ofNat 64 i - 1) &&& (BitVec.ofNat 64 (2 ^ k) - 1)).toNat = prev (2 ^ k) i := by
  have h63 : 2 ^ k ≤ 2 ^ 63 := Nat.pow_le_pow_right (by omega) hk
  have hpos : 0 < 2 ^ k := Nat.two_pow_pos k
  have e1 : (BitVec.ofNat 64 (2 ^ k) - 1).toNat = 2 ^ k - 1 := by
    simp only [BitVec.toNat_sub, BitVec.toNat_ofNat, show BitVec.toNat (1 : BitVec 64) = 1 from rfl]; omega
  rw [BitVec.toNat_and, e1, land_mod]
  have e2 : (BitVec.ofNat 64 i - 1).toNat = (2 ^ 64 - 1 + i) % 2 ^ 64 := by
    simp only [BitVec.toNat_sub, BitVec.toNat_ofNat, show BitVec.toNat (1 : BitVec 64) = 1 from rfl]; omega
  rw [e2, Nat.mod_mod_of_dvd _ (Nat.pow_dvd_pow 2 (by omega : k ≤ 64))]
  unfold prev
  obtain ⟨d, hd⟩ : 2 ^ k ∣ 2 ^ 64 := Nat.pow_dvd_pow 2 (by omega)
  by_cases h0 : i = 0
  · subst h0
    rw [if_pos rfl, Nat.add_zero, hd]
    obtain ⟨d, rfl⟩ : ∃ e, d = e + 1 := ⟨d - 1, by rcases d with _ | d; · omega
                                                   · omega⟩
    rw [show 2 ^ k * (d + 1) - 1 = 2 ^ k - 1 + 2 ^ k * d by rw [Nat.mul_add]; omega, Nat.add_mul_mod_self_left,
      Nat.mod_eq_of_lt (by omega)]
  · rw [if_neg h0, show 2 ^ 64 - 1 + i = i - 1 + 2 ^ k * d by rw [← hd]; omega, Nat.add_mul_mod_self_left,
      Nat.mod_eq_of_lt (by omega)]

/-- a history with repetitions and all names colliding -/
example : (internAll (fun _ : String => 7) empty ["a", "b", "a", "c", "b"]).map (·.2) = some [0, 1, 0, 2, 1] := by decide
/-- a history long enough to make the table grow (70 names, constant hash) -/
example : (internAll (fun _ : Nat => 5) empty (List.range 70 ++ [3, 69])).map (fun r => (r.1.sz, r.2.drop 68)) =
    some (256, [68, 69, 3, 69]) := by decide +kernel

end Verif.Symt

import Verif.Gc.Hgc
import Verif.Gc.Mask
/-
C17: garbage collection preserves the reachable data.
C18: finalizers run exactly once and only for garbage.
C19: an allocation request always gets its space.

The hypotheses: `Good`, a well-formed state of the program (established by the
start of the program, `c17_start`, and again by every collection), and `Fresh`,
that `realloc` does not return memory in use.
-/
namespace Verif.Gc

/-- At the start of the program there is no heap; any root cells holding foreign
words make a well-formed state. -/
theorem c17_start (ext : Nat → Prop) (R : Roots) (m : Mem) (h : ∀ p ∈ R.cells, ext (m p)) :
    Good ext R ⟨0, 0, 0⟩ m 0 [] := by
  refine ⟨⟨by simp, rfl, fun p hp => Or.inl (h p hp), by simp, by simp⟩, Or.inl (by simp), ?_, ?_,
    Or.inr rfl⟩ <;>
  · constructor
    · intro p _ hp; simp only [Space.Has, Space.lim] at hp; omega
    · intro v _; rw [← Bool.not_eq_true, inSp_iff]; simp only [Space.lim]; omega

/-- C17: a collection succeeds, leaves a well-formed state, and the new heap holds
exactly the data reachable before, up to a renaming of block addresses. -/
theorem c17_collect {ext R v m hp as A1 A2} (G : Good ext R v m hp as)
    (fr : Fresh ext R v A1 A2) (needs : Nat) :
    ∃ v' m' hp' frees as' f, hgc R A1 A2 v hp needs m = some (v', m', hp', frees) ∧
      Good ext R v' m' hp' as' ∧ Iso R m as m' as' f := by
  obtain ⟨v', m', hp', as', f, h1, h2, h3, _⟩ := hgc_spec G fr needs
  exact ⟨v', m', hp', _, as', f, h1, h2, h3⟩

/-- C17: memory outside the heap spaces and the roots is left alone. -/
theorem c17_frame {ext R v m hp as A1 A2} (G : Good ext R v m hp as)
    (fr : Fresh ext R v A1 A2) (needs : Nat) :
    ∃ v' m' hp' frees, hgc R A1 A2 v hp needs m = some (v', m', hp', frees) ∧
      ∀ c, ¬ Space.Has ⟨v.heap, v.hsize⟩ c → ¬ Space.Has ⟨v.heap2, v.hsize⟩ c →
        ¬ Space.Has ⟨v'.heap, v'.hsize⟩ c → ¬ Space.Has ⟨v'.heap2, v'.hsize⟩ c → c ∉ R.cells →
        m' c = m c := by
  obtain ⟨v', m', hp', as', f, h1, _, _, _, _, h6⟩ := hgc_spec G fr needs
  exact ⟨v', m', hp', _, h1, h6⟩

/-- C17: the mask expression of the C code is the test used in the model, for
every space of `2 ^ k` words (131072 times a power of two, by `c19_reserve`). -/
theorem c17_mask (S : Space) (k o : Nat) (hs : S.size = 2 ^ k) (hk : k + 3 < 64)
    (hlim : 8 * S.lim ≤ 2 ^ 64) (ho : o < 2 ^ 64) :
    maskTest (BitVec.ofNat 64 o) (BitVec.ofNat 64 (8 * S.base)) (BitVec.ofNat 64 S.size) =
      inSp S o := maskTest_eq S k o hs hk hlim ho

/-- C18: the deallocator calls of a collection are those for the unreachable
native blocks, one each. -/
theorem c18_finalize {ext R v m hp as A1 A2} (G : Good ext R v m hp as)
    (fr : Fresh ext R v A1 A2) (needs : Nat) :
    ∃ (v' : Vars) (m' : Mem) (hp' : Nat) (l : List Nat), hgc R A1 A2 v hp needs m =
        some (v', m', hp', l.map fun a => (m (a - 1), m a)) ∧
      l.Nodup ∧ ∀ a, a ∈ l ↔ a ∈ as ∧ m (a - 1) % 2 = 0 ∧ ¬ Reach m R as a := by
  classical
  obtain ⟨v', m', hp', as', f, h1, _⟩ := hgc_spec G fr needs
  refine ⟨v', m', hp', as.filter fun a => decide (m (a - 1) % 2 = 0 ∧ ¬ Reach m R as a), ?_, ?_, ?_⟩
  · rw [h1, garbage]
  · exact G.wf.tiles.nodup.filter _
  · intro a; simp [List.mem_filter]

/-- C18: the native objects that are kept are never passed to a deallocator,
provided different native blocks have different contents. -/
theorem c18_kept {ext R v m hp as A1 A2} (G : Good ext R v m hp as)
    (fr : Fresh ext R v A1 A2) (needs : Nat)
    (hd : ∀ a ∈ as, ∀ b ∈ as, m (a - 1) % 2 = 0 → m (b - 1) % 2 = 0 → m a = m b → a = b) :
    ∃ v' m' hp' frees, hgc R A1 A2 v hp needs m = some (v', m', hp', frees) ∧
      ∀ a, Reach m R as a → m (a - 1) % 2 = 0 → ∀ x ∈ frees, x.2 ≠ m a := by
  obtain ⟨v', m', hp', l, h1, h2, h3⟩ := c18_finalize G fr needs
  refine ⟨v', m', hp', _, h1, ?_⟩
  intro a ha he x hx heq
  obtain ⟨b, hb, rfl⟩ := List.mem_map.1 hx
  obtain ⟨hb1, hb2, hb3⟩ := (h3 b).1 hb
  have := hd a ha.mem b hb1 he hb2 heq.symm
  subst this
  exact hb3 ha

/-- C19: after `hreserve(n, …)` there are `n` free words below `hp`, in a
well-formed state (in particular the live data fills the space from `hp` to its
end), and the size is the old one or a power-of-two multiple of 131072. -/
theorem c19_reserve {ext R v m hp as A1 A2} (G : Good ext R v m hp as)
    (fr : Fresh ext R v A1 A2) (n : Nat) :
    ∃ v' m' hp' frees as', hreserve R A1 A2 v hp n m = some (v', m', hp', frees) ∧
      Good ext R v' m' hp' as' ∧ v'.heap + n ≤ hp' ∧
      Tiles m' hp' (v'.heap + v'.hsize) as' ∧
      (v'.hsize = v.hsize ∨ ∃ k, v'.hsize = 131072 * 2 ^ k) := by
  unfold hreserve
  by_cases h : hp < v.heap + n
  · rw [if_pos h]
    obtain ⟨v', m', hp', as', f, h1, h2, _, h4, h5, _⟩ := hgc_spec G fr n
    exact ⟨v', m', hp', _, as', h1, h2, h4, h2.wf.tiles, h5⟩
  · rw [if_neg h]
    exact ⟨v, m, hp, [], as, rfl, G, by omega, G.wf.tiles, Or.inl rfl⟩

/-- C19: the size search ends at the first sufficient power-of-two multiple. -/
theorem c19_size (needs : Nat) :
    ∃ k, findSize heapSize needs = 131072 * 2 ^ k ∧ needs ≤ 131072 * 2 ^ k ∧
      (k = 0 ∨ 131072 * 2 ^ (k - 1) < needs) := by
  have key : ∀ (n s : Nat), needs - s = n → 0 < s →
      ∃ k, findSize s needs = s * 2 ^ k ∧ needs ≤ s * 2 ^ k ∧ (k = 0 ∨ s * 2 ^ (k - 1) < needs) := by
    intro n
    induction n using Nat.strongRecOn with
    | ind n ih =>
      intro s hn hs
      rw [findSize]
      by_cases h : s < needs
      · rw [if_pos ⟨h, hs⟩]
        obtain ⟨k, h1, h2, h3⟩ := ih (needs - s * 2) (by omega) (s * 2) rfl (by omega)
        have e : s * 2 * 2 ^ k = s * 2 ^ (k + 1) := by
          rw [Nat.pow_succ, Nat.mul_assoc, Nat.mul_comm 2]
        refine ⟨k + 1, by rw [h1, e], by rw [← e]; exact h2, Or.inr ?_⟩
        rw [Nat.add_sub_cancel]
        rcases h3 with h3 | h3
        · subst h3; simpa using h
        · cases k with
          | zero => simpa using h
          | succ k =>
            rw [Nat.add_sub_cancel] at h3
            rw [show s * 2 ^ (k + 1) = s * 2 * 2 ^ k by
              rw [Nat.pow_succ, Nat.mul_assoc, Nat.mul_comm 2]]
            exact h3
      · rw [if_neg (by omega)]
        exact ⟨0, by simp, by simp; omega, Or.inl rfl⟩
  exact key _ heapSize rfl (by decide)

/-! ### A concrete instance -/

/-- A register at 10 pointing to a block of two words at 105, the first of which
points to the block itself; an unreachable native block at 103. -/
def exMem : Mem := fun c =>
  if c = 10 then 8 * 105
  else if c = 102 then 8 else if c = 103 then 16
  else if c = 104 then 5 else if c = 105 then 8 * 105 else 7

def exExt (v : Nat) : Prop := v % 2 = 1 ∨ v = 8 ∨ v = 16
def exRoots : Roots := ⟨10, 11, []⟩

theorem exCells {p : Nat} (h : p ∈ exRoots.cells) : p = 10 := by
  simp [Roots.cells, exRoots] at h; exact h

theorem exApart (S : Space) (h : 100 ≤ S.base) : Apart exExt exRoots S := by
  constructor
  · intro p hp h'
    have := exCells hp
    simp only [Space.Has] at h'
    omega
  · intro v hv
    rw [← Bool.not_eq_true, inSp_iff]
    rcases hv with h | h | h <;> omega

-- the hypotheses of C17, C18, C19 are met
theorem exGood : Good exExt exRoots ⟨100, 200, 7⟩ exMem 102 [103, 105] := by
  refine ⟨⟨by decide, ⟨rfl, by decide, rfl, by decide, rfl⟩, ?_, ?_, ?_⟩, Or.inl (by decide),
    exApart _ (by decide), exApart _ (by decide), Or.inl ⟨by decide, by decide⟩⟩
  · intro p hp
    rw [exCells hp]
    exact Or.inr ⟨105, by simp, rfl⟩
  · intro a ha ho i hi
    simp only [List.mem_cons, List.not_mem_nil, or_false] at ha
    rcases ha with rfl | rfl
    · exact absurd ho (by decide)
    · have : len exMem 105 = 2 := rfl
      rw [this] at hi
      have : i = 0 ∨ i = 1 := by omega
      rcases this with rfl | rfl
      · exact Or.inr ⟨105, by simp, rfl⟩
      · exact Or.inl (Or.inl rfl)
  · intro a ha ho
    simp only [List.mem_cons, List.not_mem_nil, or_false] at ha
    rcases ha with rfl | rfl
    · exact ⟨Or.inr (Or.inl rfl), by decide, Or.inr (Or.inr rfl)⟩
    · exact absurd ho (by decide)

theorem exFresh : Fresh exExt exRoots ⟨100, 200, 7⟩ (fun _ => ⟨1000, fun _ => 99⟩)
    (fun s => ⟨1000 + s, fun _ => 98⟩) := by
  refine ⟨by simp, by simp, fun s => exApart _ (by simp), fun s => exApart _ (by simp; omega),
    fun s => Or.inl ?_, fun s => Or.inl ?_⟩
  · simp [Space.lim]
  · simp [Space.lim]

example : ∃ v' m' hp' frees as', hreserve exRoots (fun _ => ⟨1000, fun _ => 99⟩)
      (fun s => ⟨1000 + s, fun _ => 98⟩) ⟨100, 200, 7⟩ 102 1000 exMem =
      some (v', m', hp', frees) ∧ Good exExt exRoots v' m' hp' as' ∧ v'.heap + 1000 ≤ hp' := by
  obtain ⟨v', m', hp', frees, as', h1, h2, h3, _⟩ := c19_reserve exGood exFresh 1000
  exact ⟨v', m', hp', frees, as', h1, h2, h3⟩

end Verif.Gc

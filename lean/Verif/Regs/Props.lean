import Verif.Regs.Model

/-
C20: register file growth preserves registers.

The loop of `cxm_rgc` always copies `needs` words starting at `r`, so it reads
past the end of the file whenever `r` is not at its start and
`r + needs > cxg_rend`, which is exactly when `rreserve` calls it.  With
out-of-bounds reads undefined, C20 is therefore false (`c20_counterexample`).
On a machine where such reads are harmless the property holds in full
(`c20_rgc_partial`, `c20_rreserve_partial`), and without that assumption when no
read is out of bounds (`c20_strict_partial`).
-/

namespace Verif.Regs

/-- Out-of-bounds reads are undefined behaviour. -/
def strict : Nat → Option (Option Int) := fun _ => none

/-- Out-of-bounds reads give some unspecified word. -/
def lenient (g : Nat → Option Int) : Nat → Option (Option Int) := fun i => some (g i)

/-- The full property: reserving `m` registers always succeeds, keeps the
`live` registers that start at `r`, and makes `m` registers available. -/
def C20Full : Prop :=
  ∀ (f : File) (r m live : Nat), 0 < m → live ≤ m → r + live ≤ f.size →
    ∃ f' r', rreserve strict f r m = some (f', r') ∧
      (∀ i, i < live → f'.words[r' + i]? = f.words[r + i]?) ∧ r' + m ≤ f'.size

theorem size_grow (f : File) (n : Nat) (h : f.size < n) : (grow f n).size = n := by
  simp only [grow, File.size] at *
  simp; omega

theorem get_grow (f : File) (n i : Nat) (h : f.size < n) (hi : i < f.size) :
    (grow f n).words[i]? = f.words[i]? := by
  simp only [grow, File.size] at *
  rw [List.getElem?_append_left (by simp; omega), List.getElem?_take_of_lt (by omega)]

/-- The copying loop, when it does not fail, moves the words at
`i + off, …, i + off + n - 1` down by `off`, and changes nothing else. -/
theorem shiftLoop_spec (over : Nat → Option (Option Int)) (off : Nat) (hoff : 0 < off) :
    ∀ (n i : Nat) (f f' : File), shiftLoop over off i n f = some f' →
      f'.size = f.size ∧
      (∀ j, i ≤ j → j < i + n → f'.words[j]? = readAt over f (j + off)) ∧
      (∀ j, j < i ∨ i + n ≤ j → f'.words[j]? = f.words[j]?) := by
  intro n
  induction n with
  | zero =>
    intro i f f' h
    simp only [shiftLoop, Option.some.injEq] at h
    subst h
    exact ⟨rfl, fun j h1 h2 => by omega, fun _ _ => rfl⟩
  | succ n ih =>
    intro i f f' h
    rw [shiftLoop] at h
    cases e : readAt over f (i + off) with
    | none => simp [e] at h
    | some w =>
      simp only [e] at h
      by_cases hi : i < f.size
      · rw [if_pos hi] at h
        obtain ⟨h1, h2, h3⟩ := ih (i + 1) ⟨f.words.set i w⟩ f' h
        have hsz : (File.mk (f.words.set i w)).size = f.size := by simp [File.size]
        refine ⟨h1.trans hsz, ?_, ?_⟩
        · intro j hj1 hj2
          by_cases hj : j = i
          · subst hj
            rw [h3 j (Or.inl (by omega)), e]
            simp only [File.size] at hi
            simp [hi]
          · rw [h2 j (by omega) (by omega)]
            simp only [readAt]
            rw [List.getElem?_set_ne (by omega)]
        · intro j hj
          rw [h3 j (by omega)]
          rw [List.getElem?_set_ne (by omega)]
      · rw [if_neg hi] at h; exact absurd h (by simp)

/-- The copying loop succeeds if its stores and reads are all allowed. -/
theorem shiftLoop_some (over : Nat → Option (Option Int)) (off : Nat) :
    ∀ (n i : Nat) (f : File), i + n ≤ f.size →
      (∀ j, f.size ≤ j → j < i + n + off → (over j).isSome) →
      ∃ f', shiftLoop over off i n f = some f' := by
  intro n
  induction n with
  | zero => intro i f _ _; exact ⟨f, rfl⟩
  | succ n ih =>
    intro i f hs ho
    have : ∃ w, readAt over f (i + off) = some w := by
      unfold readAt
      by_cases hlt : i + off < f.words.length
      · rw [List.getElem?_eq_getElem hlt]; exact ⟨_, rfl⟩
      · rw [List.getElem?_eq_none (by omega)]
        exact Option.isSome_iff_exists.1 (ho _ (by simp [File.size]; omega) (by omega))
    obtain ⟨w, hw⟩ := this
    rw [shiftLoop, hw]
    simp only
    rw [if_pos (by omega)]
    have hsz : (File.mk (f.words.set i w)).size = f.size := by simp [File.size]
    refine ih (i + 1) _ (by omega) ?_
    intro j h1 h2
    exact ho j (by omega) (by omega)

theorem readAt_in (over : Nat → Option (Option Int)) (f : File) (i : Nat) (h : i < f.size) :
    readAt over f i = f.words[i]? := by
  unfold readAt
  simp only [File.size] at h
  rw [List.getElem?_eq_getElem h]

/-- The common core of the three theorems. -/
theorem rgc_core (over : Nat → Option (Option Int)) (f : File) (r needs live : Nat)
    (hn : 0 < needs) (hl : live ≤ needs) (hr : r + live ≤ f.size)
    (ho : 0 < r → ∀ j, max f.size needs ≤ j → j < needs + r → (over j).isSome) :
    ∃ f', rgc over (some f) (some r) needs = some f' ∧
      (∀ i, i < live → f'.words[i]? = f.words[r + i]?) ∧ f'.size = max f.size needs := by
  have hn0 : needs ≠ 0 := by omega
  simp only [rgc, if_neg hn0, Option.getD_some]
  generalize hg : (if f.size < needs then grow f needs else f) = g
  have hgs : g.size = max f.size needs := by
    by_cases h : f.size < needs
    · rw [if_pos h] at hg; rw [← hg, size_grow f needs h]; omega
    · rw [if_neg h] at hg; rw [← hg]; omega
  have hgw : ∀ i, i < f.size → g.words[i]? = f.words[i]? := by
    intro i hi
    by_cases h : f.size < needs
    · rw [if_pos h] at hg; rw [← hg, get_grow f needs i h hi]
    · rw [if_neg h] at hg; rw [← hg]
  by_cases h0 : 0 < r
  · rw [if_pos h0]
    obtain ⟨f', hf'⟩ := shiftLoop_some over r needs 0 g (by omega)
      (fun j h1 h2 => ho h0 j (by omega) (by omega))
    obtain ⟨h1, h2, _⟩ := shiftLoop_spec over r h0 needs 0 g f' hf'
    refine ⟨f', hf', ?_, by omega⟩
    intro i hi
    rw [h2 i (by omega) (by omega), readAt_in over g (i + r) (by omega), hgw _ (by omega),
      Nat.add_comm]
  · rw [if_neg h0]
    refine ⟨g, rfl, ?_, hgs⟩
    intro i hi
    have : r = 0 := by omega
    subst this
    rw [hgw i (by omega), Nat.zero_add]

/-- C20 for `cxm_rgc`, on a machine where over-reads are harmless (missing: the
over-reads themselves, which C leaves undefined): every register that was live
at `r + i` is found at offset `i` from the returned pointer, and at least
`needs` registers are available. -/
theorem c20_rgc_partial (g : Nat → Option Int) (f : File) (r needs live : Nat)
    (hn : 0 < needs) (hl : live ≤ needs) (hr : r + live ≤ f.size) :
    ∃ f', rgc (lenient g) (some f) (some r) needs = some f' ∧
      (∀ i, i < live → f'.words[i]? = f.words[r + i]?) ∧
      f'.size = max f.size needs :=
  rgc_core (lenient g) f r needs live hn hl hr (fun _ _ _ _ => rfl)

/-- C20 for `rreserve`, on a machine where over-reads are harmless. -/
theorem c20_rreserve_partial (g : Nat → Option Int) (f : File) (r m live : Nat)
    (hn : 0 < m) (hl : live ≤ m) (hr : r + live ≤ f.size) :
    ∃ f' r', rreserve (lenient g) f r m = some (f', r') ∧
      (∀ i, i < live → f'.words[r' + i]? = f.words[r + i]?) ∧ r' + m ≤ f'.size := by
  unfold rreserve
  by_cases h : r + m ≥ f.size
  · rw [if_pos h]
    obtain ⟨f', h1, h2, h3⟩ := c20_rgc_partial g f r m live hn hl hr
    exact ⟨f', 0, by rw [h1]; rfl, fun i hi => by rw [Nat.zero_add]; exact h2 i hi, by omega⟩
  · rw [if_neg h]
    exact ⟨f, r, rfl, fun _ _ => rfl, by omega⟩

/-- C20 with out-of-bounds reads undefined, for the requests on which no read is
out of bounds: `r` at the start of the file, or `needs` registers present. -/
theorem c20_strict_partial (f : File) (r needs live : Nat)
    (hn : 0 < needs) (hl : live ≤ needs) (hr : r + live ≤ f.size)
    (hin : r = 0 ∨ r + needs ≤ f.size) :
    ∃ f', rgc strict (some f) (some r) needs = some f' ∧
      (∀ i, i < live → f'.words[i]? = f.words[r + i]?) ∧
      f'.size = max f.size needs :=
  rgc_core strict f r needs live hn hl hr (fun h0 j h1 h2 => by omega)

/-- The first call, `cxm_rgc(NULL, REGS_SIZE)` (6.sf:620), makes `needs`
registers available. -/
theorem c20_initial (needs : Nat) (hn : 0 < needs) :
    ∃ f', rgc strict none none needs = some f' ∧ f'.size = needs := by
  have hn0 : needs ≠ 0 := by omega
  refine ⟨grow ⟨[]⟩ needs, ?_, size_grow ⟨[]⟩ needs (by simpa [File.size] using hn)⟩
  simp [rgc, hn0]

/-- Whenever `rreserve` has to move a window that does not start the file and
whose end is not exactly the end of the file, `cxm_rgc` reads outside it. -/
theorem c20_overread (f : File) (r m : Nat) (h0 : 0 < r) (hr : r ≤ f.size) (hm : 0 < m)
    (h : f.size < r + m) : rreserve strict f r m = none := by
  have hfit : r + m > max f.size m := by omega
  unfold rreserve
  rw [if_pos (by omega)]
  have hm0 : m ≠ 0 := by omega
  simp only [rgc, if_neg hm0, Option.getD_some, if_pos h0]
  generalize hg : (if f.size < m then grow f m else f) = g
  have hgs : g.size = max f.size m := by
    by_cases h : f.size < m
    · rw [if_pos h] at hg; rw [← hg, size_grow f m h]; omega
    · rw [if_neg h] at hg; rw [← hg]; omega
  cases e : shiftLoop strict r 0 m g with
  | none => rfl
  | some f' =>
    exfalso
    obtain ⟨h1, h2, _⟩ := shiftLoop_spec strict r h0 m 0 g f' e
    have := h2 (m - 1) (by omega) (by omega)
    unfold readAt at this
    have hnone : g.words[m - 1 + r]? = none :=
      List.getElem?_eq_none (by simp only [File.size] at hgs; rw [hgs]; simp only [File.size] at hfit; omega)
    rw [hnone] at this
    simp only [strict] at this
    rw [List.getElem?_eq_none_iff] at this
    have h3 : f'.size ≤ m - 1 := this
    omega

/-- C20 is false of the code: moving the window reads outside the file. -/
theorem c20_counterexample : ¬ C20Full := by
  intro h
  have hs : (File.mk (List.replicate 4092 (some 1))).size = 4092 := List.length_replicate
  obtain ⟨f', r', h1, _⟩ := h ⟨List.replicate 4092 (some 1)⟩ 4000 1024 5
    (by decide) (by decide) (by omega)
  rw [c20_overread _ 4000 1024 (by decide) (by omega) (by decide) (by omega)] at h1
  exact absurd h1 (by simp)

-- the hypotheses are met by a non-trivial state, and the move is a real one
example : ∃ f', rgc (lenient fun _ => none) (some ⟨[some 7, some 8, some 9, some 10]⟩) (some 2) 3
      = some f' ∧ f'.words = [some 9, some 10, none, some 10] := ⟨_, rfl, rfl⟩
example : ∃ f', rgc strict (some ⟨[some 7, some 8, some 9, some 10]⟩) (some 2) 2
      = some f' ∧ f'.words = [some 9, some 10, some 9, some 10] := ⟨_, rfl, rfl⟩
example : rgc strict (some ⟨[some 7, some 8, some 9, some 10]⟩) (some 2) 3 = none := rfl
example : ∃ f', rgc strict (some ⟨[some 7, some 8]⟩) (some 0) 3
      = some f' ∧ f'.words = [some 7, some 8, none] := ⟨_, rfl, rfl⟩

end Verif.Regs

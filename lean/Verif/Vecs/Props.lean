import Verif.Vecs.Model
/-
Property theorems C32.
-/
namespace Verif.Vecs

/-- `Wraps w x`: `w` is the datum `x` with each vector replaced by a one-element vector holding the (wrapped) list of
its elements. -/
inductive Wraps : D → D → Prop
  | nil : Wraps .nil .nil
  | ff : Wraps .ff .ff
  | atom (n) : Wraps (.atom n) (.atom n)
  | sym (s) : Wraps (.sym s) (.sym s)
  | pair {a b a' b'} : Wraps a a' → Wraps b b' → Wraps (.pair a b) (.pair a' b')
  | vec {s l} : Wraps s (ofList l) → Wraps (.vec [s]) (.vec l)

/-- `Strips s x`: the expander datum `s` stands for the source datum `x`: as `Wraps`, except that a symbol
may also be represented by a renamed identifier, a vector of two or more elements starting with the symbol
(2.sf:182-186). -/
inductive Strips : D → D → Prop
  | nil : Strips .nil .nil
  | ff : Strips .ff .ff
  | atom (n) : Strips (.atom n) (.atom n)
  | sym (s) : Strips (.sym s) (.sym s)
  | sid (s i r) : Strips (.vec (.sym s :: i :: r)) (.sym s)
  | pair {a b a' b'} : Strips a a' → Strips b b' → Strips (.pair a b) (.pair a' b')
  | vec {s l} : Strips s (ofList l) → Strips (.vec [s]) (.vec l)

theorem Wraps.strips {w x : D} (h : Wraps w x) : Strips w x := by
  induction h with
  | nil => exact .nil
  | ff => exact .ff
  | atom n => exact .atom n
  | sym s => exact .sym s
  | pair _ _ h1 h2 => exact .pair h1 h2
  | vec _ h => exact .vec h

theorem mv_eq (f : List D → Option D) (x : D) : mv f x = (do
    let m ← mv2 f x
    if truthy m then some m else some x) := by
  cases x <;> simp [mv, mv2, truthy]

/-- `mv2` returned `y`: either `y` itself (true), or #f and `x` is unchanged -/
def Got (f : List D → Option D) (x y : D) : Prop := ∃ m, mv2 f x = some m ∧ (if truthy m then m = y else x = y)

theorem Got.mv {f : List D → Option D} {x y : D} (h : Got f x y) : mv f x = some y := by
  obtain ⟨m, h1, h2⟩ := h
  rw [mv_eq, h1]
  simp only [Option.bind_eq_bind, Option.bind_some]
  by_cases ht : truthy m = true
  · rw [if_pos ht] at h2 ⊢; rw [h2]
  · rw [if_neg ht] at h2 ⊢; rw [h2]

theorem Got.pair {f : List D → Option D} {a b a' b' : D} (ha : Got f a a') (hb : Got f b b') :
    Got f (.pair a b) (.pair a' b') := by
  have hm := hb.mv
  obtain ⟨ma, h1, h2⟩ := ha
  obtain ⟨mb, h3, h4⟩ := hb
  unfold Got
  simp only [mv2, h1, h3, hm, Option.bind_eq_bind, Option.bind_some]
  by_cases ht : truthy ma = true
  · rw [if_pos ht] at h2 ⊢
    exact ⟨_, rfl, by simp [truthy, h2]⟩
  · rw [if_neg ht] at h2 ⊢
    by_cases hu : truthy mb = true
    · rw [if_pos hu] at h4 ⊢
      exact ⟨_, rfl, by simp [truthy, h2, h4]⟩
    · rw [if_neg hu] at h4 ⊢
      exact ⟨_, rfl, by rw [if_neg (by simp [truthy]), h2, h4]⟩

theorem toList_ofList (l : List D) : toList (ofList l) = some l := by
  induction l with
  | nil => rfl
  | cons x t ih => simp [ofList, toList, ih]

theorem sizeOf_ofList (l : List D) : sizeOf (ofList l) = sizeOf l := by
  induction l with
  | nil => rfl
  | cons x t ih => simp [ofList, ih]

theorem strips_got {s x : D} (h : Strips s x) : ∃ N, ∀ n ≥ N, Got (unwrapVec n) s x := by
  induction h with
  | nil => exact ⟨0, fun n _ => ⟨.ff, rfl, rfl⟩⟩
  | ff => exact ⟨0, fun n _ => ⟨.ff, rfl, rfl⟩⟩
  | atom k => exact ⟨0, fun n _ => ⟨.ff, rfl, rfl⟩⟩
  | sym k => exact ⟨0, fun n _ => ⟨.ff, rfl, rfl⟩⟩
  | sid s i r =>
    refine ⟨1, fun n hn => ?_⟩
    obtain ⟨k, rfl⟩ : ∃ k, n = k + 1 := ⟨n - 1, by omega⟩
    exact ⟨.sym s, by simp [mv2, unwrapVec], rfl⟩
  | pair _ _ h1 h2 =>
    obtain ⟨N1, h1⟩ := h1
    obtain ⟨N2, h2⟩ := h2
    exact ⟨N1 + N2, fun n hn => (h1 n (by omega)).pair (h2 n (by omega))⟩
  | @vec s l _ h =>
    obtain ⟨N, h⟩ := h
    refine ⟨N + 1, fun n hn => ?_⟩
    obtain ⟨k, rfl⟩ : ∃ k, n = k + 1 := ⟨n - 1, by omega⟩
    have := (h k (by omega)).mv
    exact ⟨.vec l, by simp [mv2, unwrapVec, mapVecs, this, toList_ofList], rfl⟩

theorem wraps_got : ∀ (k : Nat) (x : D), sizeOf x ≤ k → ∃ N w, Wraps w x ∧ ∀ n ≥ N, Got (wrapVec n) x w := by
  intro k
  induction k with
  | zero => intro x h; cases x <;> simp at h
  | succ k ih =>
    intro x h
    cases x with
    | nil => exact ⟨0, _, .nil, fun n _ => ⟨.ff, rfl, rfl⟩⟩
    | ff => exact ⟨0, _, .ff, fun n _ => ⟨.ff, rfl, rfl⟩⟩
    | atom a => exact ⟨0, _, .atom a, fun n _ => ⟨.ff, rfl, rfl⟩⟩
    | sym a => exact ⟨0, _, .sym a, fun n _ => ⟨.ff, rfl, rfl⟩⟩
    | pair a b =>
      simp at h
      obtain ⟨N1, w1, s1, g1⟩ := ih a (by omega)
      obtain ⟨N2, w2, s2, g2⟩ := ih b (by omega)
      exact ⟨N1 + N2, _, .pair s1 s2, fun n hn => (g1 n (by omega)).pair (g2 n (by omega))⟩
    | vec l =>
      simp at h
      obtain ⟨N, w, s, g⟩ := ih (ofList l) (by rw [sizeOf_ofList]; omega)
      refine ⟨N + 1, _, .vec s, fun n hn => ?_⟩
      obtain ⟨j, rfl⟩ : ∃ j, n = j + 1 := ⟨n - 1, by omega⟩
      exact ⟨.vec [w], by simp [mv2, wrapVec, mapVecs, (g j (by omega)).mv], rfl⟩

/-- Wrapping terminates on every datum and yields its wrapped form: every vector in it has exactly one element, so
none can be mistaken for a renamed identifier. -/
theorem c32_wrap (x : D) : ∃ w, Wraps w x ∧ ∃ N, ∀ n ≥ N, wrapVecs n x = some w := by
  obtain ⟨N, w, s, g⟩ := wraps_got _ x (Nat.le_refl _)
  exact ⟨w, s, N, fun n hn => (g n hn).mv⟩

/-- Unwrapping recovers the datum from every expander representation of it, including those in which symbols have
been replaced by renamed identifiers (as happens in `(quote …)` inside a macro template). -/
theorem c32_unwrap (s x : D) (h : Strips s x) : ∃ N, ∀ n ≥ N, unwrapVecs n s = some x := by
  obtain ⟨N, g⟩ := strips_got h
  exact ⟨N, fun n hn => (g n hn).mv⟩

/-- Wrapping then unwrapping returns the original datum, for every datum. -/
theorem c32_roundtrip (x : D) : ∃ N, ∀ n ≥ N, (wrapVecs n x).bind (unwrapVecs n) = some x := by
  obtain ⟨w, hw, N1, h1⟩ := c32_wrap x
  obtain ⟨N2, h2⟩ := c32_unwrap w x hw.strips
  exact ⟨N1 + N2, fun n hn => by rw [h1 n (by omega), Option.bind_some, h2 n (by omega)]⟩

example : Strips (.pair (.vec [.sym "x", .atom 3]) (.vec [.pair (.sym "y") .nil]))
    (.pair (.sym "x") (.vec [.sym "y"])) :=
  .pair (.sid _ _ _) (.vec (l := [.sym "y"]) (.pair (.sym _) .nil))

end Verif.Vecs

import Verif.Reader.Model
/-
More fuel never changes an answer of the reader.
-/
namespace Verif.Reader

/-- `a` is out of fuel or equal to `b` -/
def Res.le (a b : Res) : Prop := a = .fuel ∨ a = b

theorem Res.le.rfl {a : Res} : a.le a := .inr (Eq.refl _)
theorem Res.le.fuel {b : Res} : Res.fuel.le b := .inl (Eq.refl _)

theorem Res.le.trans {a b c : Res} (h1 : a.le b) (h2 : b.le c) : a.le c := by
  rcases h1 with h | h
  · exact .inl h
  · subst h; exact h2

theorem Res.le.bind {a b : Res} {f g : SX → List Char → Res} (h : a.le b) (hf : ∀ d i, (f d i).le (g d i)) :
    (a.bind f).le (b.bind g) := by
  rcases h with rfl | rfl
  · exact .fuel
  · cases a with
    | ok d i => exact hf d i
    | err => exact .rfl
    | fuel => exact .rfl

theorem initialReader_mono {sub sub' : List Char → Res} {term term' : Char → Bool → Bool → Bool → List Char → Res}
    (hs : ∀ i, (sub i).le (sub' i)) (ht : ∀ tc a b c i, (term tc a b c i).le (term' tc a b c i)) (i : List Char) :
    (initialReader sub term i).le (initialReader sub' term' i) := by
  unfold initialReader
  cases lexical i with
  | some r => exact .rfl
  | none =>
  simp only
  cases inputPrefix i cs!"'" with
  | some i => exact (hs i).bind fun _ _ => .rfl
  | none =>
  simp only
  cases inputDelimitedPrefix i cs!"#fload" with
  | some i => exact (hs i).bind fun _ _ => .rfl
  | none =>
  simp only
  cases inputDelimitedPrefix i cs!"#read" with
  | some i =>
    simp only
    cases readHead i with
    | none => exact .rfl
    | some p => exact (hs _).bind fun _ _ => .rfl
  | none =>
  simp only
  cases inputPrefix i cs!"#;" with
  | some i => exact (hs i).bind fun _ _ => .rfl
  | none =>
  simp only
  cases inputPrefix i cs!"#|" with
  | some i => exact .rfl
  | none =>
  simp only
  cases inputPrefix i cs!")" with
  | some i => exact .rfl
  | none =>
  simp only
  cases inputPrefix i cs!"]" with
  | some i => exact .rfl
  | none =>
  simp only
  cases inputPrefix i cs!"}" with
  | some i => exact .rfl
  | none =>
  simp only
  cases inputPrefix i cs!"(" with
  | some i => exact ht _ _ _ _ _
  | none =>
  simp only
  cases inputPrefix i cs!"[" with
  | some i => exact ht _ _ _ _ _
  | none =>
  simp only
  cases inputPrefix i cs!"#(" with
  | some i => exact (ht _ _ _ _ _).bind fun _ _ => .rfl
  | none =>
  simp only
  cases inputPrefix i cs!"#&" with
  | some i => exact (hs i).bind fun _ _ => .rfl
  | none =>
  simp only
  cases inputPrefix i cs!"#.(" with
  | some i => exact (ht _ _ _ _ _).bind fun _ _ => .rfl
  | none => exact .rfl

theorem extReader_mono (e : Ext) {next next' sub sub' : List Char → Res}
    {term term' : Char → Bool → Bool → Bool → List Char → Res} (hn : ∀ i, (next i).le (next' i))
    (hs : ∀ i, (sub i).le (sub' i)) (ht : ∀ tc a b c i, (term tc a b c i).le (term' tc a b c i)) (i : List Char) :
    (extReader e next sub term i).le (extReader e next' sub' term' i) := by
  unfold extReader
  cases e.param with
  | none =>
    simp only
    cases inputDelimitedPrefix i e.pfx with
    | some i => exact .rfl
    | none => exact hn i
  | some q =>
    obtain ⟨p, str⟩ := q
    simp only
    cases p.pfx i e.pfx with
    | none => exact hn i
    | some i =>
      refine Res.le.bind ?_ fun _ _ => .rfl
      cases p with
      | datum => exact hs i
      | list => exact ht _ _ _ _ _
      | string => exact .rfl

theorem mono_succ : ∀ n,
    (∀ es r i, (reader n es r i).le (reader (n+1) es r i)) ∧
    (∀ r i, (subread n r i).le (subread (n+1) r i)) ∧
    (∀ r tc a b c l i, (toTerm n r tc a b c l i).le (toTerm (n+1) r tc a b c l i)) := by
  intro n
  induction n with
  | zero => exact ⟨fun _ _ _ => by rw [reader]; exact .fuel, fun _ _ => by rw [subread]; exact .fuel,
      fun _ _ _ _ _ _ _ => by rw [toTerm]; exact .fuel⟩
  | succ n ih =>
    obtain ⟨h1, h2, h3⟩ := ih
    refine ⟨?_, ?_, ?_⟩
    · intro es r i
      cases es with
      | nil =>
        rw [reader, reader]
        exact initialReader_mono (h2 r) (fun _ _ _ _ _ => h3 _ _ _ _ _ _ _) i
      | cons e es =>
        rw [reader, reader]
        exact extReader_mono e (h1 es r) (h2 r) (fun _ _ _ _ _ => h3 _ _ _ _ _ _ _) i
    · intro r i
      rw [subread, subread]
      refine (h1 r r i).bind fun d i => ?_
      split
      · exact .rfl
      · split
        · exact h2 r i
        · exact .rfl
    · intro r tc a b c l i
      rw [toTerm, toTerm]
      refine (h1 r r i).bind fun d i => ?_
      split
      · exact .rfl
      · split
        · exact h3 _ _ _ _ _ _ _
        · split
          · split
            · cases extend r d with
              | none => exact .rfl
              | some r => exact h3 _ _ _ _ _ _ _
            · exact .rfl
          · split
            · exact h3 _ _ _ _ _ _ _
            · split
              · exact .rfl
              · split
                · exact .rfl
                · exact (h3 _ _ _ _ _ _ _).bind fun _ _ => .rfl

theorem reader_le {n m : Nat} (h : n ≤ m) (es r : List Ext) (i : List Char) :
    (reader n es r i).le (reader m es r i) := by
  induction h with
  | refl => exact .rfl
  | step _ ih => exact ih.trans ((mono_succ _).1 es r i)

theorem subread_le {n m : Nat} (h : n ≤ m) (r : List Ext) (i : List Char) :
    (subread n r i).le (subread m r i) := by
  induction h with
  | refl => exact .rfl
  | step _ ih => exact ih.trans ((mono_succ _).2.1 r i)

theorem toTerm_le {n m : Nat} (h : n ≤ m) (r : List Ext) (tc : Char) (a b c : Bool) (l : Option Int)
    (i : List Char) : (toTerm n r tc a b c l i).le (toTerm m r tc a b c l i) := by
  induction h with
  | refl => exact .rfl
  | step _ ih => exact ih.trans ((mono_succ _).2.2 r tc a b c l i)

/-- an answer stays the same -/
theorem reader_stable {n m : Nat} {es r : List Ext} {i : List Char} {x : Res} (h : reader n es r i = x)
    (hx : x ≠ .fuel) (hm : n ≤ m) : reader m es r i = x := by
  rcases reader_le hm es r i with h' | h'
  · exact absurd (h.symm.trans h') hx
  · exact h'.symm.trans h

theorem subread_stable {n m : Nat} {r : List Ext} {i : List Char} {x : Res} (h : subread n r i = x)
    (hx : x ≠ .fuel) (hm : n ≤ m) : subread m r i = x := by
  rcases subread_le hm r i with h' | h'
  · exact absurd (h.symm.trans h') hx
  · exact h'.symm.trans h

theorem toTerm_stable {n m : Nat} {r : List Ext} {tc : Char} {a b c : Bool} {l : Option Int} {i : List Char} {x : Res}
    (h : toTerm n r tc a b c l i = x) (hx : x ≠ .fuel) (hm : n ≤ m) : toTerm m r tc a b c l i = x := by
  rcases toTerm_le hm r tc a b c l i with h' | h'
  · exact absurd (h.symm.trans h') hx
  · exact h'.symm.trans h

theorem readTop_succ : ∀ (n : Nat) (r : List Ext) (i : List Char), readTop n r i = .fuel ∨
    readTop n r i = readTop (n+1) r i := by
  intro n
  induction n with
  | zero => intro r i; left; rw [readTop]
  | succ n ih =>
    intro r i
    rcases (mono_succ n).1 r r i with h | h
    · left; rw [readTop, h]
    · rw [readTop, readTop, ← h]
      cases reader n r r i with
      | err => right; rfl
      | fuel => left; rfl
      | ok d i =>
        simp only
        split
        · exact ih r i
        · split
          · cases extend r d with
            | none => right; rfl
            | some r => exact ih r i
          · right; rfl

theorem readTop_stable {n m : Nat} {r : List Ext} {i : List Char} {x : Top} (h : readTop n r i = x)
    (hx : x ≠ .fuel) (hm : n ≤ m) : readTop m r i = x := by
  induction hm with
  | refl => exact h
  | @step k _ ih =>
    rcases readTop_succ k r i with h' | h'
    · exact absurd (ih.symm.trans h') hx
    · exact h'.symm.trans ih

end Verif.Reader

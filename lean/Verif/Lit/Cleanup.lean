import Verif.Lit.Model
import Mathlib.Data.List.Basic
/-
`cleanup-c-code!`, /repo/6.sf:333-390: the in-place tidying of emitted C text.
-/
namespace Verif.Lit

/-- `char-numeric?`. -/
def isNumeric (c : Char) : Bool := 48 ≤ c.toNat && c.toNat ≤ 57

/-- consecutive `string-set!`s from position `k` on. -/
def writeAt (buf : List Char) (k : Nat) : List Char → List Char
  | [] => buf
  | c :: cs => writeAt (buf.set k c) (k + 1) cs

/-- `cleanup-c-code!`, /repo/6.sf:333-390.  The tests on nine (fourteen) consecutive characters are
written as prefix tests; the bound tests `(< (+ i 8) len)` are implied by them.  `fuel` bounds the number of
iterations. -/
def cleanup : Nat → List Char → Nat → Option (List Char)
  | 0, _, _ => none
  | fuel+1, buf, i =>
    if buf.length ≤ i then some buf
    else
      let c := buf.getD i ' '
      let d := buf.getD (i + 5) ' '
      let e := buf.getD (i + 2) ' '
      if c = '"' then some buf
      else if "= (r[".toList ++ d :: "]);".toList <+: buf.drop i ∧ isNumeric d then
        cleanup fuel (writeAt buf (i + 2) ("r[".toList ++ d :: "];  ".toList)) (i + 9)
      else if "r[".toList ++ e :: ("] = (r[".toList ++ e :: "]);".toList) <+: buf.drop i ∧ isNumeric e then
        cleanup fuel (writeAt buf i ("/* r[".toList ++ e :: "] */    ".toList)) (i + 14)
      else cleanup fuel buf (i + 1)

/-! ### specification -/

/-- The permitted rewritings of a text, left to right, up to the first double quote: drop the
parentheses around a register being assigned; turn the assignment of a register to itself into a
comment. -/
inductive Tidied : List Char → List Char → Prop
  | nil : Tidied [] []
  | quote (t) : Tidied ('"' :: t) ('"' :: t)
  | keep (c) {t t'} : c ≠ '"' → Tidied t t' → Tidied (c :: t) (c :: t')
  | paren (d) {t t'} : isNumeric d = true → Tidied t t' →
      Tidied ("= (r[".toList ++ d :: "]);".toList ++ t) ("= r[".toList ++ d :: "];  ".toList ++ t')
  | self (d) {t t'} : isNumeric d = true → Tidied t t' →
      Tidied ("r[".toList ++ d :: ("] = (r[".toList ++ d :: "]);".toList) ++ t)
        ("/* r[".toList ++ d :: "] */    ".toList ++ t')

theorem writeAt_append : ∀ (cs a m b : List Char), m.length = cs.length →
    writeAt (a ++ m ++ b) a.length cs = a ++ cs ++ b
  | [], a, m, b, h => by
    have : m = [] := List.eq_nil_of_length_eq_zero h
    subst this; simp [writeAt]
  | c :: cs, a, [], b, h => by simp at h
  | c :: cs, a, d :: m, b, h => by
    have ih := writeAt_append cs (a ++ [c]) m b (by simpa using h)
    have e : (a ++ d :: m ++ b).set a.length c = a ++ [c] ++ m ++ b := by simp
    rw [writeAt, e]
    simp only [List.length_append, List.length_cons, List.length_nil, Nat.zero_add] at ih
    rw [ih]; simp

theorem cleanup_spec : ∀ (fuel : Nat) (pre suf : List Char), suf.length < fuel →
    ∃ out, cleanup fuel (pre ++ suf) pre.length = some (pre ++ out) ∧ Tidied suf out ∧
      out.length = suf.length
  | 0, _, _, h => by omega
  | fuel+1, pre, [], _ => by
    refine ⟨[], ?_, .nil, rfl⟩
    simp [cleanup]
  | fuel+1, pre, x :: suf, h => by
    have hx : (pre ++ x :: suf).getD pre.length ' ' = x := by simp
    have hd : (pre ++ x :: suf).drop pre.length = x :: suf := by simp
    rw [cleanup]
    simp only [hx, hd]
    rw [if_neg (by simp)]
    generalize (pre ++ x :: suf).getD (pre.length + 5) ' ' = d
    generalize (pre ++ x :: suf).getD (pre.length + 2) ' ' = e
    split
    · next hq => subst hq; exact ⟨_, rfl, .quote _, rfl⟩
    · next hnq =>
      split
      · next h1 =>
        obtain ⟨⟨t, ht⟩, hn⟩ := h1
        have hw : writeAt (pre ++ x :: suf) (pre.length + 2) ("r[".toList ++ d :: "];  ".toList) =
            (pre ++ ("= r[".toList ++ d :: "];  ".toList)) ++ t := by
          rw [← ht]
          have := writeAt_append ("r[".toList ++ d :: "];  ".toList) (pre ++ "= ".toList)
            ("(r[".toList ++ d :: "]);".toList) t (by simp)
          have e3 : (pre ++ "= ".toList).length = pre.length + 2 := by simp
          rw [e3] at this
          simpa using this
        obtain ⟨out, ho, hT, hl⟩ := cleanup_spec fuel (pre ++ ("= r[".toList ++ d :: "];  ".toList)) t (by
          have := congrArg List.length ht
          simp at this h
          omega)
        refine ⟨("= r[".toList ++ d :: "];  ".toList) ++ out, ?_, ?_, ?_⟩
        · rw [hw]
          have e2 : (pre ++ ("= r[".toList ++ d :: "];  ".toList)).length = pre.length + 9 := by simp
          rw [e2] at ho
          rw [ho]; simp
        · rw [← ht]; exact .paren d hn hT
        · rw [← ht]; simp [hl]
      · split
        · next h1 =>
          obtain ⟨⟨t, ht⟩, hn⟩ := h1
          have hw : writeAt (pre ++ x :: suf) pre.length ("/* r[".toList ++ e :: "] */    ".toList) =
              (pre ++ ("/* r[".toList ++ e :: "] */    ".toList)) ++ t := by
            rw [← ht]
            have := writeAt_append ("/* r[".toList ++ e :: "] */    ".toList) pre
              ("r[".toList ++ e :: ("] = (r[".toList ++ e :: "]);".toList)) t (by simp)
            simpa using this
          obtain ⟨out, ho, hT, hl⟩ := cleanup_spec fuel (pre ++ ("/* r[".toList ++ e :: "] */    ".toList)) t (by
            have := congrArg List.length ht
            simp at this h
            omega)
          refine ⟨("/* r[".toList ++ e :: "] */    ".toList) ++ out, ?_, ?_, ?_⟩
          · rw [hw]
            have e2 : (pre ++ ("/* r[".toList ++ e :: "] */    ".toList)).length = pre.length + 14 := by simp
            rw [e2] at ho
            rw [ho]; simp
          · rw [← ht]; exact .self e hn hT
          · rw [← ht]; simp [hl]
        · obtain ⟨out, ho, hT, hl⟩ := cleanup_spec fuel (pre ++ [x]) suf (by simp at h; omega)
          refine ⟨x :: out, ?_, .keep x hnq hT, by simp [hl]⟩
          simp only [List.length_append, List.length_cons, List.length_nil, Nat.zero_add, List.append_assoc,
            List.cons_append, List.nil_append] at ho
          exact ho

theorem Tidied.quoted : ∀ {a b : List Char}, Tidied a b → ∀ (p q : List Char), '"' ∉ p → a = p ++ '"' :: q →
    ∃ p', b = p' ++ '"' :: q ∧ p'.length = p.length ∧ '"' ∉ p' := by
  have hnum : ∀ d : Char, isNumeric d = true → d ≠ '"' := by
    rintro d hd rfl; revert hd; decide
  -- a rewritten piece lies entirely before the first quote
  have split : ∀ (m t p q : List Char), '"' ∉ m → '"' ∉ p → m ++ t = p ++ '"' :: q →
      ∃ p2, p = m ++ p2 ∧ t = p2 ++ '"' :: q := by
    intro m
    induction m with
    | nil => intro t p q _ _ h; exact ⟨p, rfl, h⟩
    | cons c m ih =>
      intro t p q hm hp h
      cases p with
      | nil => injection h with h1 _; simp [h1] at hm
      | cons c' p =>
        injection h with h1 h2
        simp only [List.mem_cons, not_or] at hm hp
        obtain ⟨p2, e1, e2⟩ := ih t p q hm.2 hp.2 h2
        exact ⟨p2, by rw [h1, e1]; rfl, e2⟩
  intro a b h
  induction h with
  | nil => intro p q _ h; simp at h
  | quote t =>
    intro p q hp h
    cases p with
    | nil => injection h with _ h; subst h; exact ⟨[], rfl, rfl, by simp⟩
    | cons c p => injection h with h1 _; simp [← h1] at hp
  | keep c hc _ ih =>
    intro p q hp h
    cases p with
    | nil => injection h with h1 h2; exact absurd h1 hc
    | cons c' p =>
      injection h with h1 h2
      simp only [List.mem_cons, not_or] at hp
      obtain ⟨p', e1, e2, e3⟩ := ih p q hp.2 h2
      exact ⟨c :: p', by rw [e1]; rfl, by simp [e2], by simp [e3, h1, hp.1]⟩
  | paren d hn _ ih =>
    intro p q hp h
    have hd := hnum d hn
    obtain ⟨p2, e1, e2⟩ := split _ _ p q (by simp [hd.symm]) hp h
    have hp2 : '"' ∉ p2 := fun hm => hp (e1 ▸ List.mem_append_right _ hm)
    obtain ⟨p', e3, e4, e5⟩ := ih p2 q hp2 e2
    exact ⟨"= r[".toList ++ d :: "];  ".toList ++ p', by rw [e3]; simp, by rw [e1]; simp [e4],
      by simp [hd.symm, e5]⟩
  | self d hn _ ih =>
    intro p q hp h
    have hd := hnum d hn
    obtain ⟨p2, e1, e2⟩ := split _ _ p q (by simp [hd.symm]) hp h
    have hp2 : '"' ∉ p2 := fun hm => hp (e1 ▸ List.mem_append_right _ hm)
    obtain ⟨p', e3, e4, e5⟩ := ih p2 q hp2 e2
    exact ⟨"/* r[".toList ++ d :: "] */    ".toList ++ p', by rw [e3]; simp, by rw [e1]; simp [e4],
      by simp [hd.symm, e5]⟩

/-- C50: tidying emitted C text terminates, keeps its length, only drops the parentheses of
`= (r[d]);` and comments out `r[d] = (r[d]);`, and leaves everything from the first double quote on — so
every string literal — exactly as it was. -/
theorem c50_cleanup (s : List Char) (fuel : Nat) (h : s.length < fuel) :
    ∃ out, cleanup fuel s 0 = some out ∧ Tidied s out ∧ out.length = s.length ∧
      ∀ p q, '"' ∉ p → s = p ++ '"' :: q → ∃ p', out = p' ++ '"' :: q ∧ '"' ∉ p' := by
  obtain ⟨out, h1, h2, h3⟩ := cleanup_spec fuel [] s h
  refine ⟨out, h1, h2, h3, fun p q hp e => ?_⟩
  obtain ⟨p', e1, _, e3⟩ := h2.quoted p q hp e
  exact ⟨p', e1, e3⟩

example : cleanup 100 "r[1] = (r[1]); r[2] = (r[3]); f(\"r[1] = (r[1]);\");".toList 0 =
    some "/* r[1] */     r[2] = r[3];   f(\"r[1] = (r[1]);\");".toList := by decide +kernel

end Verif.Lit

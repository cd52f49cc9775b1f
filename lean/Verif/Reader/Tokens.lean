import Verif.Reader.Comments
/-
Property theorems C27: two texts made of the same tokens, with any whitespace, line comments and block comments
between them, read the same.
-/
namespace Verif.Reader
open Verif.Num Verif.Cmp

/-! ## Tokens and their renderings -/

/-- Tokens.  An atom has its text, its datum, and a condition on what may follow it (for most atoms: a
delimiter). -/
inductive Tok
  | atom (txt : List Char) (d : SX) (follow : List Char → Prop)
  | opn (c : Char)
  | close (c : Char)
  | dot
  | quote
  | fload
  | dcom
  | vec
  | box

/-- text of a token -/
def Tok.text : Tok → List Char
  | .atom txt _ _ => txt
  | .opn c => [c]
  | .close c => [c]
  | .dot => cs!"."
  | .quote => cs!"'"
  | .fload => cs!"#fload"
  | .dcom => cs!"#;"
  | .vec => cs!"#("
  | .box => cs!"#&"

/-- what may follow a token directly -/
def Tok.follow : Tok → List Char → Prop
  | .atom _ _ f, rest => f rest
  | .dot, rest => inputDelimited rest = true
  | .fload, rest => inputDelimited rest = true
  | _, _ => True

/-- a datum that is not one of the reader's internal signals -/
def SX.normal (d : SX) : Prop :=
  d.type ≠ .sym cs!"eof" ∧ d.type ≠ .sym cs!"atmosphere" ∧ d.type ≠ .sym cs!"read-as" ∧
  d.type ≠ .sym cs!"terminator"

/-- Proper tokens: the text of an atom, followed by what may follow it, is recognised by itself as the datum;
parentheses are parentheses. -/
def Tok.Ok : Tok → Prop
  | .atom txt d f => d.normal ∧ ∀ rest, f rest → lexical (txt ++ rest) = some (some (d, rest))
  | .opn c => c = '(' ∨ c = '['
  | .close c => c = ')' ∨ c = ']' ∨ c = '}'
  | _ => True

/-- `Render ts i`: the text `i` consists of the tokens `ts` with atmosphere around them. -/
inductive Render : List Tok → List Char → Prop
  | nil (a : List Char) : AtmosEnd a → Render [] a
  | cons (a : List Char) (t : Tok) (ts : List Tok) (rest : List Char) : Atmos a → t.Ok → t.follow rest →
      Render ts rest → Render (t :: ts) (a ++ (t.text ++ rest))

/-- like `Render`, but starting with the first token -/
inductive RenderT : List Tok → List Char → Prop
  | nil : RenderT [] []
  | cons (t : Tok) (ts : List Tok) (rest : List Char) : t.Ok → t.follow rest → Render ts rest →
      RenderT (t :: ts) (t.text ++ rest)

theorem RenderT.render {ts : List Tok} {i : List Char} (h : RenderT ts i) : Render ts i := by
  cases h with
  | nil => exact .nil [] (.full [] .nil)
  | cons t ts rest h1 h2 h3 => exact .cons [] t ts rest .nil h1 h2 h3

/-- dropping the leading atmosphere -/
theorem Render.strip {ts : List Tok} {i : List Char} (h : Render ts i) : ∃ i0, RenderT ts i0 ∧
    ∀ {α : Type} (L : Loop α) (x : α), x ≠ L.fuel →
      (∀ n, L.run n i = x → L.run n i0 = x) ∧ (∀ n, L.run n i0 = x → ∃ m, L.run m i = x) := by
  cases h with
  | nil a h => exact ⟨[], .nil, fun L x hx => L.skip_end h hx⟩
  | cons a t ts rest ha h1 h2 h3 => exact ⟨t.text ++ rest, .cons t ts rest h1 h2 h3, fun L x hx => L.skip ha _ hx⟩

/-! ## The three loops -/

/-- `subread` -/
def subLoop : Loop Res where
  run n i := subread n [] i
  fuel := .fuel
  atEof := .err
  zero _ := by rw [subread]
  out n i h := by rw [subread, h]; rfl
  atm n i i' h := by
    rw [subread, h]
    simp [Res.bind, SX.type]
  eof n i h := by
    rw [subread, h]
    simp [Res.bind, SX.type]
  mono _ _ _ _ h hx hm := subread_stable h hx hm

/-- `subread-to-terminator` -/
def termLoop (tc : Char) (a b c : Bool) (l : Option Int) : Loop Res where
  run n i := toTerm n [] tc a b c l i
  fuel := .fuel
  atEof := .err
  zero _ := by rw [toTerm]
  out n i h := by rw [toTerm, h]; rfl
  atm n i i' h := by
    rw [toTerm, h]
    simp [Res.bind, SX.type]
  eof n i h := by
    rw [toTerm, h]
    simp [Res.bind, SX.type]
  mono _ _ _ _ h hx hm := toTerm_stable h hx hm

/-- `subread-top` -/
def topLoop : Loop Top where
  run n i := readTop n [] i
  fuel := .fuel
  atEof := .ok eofD [] []
  zero _ := by rw [readTop]
  out n i h := by rw [readTop, h]
  atm n i i' h := by
    rw [readTop, h]
    simp [Res.bind, SX.type]
  eof n i h := by
    rw [readTop, h]
    simp [Res.bind, SX.type]
  mono _ _ _ _ h hx hm := readTop_stable h hx hm

/-! ## The simulation -/

/-- the same answer, with rests made of the same tokens -/
def SimRes (p : Bool) : Res → Res → Prop
  | .ok d i, .ok d' i' => d = d' ∧ (p = true → d.type ≠ .sym cs!"read-as") ∧ ∃ ts, Render ts i ∧ Render ts i'
  | .err, .err => True
  | _, _ => False

theorem SimRes.ne {p : Bool} {x y : Res} (h : SimRes p x y) : x ≠ .fuel ∧ y ≠ .fuel := by
  cases x <;> cases y <;> simp_all [SimRes]

theorem SimRes.bind {p q : Bool} {x y : Res} {f g : SX → List Char → Res} (h : SimRes p x y)
    (hf : ∀ d i i' ts, x = .ok d i → y = .ok d i' → (p = true → d.type ≠ .sym cs!"read-as") → Render ts i →
      Render ts i' → SimRes q (f d i) (g d i')) : SimRes q (x.bind f) (y.bind g) := by
  cases x with
  | ok d i => cases y with
    | ok d' i' =>
      obtain ⟨rfl, h1, ts, h2, h3⟩ := h
      exact hf d i i' ts rfl rfl h1 h2 h3
    | err => exact h.elim
    | fuel => exact h.elim
  | err => cases y with
    | ok d' i' => exact h.elim
    | err => trivial
    | fuel => exact h.elim
  | fuel => cases y <;> exact h.elim

theorem bind_ne {x : Res} {f : SX → List Char → Res} (h : x.bind f ≠ .fuel) : x ≠ .fuel := by
  rintro rfl; exact h rfl

/-- readers of the single tokens -/
theorem reader_opn_paren (n : Nat) (i : List Char) :
    reader (n+1) [] [] ('(' :: i) = toTerm n [] ')' true true true none i := by
  rw [reader, initialReader, show lexical ('(' :: i) = none from rfl]
  simp [inputPrefix, inputDelimitedPrefix]

theorem reader_opn_brack (n : Nat) (i : List Char) :
    reader (n+1) [] [] ('[' :: i) = toTerm n [] ']' true true true none i := by
  rw [reader, initialReader, show lexical ('[' :: i) = none from rfl]
  simp [inputPrefix, inputDelimitedPrefix]

theorem reader_close {c : Char} (h : c = ')' ∨ c = ']' ∨ c = '}') (n : Nat) (i : List Char) :
    reader (n+1) [] [] (c :: i) = .ok (datum cs!"terminator" [.chr c]) i := by
  rcases h with rfl | rfl | rfl
  · rw [reader, initialReader, show lexical (')' :: i) = none from rfl]
    simp [inputPrefix, inputDelimitedPrefix]
  · rw [reader, initialReader, show lexical (']' :: i) = none from rfl]
    simp [inputPrefix, inputDelimitedPrefix]
  · rw [reader, initialReader, show lexical ('}' :: i) = none from rfl]
    simp [inputPrefix, inputDelimitedPrefix]

theorem reader_quote (n : Nat) (i : List Char) :
    reader (n+1) [] [] ('\'' :: i) =
      (subread n [] i).bind fun d i => .ok (datum cs!"list" [datum cs!"symbol" [.str cs!"quote"], d]) i := by
  rw [reader, initialReader, show lexical ('\'' :: i) = none from rfl]
  simp [inputPrefix]

theorem reader_dcom (n : Nat) (i : List Char) :
    reader (n+1) [] [] ('#' :: ';' :: i) =
      (subread n [] i).bind fun _ i => .ok (datum cs!"atmosphere" []) i := by
  rw [reader, initialReader, show lexical ('#' :: ';' :: i) = none from rfl]
  simp [inputPrefix, inputDelimitedPrefix]

theorem reader_vec (n : Nat) (i : List Char) :
    reader (n+1) [] [] ('#' :: '(' :: i) =
      (toTerm n [] ')' false true false none i).bind fun l i => .ok (.cons (.sym cs!"vector") l) i := by
  rw [reader, initialReader, show lexical ('#' :: '(' :: i) = none from rfl]
  simp [inputPrefix, inputDelimitedPrefix]

theorem reader_box (n : Nat) (i : List Char) :
    reader (n+1) [] [] ('#' :: '&' :: i) =
      (subread n [] i).bind fun d i => .ok (datum cs!"box" [d]) i := by
  rw [reader, initialReader, show lexical ('#' :: '&' :: i) = none from rfl]
  simp [inputPrefix, inputDelimitedPrefix]

theorem reader_fload (n : Nat) (i : List Char) (h : inputDelimited i = true) :
    reader (n+1) [] [] (cs!"#fload" ++ i) =
      (subread n [] i).bind fun d i => .ok (datum cs!"list" [datum cs!"symbol" [.str cs!"load"], d]) i := by
  rw [reader, initialReader, show lexical (cs!"#fload" ++ i) = none from rfl]
  simp [inputPrefix, inputDelimitedPrefix, checkDelimited, h]

theorem lexical_dot (i : List Char) (h : inputDelimited i = true) :
    lexical ('.' :: i) = some (some (datum cs!"terminator" [.chr '.'], i)) := by
  unfold lexical
  simp only
  rw [if_neg (by decide), if_neg (by decide), if_neg (by decide)]
  have : inputPrefixCi ('.' :: i) cs!"->" = none := by cases i <;> rfl
  simp only [this]
  simp [inputDelimitedPrefix, inputPrefix, checkDelimited, h]

/-- At the same tokens the reader, `subread` and `subread-to-terminator` give the same answers. -/
theorem sim_all : ∀ n,
    (∀ ts i i', RenderT ts i → RenderT ts i' → reader n [] [] i ≠ .fuel →
      ∃ m, SimRes true (reader n [] [] i) (reader m [] [] i')) ∧
    (∀ ts i i', Render ts i → Render ts i' → subread n [] i ≠ .fuel →
      ∃ m, SimRes true (subread n [] i) (subread m [] i')) ∧
    (∀ tc a b c l ts i i', Render ts i → Render ts i' → toTerm n [] tc a b c l i ≠ .fuel →
      ∃ m, SimRes c (toTerm n [] tc a b c l i) (toTerm m [] tc a b c l i')) := by
  intro n
  induction n with
  | zero =>
    refine ⟨fun _ _ _ _ _ h => ?_, fun _ _ _ _ _ h => ?_, fun _ _ _ _ _ _ _ _ _ _ h => ?_⟩
    · rw [reader] at h; exact absurd rfl h
    · rw [subread] at h; exact absurd rfl h
    · rw [toTerm] at h; exact absurd rfl h
  | succ n ih =>
    obtain ⟨ihR, ihS, ihT⟩ := ih
    refine ⟨?_, ?_, ?_⟩
    · intro ts i i' h h' hne
      cases h with
      | nil =>
        cases h'
        exact ⟨1, rfl, by simp [SX.type], [], .nil [] (.full [] .nil), .nil [] (.full [] .nil)⟩
      | cons t ts rest hok hf hr =>
        cases h' with
        | cons _ _ rest' hok' hf' hr' =>
        cases t with
        | atom txt d f =>
          obtain ⟨hn, hl⟩ := hok
          refine ⟨1, ?_⟩
          show SimRes true (reader (n+1) [] [] (txt ++ rest)) (reader 1 [] [] (txt ++ rest'))
          rw [reader_lexical (hl rest hf), reader_lexical (hl rest' hf')]
          exact ⟨rfl, fun _ => hn.2.2.1, ts, hr, hr'⟩
        | opn c =>
          simp only [Tok.text, List.singleton_append] at hne ⊢
          rcases hok with rfl | rfl
          · rw [reader_opn_paren] at hne ⊢
            obtain ⟨m, hm⟩ := ihT _ _ _ _ _ ts rest rest' hr hr' hne
            exact ⟨m+1, by rw [reader_opn_paren]; exact hm⟩
          · rw [reader_opn_brack] at hne ⊢
            obtain ⟨m, hm⟩ := ihT _ _ _ _ _ ts rest rest' hr hr' hne
            exact ⟨m+1, by rw [reader_opn_brack]; exact hm⟩
        | close c =>
          simp only [Tok.text, List.singleton_append] at hne ⊢
          refine ⟨1, ?_⟩
          rw [reader_close hok, reader_close hok]
          exact ⟨rfl, by simp [SX.type], ts, hr, hr'⟩
        | dot =>
          simp only [Tok.text, List.singleton_append] at hne ⊢
          refine ⟨1, ?_⟩
          rw [reader_lexical (lexical_dot rest hf), reader_lexical (lexical_dot rest' hf')]
          exact ⟨rfl, by simp [SX.type], ts, hr, hr'⟩
        | quote =>
          simp only [Tok.text, List.singleton_append] at hne ⊢
          rw [reader_quote] at hne ⊢
          obtain ⟨m, hm⟩ := ihS ts rest rest' hr hr' (bind_ne hne)
          refine ⟨m+1, ?_⟩
          rw [reader_quote]
          exact hm.bind fun d i i' ts _ _ _ h1 h2 => ⟨rfl, by simp [SX.type], ts, h1, h2⟩
        | fload =>
          simp only [Tok.text] at hne ⊢
          rw [reader_fload n rest hf] at hne ⊢
          obtain ⟨m, hm⟩ := ihS ts rest rest' hr hr' (bind_ne hne)
          refine ⟨m+1, ?_⟩
          rw [reader_fload m rest' hf']
          exact hm.bind fun d i i' ts _ _ _ h1 h2 => ⟨rfl, by simp [SX.type], ts, h1, h2⟩
        | dcom =>
          simp only [Tok.text, List.cons_append, List.nil_append] at hne ⊢
          rw [reader_dcom] at hne ⊢
          obtain ⟨m, hm⟩ := ihS ts rest rest' hr hr' (bind_ne hne)
          refine ⟨m+1, ?_⟩
          rw [reader_dcom]
          exact hm.bind fun d i i' ts _ _ _ h1 h2 => ⟨rfl, by simp [SX.type], ts, h1, h2⟩
        | vec =>
          simp only [Tok.text, List.cons_append, List.nil_append] at hne ⊢
          rw [reader_vec] at hne ⊢
          obtain ⟨m, hm⟩ := ihT _ _ _ _ _ ts rest rest' hr hr' (bind_ne hne)
          refine ⟨m+1, ?_⟩
          rw [reader_vec]
          exact hm.bind fun d i i' ts _ _ _ h1 h2 => ⟨rfl, by simp [SX.type], ts, h1, h2⟩
        | box =>
          simp only [Tok.text, List.cons_append, List.nil_append] at hne ⊢
          rw [reader_box] at hne ⊢
          obtain ⟨m, hm⟩ := ihS ts rest rest' hr hr' (bind_ne hne)
          refine ⟨m+1, ?_⟩
          rw [reader_box]
          exact hm.bind fun d i i' ts _ _ _ h1 h2 => ⟨rfl, by simp [SX.type], ts, h1, h2⟩
    · intro ts i i' h h' hne
      obtain ⟨i0, hi0, hs⟩ := h.strip
      obtain ⟨i0', hi0', hs'⟩ := h'.strip
      have e := (hs subLoop (subread (n+1) [] i) hne).1 (n+1) rfl
      change subread (n+1) [] i0 = _ at e
      rw [← e] at hne ⊢
      -- it is enough to simulate from the first token
      suffices hh : ∃ m, SimRes true (subread (n+1) [] i0) (subread m [] i0') by
        obtain ⟨m, hm⟩ := hh
        obtain ⟨m', hm'⟩ := (hs' subLoop (subread m [] i0') hm.ne.2).2 m rfl
        change subread m' [] i' = _ at hm'
        exact ⟨m', by rw [hm']; exact hm⟩
      rw [subread] at hne ⊢
      obtain ⟨m, hm⟩ := ihR ts i0 i0' hi0 hi0' (bind_ne hne)
      cases hx : reader n [] [] i0 with
      | fuel => rw [hx] at hm; exact absurd rfl hm.ne.1
      | err =>
        rw [hx] at hm
        cases hy : reader m [] [] i0' with
        | err => exact ⟨m+1, by rw [subread, hy]; trivial⟩
        | ok d i => rw [hy] at hm; exact hm.elim
        | fuel => rw [hy] at hm; exact hm.elim
      | ok d j =>
        rw [hx] at hm hne
        cases hy : reader m [] [] i0' with
        | err => rw [hy] at hm; exact hm.elim
        | fuel => rw [hy] at hm; exact hm.elim
        | ok d' j' =>
          rw [hy] at hm
          obtain ⟨rfl, hra, ts', h1, h2⟩ := hm
          replace hra := hra rfl
          simp only [Res.bind] at hne ⊢
          by_cases he : d.type = .sym cs!"eof"
          · refine ⟨m+1, ?_⟩
            rw [subread, hy]; simp only [Res.bind]
            rw [if_pos he, if_pos he]; trivial
          by_cases ha : d.type = .sym cs!"atmosphere"
          · rw [if_neg he, if_pos ha] at hne ⊢
            obtain ⟨k, hk⟩ := ihS ts' j j' h1 h2 hne
            refine ⟨max m k + 1, ?_⟩
            rw [subread, reader_stable hy (by simp) (Nat.le_max_left m k)]
            simp only [Res.bind]
            rw [if_neg he, if_pos ha, subread_stable rfl hk.ne.2 (Nat.le_max_right m k)]
            exact hk
          refine ⟨m+1, ?_⟩
          rw [subread, hy]; simp only [Res.bind]
          rw [if_neg he, if_neg ha, if_neg he, if_neg ha, if_neg hra, if_neg hra]
          by_cases ht : d.type = .sym cs!"terminator"
          · rw [if_pos ht, if_pos ht]; trivial
          · rw [if_neg ht, if_neg ht]
            exact ⟨rfl, fun _ => hra, ts', h1, h2⟩
    · intro tc a b c l ts i i' h h' hne
      obtain ⟨i0, hi0, hs⟩ := h.strip
      obtain ⟨i0', hi0', hs'⟩ := h'.strip
      have e := (hs (termLoop tc a b c l) (toTerm (n+1) [] tc a b c l i) hne).1 (n+1) rfl
      change toTerm (n+1) [] tc a b c l i0 = _ at e
      rw [← e] at hne ⊢
      suffices hh : ∃ m, SimRes c (toTerm (n+1) [] tc a b c l i0) (toTerm m [] tc a b c l i0') by
        obtain ⟨m, hm⟩ := hh
        obtain ⟨m', hm'⟩ := (hs' (termLoop tc a b c l) (toTerm m [] tc a b c l i0') hm.ne.2).2 m rfl
        change toTerm m' [] tc a b c l i' = _ at hm'
        exact ⟨m', by rw [hm']; exact hm⟩
      rw [toTerm] at hne ⊢
      obtain ⟨m, hm⟩ := ihR ts i0 i0' hi0 hi0' (bind_ne hne)
      cases hx : reader n [] [] i0 with
      | fuel => rw [hx] at hm; exact absurd rfl hm.ne.1
      | err =>
        rw [hx] at hm
        cases hy : reader m [] [] i0' with
        | err => exact ⟨m+1, by rw [toTerm, hy]; trivial⟩
        | ok d i => rw [hy] at hm; exact hm.elim
        | fuel => rw [hy] at hm; exact hm.elim
      | ok d j =>
        rw [hx] at hm hne
        cases hy : reader m [] [] i0' with
        | err => rw [hy] at hm; exact hm.elim
        | fuel => rw [hy] at hm; exact hm.elim
        | ok d' j' =>
          rw [hy] at hm
          obtain ⟨rfl, hra, ts', h1, h2⟩ := hm
          replace hra := hra rfl
          simp only [Res.bind] at hne ⊢
          by_cases he : d.type = .sym cs!"eof"
          · refine ⟨m+1, ?_⟩
            rw [toTerm, hy]; simp only [Res.bind]
            rw [if_pos he, if_pos he]; trivial
          by_cases ha : d.type = .sym cs!"atmosphere"
          · rw [if_neg he, if_pos ha] at hne ⊢
            obtain ⟨k, hk⟩ := ihT tc a b c l ts' j j' h1 h2 hne
            refine ⟨max m k + 1, ?_⟩
            rw [toTerm, reader_stable hy (by simp) (Nat.le_max_left m k)]
            simp only [Res.bind]
            rw [if_neg he, if_pos ha, toTerm_stable rfl hk.ne.2 (Nat.le_max_right m k)]
            exact hk
          rw [if_neg he, if_neg ha, if_neg hra] at hne ⊢
          by_cases hd : d.type = .sym cs!"terminator" ∧ a = true ∧ d.nth 1 = .chr '.'
          · rw [if_pos hd] at hne ⊢
            obtain ⟨k, hk⟩ := ihT tc a b c (some 1) ts' j j' h1 h2 hne
            refine ⟨max m k + 1, ?_⟩
            rw [toTerm, reader_stable hy (by simp) (Nat.le_max_left m k)]
            simp only [Res.bind]
            rw [if_neg he, if_neg ha, if_neg hra, if_pos hd, toTerm_stable rfl hk.ne.2 (Nat.le_max_right m k)]
            exact hk
          rw [if_neg hd] at hne ⊢
          by_cases hc : d.type = .sym cs!"terminator" ∧ d.nth 1 = .chr tc
          · refine ⟨m+1, ?_⟩
            rw [toTerm, hy]; simp only [Res.bind]
            rw [if_neg he, if_neg ha, if_neg hra, if_neg hd, if_pos hc, if_pos hc]
            by_cases hl : l = none ∨ l = some 0
            · rw [if_pos hl, if_pos hl]
              refine ⟨rfl, ?_, ts', h1, h2⟩
              cases c <;> simp [SX.type]
            · rw [if_neg hl, if_neg hl]; trivial
          rw [if_neg hc] at hne ⊢
          by_cases ht : d.type = .sym cs!"terminator"
          · refine ⟨m+1, ?_⟩
            rw [toTerm, hy]; simp only [Res.bind]
            rw [if_neg he, if_neg ha, if_neg hra, if_neg hd, if_neg hc, if_pos ht, if_pos ht]; trivial
          rw [if_neg ht] at hne ⊢
          obtain ⟨k, hk⟩ := ihT tc a b c (l.map (· - 1)) ts' j j' h1 h2 (bind_ne hne)
          refine ⟨max m k + 1, ?_⟩
          rw [toTerm, reader_stable hy (by simp) (Nat.le_max_left m k)]
          simp only [Res.bind]
          rw [if_neg he, if_neg ha, if_neg hra, if_neg hd, if_neg hc, if_neg ht,
            toTerm_stable rfl hk.ne.2 (Nat.le_max_right m k)]
          refine hk.bind fun d1 i1 i1' ts1 _ _ hra1 g1 g2 => ⟨rfl, ?_, ts1, g1, g2⟩
          intro hc'
          split
          · exact hra
          · simp [SX.type]

/-! ## Reading tokens terminates -/

/-- an answer was given, and it used up some of the tokens -/
def Uses (ts : List Tok) (x : Res) : Prop :=
  x ≠ .fuel ∧ ∀ d j, x = .ok d j → ∃ ts', Render ts' j ∧ ts'.length < ts.length

theorem Uses.le {ts ts' : List Tok} {x : Res} (h : Uses ts x) (hl : ts.length ≤ ts'.length) : Uses ts' x := by
  refine ⟨h.1, fun d j e => ?_⟩
  obtain ⟨ts'', h1, h2⟩ := h.2 d j e
  exact ⟨ts'', h1, by omega⟩

theorem Uses.ok {ts ts' : List Tok} {d : SX} {j : List Char} (h : Render ts' j) (hl : ts'.length < ts.length) :
    Uses ts (.ok d j) :=
  ⟨by simp, fun _ _ e => by cases e; exact ⟨ts', h, hl⟩⟩

theorem Uses.err {ts : List Tok} : Uses ts .err := ⟨by simp, by simp⟩

theorem Uses.bind {ts ts' : List Tok} {x : Res} {f : SX → List Char → Res} (h : Uses ts x)
    (hl : ts.length ≤ ts'.length) (hf : ∀ d j, ∃ d', f d j = .ok d' j) : Uses ts' (x.bind f) := by
  obtain ⟨h1, h2⟩ := h
  cases x with
  | fuel => exact absurd rfl h1
  | err => exact .err
  | ok d j =>
    obtain ⟨d', hd'⟩ := hf d j
    obtain ⟨ts'', g1, g2⟩ := h2 d j rfl
    simp only [Res.bind]
    rw [hd']
    exact .ok g1 (by omega)

/-- Reading any sequence of tokens terminates. -/
theorem terminates : ∀ (k : Nat) (ts : List Tok), ts.length = k →
    (∀ i, RenderT ts i → ts ≠ [] → ∃ n, Uses ts (reader n [] [] i)) ∧
    (∀ i, Render ts i → ∃ n, Uses ts (subread n [] i)) ∧
    (∀ tc a b c l i, Render ts i → ∃ n, Uses ts (toTerm n [] tc a b c l i)) := by
  intro k
  induction k using Nat.strongRecOn with
  | ind k ih =>
  intro ts hk
  have hR : ∀ i, RenderT ts i → ts ≠ [] → ∃ n, Uses ts (reader n [] [] i) := by
    intro i h hne
    cases h with
    | nil => exact absurd rfl hne
    | cons t ts rest hok hf hr =>
      obtain ⟨ihR, ihS, ihT⟩ := ih ts.length (by simp at hk; omega) ts rfl
      have hl : ts.length ≤ (t :: ts).length := by simp
      have hlt : ts.length < (t :: ts).length := by simp
      cases t with
      | atom txt d f =>
        refine ⟨1, ?_⟩
        show Uses _ (reader 1 [] [] (txt ++ rest))
        rw [reader_lexical (hok.2 rest hf)]
        exact .ok hr hlt
      | opn c =>
        simp only [Tok.text, List.singleton_append]
        rcases hok with rfl | rfl
        · obtain ⟨n, hn⟩ := ihT ')' true true true none rest hr
          exact ⟨n+1, by rw [reader_opn_paren]; exact hn.le hl⟩
        · obtain ⟨n, hn⟩ := ihT ']' true true true none rest hr
          exact ⟨n+1, by rw [reader_opn_brack]; exact hn.le hl⟩
      | close c =>
        simp only [Tok.text, List.singleton_append]
        exact ⟨1, by rw [reader_close hok]; exact .ok hr hlt⟩
      | dot =>
        simp only [Tok.text, List.singleton_append]
        exact ⟨1, by rw [reader_lexical (lexical_dot rest hf)]; exact .ok hr hlt⟩
      | quote =>
        simp only [Tok.text, List.singleton_append]
        obtain ⟨n, hn⟩ := ihS rest hr
        exact ⟨n+1, by rw [reader_quote]; exact hn.bind hl fun _ _ => ⟨_, rfl⟩⟩
      | fload =>
        simp only [Tok.text]
        obtain ⟨n, hn⟩ := ihS rest hr
        exact ⟨n+1, by rw [reader_fload n rest hf]; exact hn.bind hl fun _ _ => ⟨_, rfl⟩⟩
      | dcom =>
        simp only [Tok.text, List.cons_append, List.nil_append]
        obtain ⟨n, hn⟩ := ihS rest hr
        exact ⟨n+1, by rw [reader_dcom]; exact hn.bind hl fun _ _ => ⟨_, rfl⟩⟩
      | vec =>
        simp only [Tok.text, List.cons_append, List.nil_append]
        obtain ⟨n, hn⟩ := ihT ')' false true false none rest hr
        exact ⟨n+1, by rw [reader_vec]; exact hn.bind hl fun _ _ => ⟨_, rfl⟩⟩
      | box =>
        simp only [Tok.text, List.cons_append, List.nil_append]
        obtain ⟨n, hn⟩ := ihS rest hr
        exact ⟨n+1, by rw [reader_box]; exact hn.bind hl fun _ _ => ⟨_, rfl⟩⟩
  refine ⟨hR, ?_, ?_⟩
  · intro i h
    obtain ⟨i0, h0, hs⟩ := h.strip
    suffices hh : ∃ n, Uses ts (subread n [] i0) by
      obtain ⟨n, hn⟩ := hh
      obtain ⟨m, hm⟩ := (hs subLoop _ hn.1).2 n rfl
      change subread m [] i = _ at hm
      exact ⟨m, by rw [hm]; exact hn⟩
    by_cases hne : ts = []
    · subst hne
      cases h0
      exact ⟨2, .err⟩
    obtain ⟨n, hn⟩ := hR i0 h0 hne
    cases hx : reader n [] [] i0 with
    | fuel => rw [hx] at hn; exact absurd rfl hn.1
    | err => exact ⟨n+1, by rw [subread, hx]; exact .err⟩
    | ok d j =>
      rw [hx] at hn
      obtain ⟨ts', h1, h2⟩ := hn.2 d j rfl
      obtain ⟨_, ihS, _⟩ := ih ts'.length (by omega) ts' rfl
      obtain ⟨m, hm⟩ := ihS j h1
      refine ⟨max n m + 1, ?_⟩
      rw [subread, reader_stable hx (by simp) (Nat.le_max_left n m)]
      simp only [Res.bind]
      rw [subread_stable rfl hm.1 (Nat.le_max_right n m)]
      split
      · exact .err
      · split
        · exact hm.le (by omega)
        · split
          · exact .err
          · split
            · exact .err
            · exact .ok h1 h2
  · intro tc a b c l i h
    obtain ⟨i0, h0, hs⟩ := h.strip
    suffices hh : ∃ n, Uses ts (toTerm n [] tc a b c l i0) by
      obtain ⟨n, hn⟩ := hh
      obtain ⟨m, hm⟩ := (hs (termLoop tc a b c l) _ hn.1).2 n rfl
      change toTerm m [] tc a b c l i = _ at hm
      exact ⟨m, by rw [hm]; exact hn⟩
    by_cases hne : ts = []
    · subst hne
      cases h0
      exact ⟨2, .err⟩
    obtain ⟨n, hn⟩ := hR i0 h0 hne
    cases hx : reader n [] [] i0 with
    | fuel => rw [hx] at hn; exact absurd rfl hn.1
    | err => exact ⟨n+1, by rw [toTerm, hx]; exact .err⟩
    | ok d j =>
      rw [hx] at hn
      obtain ⟨ts', h1, h2⟩ := hn.2 d j rfl
      obtain ⟨_, _, ihT⟩ := ih ts'.length (by omega) ts' rfl
      have hra : d.type ≠ .sym cs!"read-as" := by
        obtain ⟨m, hm⟩ := (sim_all n).1 ts i0 i0 h0 h0 (by rw [hx]; simp)
        rw [hx] at hm
        cases hy : reader m [] [] i0 with
        | err => rw [hy] at hm; exact hm.elim
        | fuel => rw [hy] at hm; exact hm.elim
        | ok d' j' => rw [hy] at hm; exact hm.2.1 rfl
      obtain ⟨m1, hm1⟩ := ihT tc a b c l j h1
      obtain ⟨m2, hm2⟩ := ihT tc a b c (some 1) j h1
      obtain ⟨m3, hm3⟩ := ihT tc a b c (l.map (· - 1)) j h1
      refine ⟨n + m1 + m2 + m3 + 1, ?_⟩
      rw [toTerm, reader_stable hx (by simp) (by omega : n ≤ n + m1 + m2 + m3)]
      simp only [Res.bind]
      rw [if_neg hra, toTerm_stable rfl hm1.1 (by omega : m1 ≤ n + m1 + m2 + m3),
        toTerm_stable rfl hm2.1 (by omega : m2 ≤ n + m1 + m2 + m3),
        toTerm_stable rfl hm3.1 (by omega : m3 ≤ n + m1 + m2 + m3)]
      split
      · exact .err
      · split
        · exact hm1.le (by omega)
        · split
          · exact hm2.le (by omega)
          · split
            · split
              · exact .ok h1 h2
              · exact .err
            · split
              · exact .err
              · exact hm3.bind (by omega) fun _ _ => ⟨_, rfl⟩

/-- the same answer at top level -/
def SimTop : Top → Top → Prop
  | .ok d i r, .ok d' i' r' => d = d' ∧ r = [] ∧ r' = [] ∧ ∃ ts, Render ts i ∧ Render ts i'
  | .err, .err => True
  | _, _ => False

theorem SimTop.ne {x y : Top} (h : SimTop x y) : x ≠ .fuel ∧ y ≠ .fuel := by
  cases x <;> cases y <;> simp_all [SimTop]

theorem top_sim : ∀ (n : Nat) (ts : List Tok) (i i' : List Char), Render ts i → Render ts i' →
    readTop n [] i ≠ .fuel → ∃ m, SimTop (readTop n [] i) (readTop m [] i') := by
  intro n
  induction n with
  | zero => intro _ _ _ _ _ h; rw [readTop] at h; exact absurd rfl h
  | succ n ih =>
    intro ts i i' h h' hne
    obtain ⟨i0, hi0, hs⟩ := h.strip
    obtain ⟨i0', hi0', hs'⟩ := h'.strip
    have e := (hs topLoop (readTop (n+1) [] i) hne).1 (n+1) rfl
    change readTop (n+1) [] i0 = _ at e
    rw [← e] at hne ⊢
    suffices hh : ∃ m, SimTop (readTop (n+1) [] i0) (readTop m [] i0') by
      obtain ⟨m, hm⟩ := hh
      obtain ⟨m', hm'⟩ := (hs' topLoop (readTop m [] i0') hm.ne.2).2 m rfl
      change readTop m' [] i' = _ at hm'
      exact ⟨m', by rw [hm']; exact hm⟩
    rw [readTop] at hne ⊢
    have hf : reader n [] [] i0 ≠ .fuel := by
      intro hf; rw [hf] at hne; exact hne rfl
    obtain ⟨m, hm⟩ := (sim_all n).1 ts i0 i0' hi0 hi0' hf
    cases hx : reader n [] [] i0 with
    | fuel => exact absurd hx hf
    | err =>
      rw [hx] at hm
      cases hy : reader m [] [] i0' with
      | err => exact ⟨m+1, by rw [readTop, hy]; trivial⟩
      | ok d i => rw [hy] at hm; exact hm.elim
      | fuel => rw [hy] at hm; exact hm.elim
    | ok d j =>
      rw [hx] at hm hne
      cases hy : reader m [] [] i0' with
      | err => rw [hy] at hm; exact hm.elim
      | fuel => rw [hy] at hm; exact hm.elim
      | ok d' j' =>
        rw [hy] at hm
        obtain ⟨rfl, hra, ts', h1, h2⟩ := hm
        have hra := hra rfl
        simp only at hne ⊢
        by_cases ha : d.type = .sym cs!"atmosphere"
        · rw [if_pos ha] at hne ⊢
          obtain ⟨k, hk⟩ := ih ts' j j' h1 h2 hne
          refine ⟨max m k + 1, ?_⟩
          rw [readTop, reader_stable hy (by simp) (Nat.le_max_left m k)]
          simp only
          rw [if_pos ha, readTop_stable rfl hk.ne.2 (Nat.le_max_right m k)]
          exact hk
        · refine ⟨m+1, ?_⟩
          rw [readTop, hy]; simp only
          rw [if_neg ha, if_neg hra, if_neg ha, if_neg hra]
          by_cases ht : d.type = .sym cs!"terminator"
          · rw [if_pos ht, if_pos ht]; trivial
          · rw [if_neg ht, if_neg ht]
            exact ⟨rfl, rfl, rfl, ts', h1, h2⟩

theorem top_terminates : ∀ (k : Nat) (ts : List Tok) (i : List Char), ts.length = k → Render ts i →
    ∃ n, readTop n [] i ≠ .fuel := by
  intro k
  induction k using Nat.strongRecOn with
  | ind k ih =>
  intro ts i hk h
  obtain ⟨i0, h0, hs⟩ := h.strip
  suffices hh : ∃ n, readTop n [] i0 ≠ .fuel by
    obtain ⟨n, hn⟩ := hh
    obtain ⟨m, hm⟩ := (hs topLoop _ hn).2 n rfl
    change readTop m [] i = _ at hm
    exact ⟨m, by rw [hm]; exact hn⟩
  by_cases hne : ts = []
  · subst hne
    cases h0
    exact ⟨2, by show (Top.ok eofD [] [] ≠ Top.fuel); simp⟩
  obtain ⟨n, hn⟩ := (terminates ts.length ts rfl).1 i0 h0 hne
  obtain ⟨m', hm'⟩ := (sim_all n).1 ts i0 i0 h0 h0 hn.1
  cases hx : reader n [] [] i0 with
  | fuel => exact absurd hx hn.1
  | err => exact ⟨n+1, by rw [readTop, hx]; simp⟩
  | ok d j =>
    rw [hx] at hn hm'
    have hra : d.type ≠ .sym cs!"read-as" := by
      cases hy : reader m' [] [] i0 with
      | err => rw [hy] at hm'; exact hm'.elim
      | fuel => rw [hy] at hm'; exact hm'.elim
      | ok d' j' => rw [hy] at hm'; exact hm'.2.1 rfl
    obtain ⟨ts', h1, h2⟩ := hn.2 d j rfl
    obtain ⟨m, hm⟩ := ih ts'.length (by omega) ts' j rfl h1
    refine ⟨max n m + 1, ?_⟩
    rw [readTop, reader_stable hx (by simp) (Nat.le_max_left n m)]
    simp only
    rw [if_neg hra, readTop_stable rfl hm (Nat.le_max_right n m)]
    split
    · exact hm
    · split <;> simp

/-! ## C27 -/

/-- C27, insertion: two texts made of the same tokens, with arbitrary whitespace, line comments and (nested)
block comments between them, both give the same datum, leaving texts again made of the same tokens, or both are
errors; reading always terminates. -/
theorem c27_same (ts : List Tok) (t t' : List Char) (h : Render ts t) (h' : Render ts t') :
    ((∃ n, ∀ m ≥ n, readTop m [] t = .err) ∧ (∃ n, ∀ m ≥ n, readTop m [] t' = .err)) ∨
    ∃ d rest rest' ts', (∃ n, ∀ m ≥ n, readTop m [] t = .ok d rest []) ∧
      (∃ n, ∀ m ≥ n, readTop m [] t' = .ok d rest' []) ∧ Render ts' rest ∧ Render ts' rest' := by
  obtain ⟨n, hn⟩ := top_terminates _ ts t rfl h
  obtain ⟨m, hm⟩ := top_sim n ts t t' h h' hn
  cases hx : readTop n [] t with
  | fuel => exact absurd hx hn
  | err =>
    rw [hx] at hm
    cases hy : readTop m [] t' with
    | err =>
      exact .inl ⟨⟨n, fun k hk => readTop_stable hx (by simp) hk⟩, ⟨m, fun k hk => readTop_stable hy (by simp) hk⟩⟩
    | fuel => rw [hy] at hm; exact hm.elim
    | ok d i r => rw [hy] at hm; exact hm.elim
  | ok d i r =>
    rw [hx] at hm
    cases hy : readTop m [] t' with
    | err => rw [hy] at hm; exact hm.elim
    | fuel => rw [hy] at hm; exact hm.elim
    | ok d' i' r' =>
      rw [hy] at hm
      obtain ⟨rfl, rfl, rfl, ts', h1, h2⟩ := hm
      exact .inr ⟨d, i, i', ts', ⟨n, fun k hk => readTop_stable hx (by simp) hk⟩,
        ⟨m, fun k hk => readTop_stable hy (by simp) hk⟩, h1, h2⟩

/-- C27, balance: a block comment is skipped exactly: after `#|`, reading goes on at `rest` if and only if the
text is a balanced body, the closing `|#`, and `rest`. -/
theorem c27_block (t rest : List Char) :
    (∃ n, reader n [] [] (cs!"#|" ++ t) = .ok atmD rest) ↔ ∃ b, Body b ∧ t = b ++ cs!"|#" ++ rest := by
  rw [← blockComment_iff]
  constructor
  · rintro ⟨n, hn⟩
    cases n with
    | zero => rw [reader] at hn; cases hn
    | succ n =>
      change reader (n+1) [] [] ('#' :: '|' :: t) = _ at hn
      rw [reader_block] at hn
      cases hb : blockComment 0 t with
      | none => rw [hb] at hn; cases hn
      | some i => rw [hb] at hn; cases hn; rfl
  · intro h
    refine ⟨1, ?_⟩
    change reader 1 [] [] ('#' :: '|' :: t) = _
    rw [reader_block, h]

/-- C27, unterminated comments: if the text after `#|` has no balanced body followed by `|#`, reading is an error,
wherever the comment stands: before a datum at top level, inside a list or vector, or after a quote. -/
theorem c27_unterminated (t : List Char) (h : ∀ b rest, Body b → t ≠ b ++ cs!"|#" ++ rest) (n : Nat) :
    readTop (n+2) [] (cs!"#|" ++ t) = .err ∧ subread (n+2) [] (cs!"#|" ++ t) = .err ∧
    ∀ tc a b c l, toTerm (n+2) [] tc a b c l (cs!"#|" ++ t) = .err := by
  have hb : blockComment 0 t = none := by
    cases hb : blockComment 0 t with
    | none => rfl
    | some rest =>
      obtain ⟨b, h1, h2⟩ := (blockComment_iff t rest).1 hb
      exact absurd h2 (h b rest h1)
  have hr : reader (n+1) [] [] (cs!"#|" ++ t) = .err := by
    change reader (n+1) [] [] ('#' :: '|' :: t) = _
    rw [reader_block, hb]
  refine ⟨?_, ?_, ?_⟩
  · rw [readTop, hr]
  · rw [subread, hr]; rfl
  · intro tc a b c l; rw [toTerm, hr]; rfl

/-- C27, datum comments: `#;` and a datum are skipped: reading goes on after the datum. -/
theorem c27_datum_comment (r : List Ext) (t rest : List Char) (d : SX) (n : Nat) (h : subread n r t = .ok d rest)
    (m : Nat) (hm : n < m) : reader m [] r (cs!"#;" ++ t) = .ok atmD rest := by
  obtain ⟨k, rfl⟩ : ∃ k, m = k + 1 := ⟨m - 1, by omega⟩
  change reader (k+1) [] r ('#' :: ';' :: t) = _
  rw [reader, initialReader, show lexical ('#' :: ';' :: t) = none from rfl]
  simp [inputPrefix, inputDelimitedPrefix, subread_stable h (by simp) (show n ≤ k by omega), Res.bind]

end Verif.Reader

import Verif.Ports.Spec

/-
C71: input ports.
-/
namespace Verif.Ports

/-- ports that hold the bytes `l`. -/
inductive Rel (sgn : Bool) : Port → List Nat → Prop
  | closed : Rel sgn .closed []
  | file (l : List Nat) (h : ∀ b ∈ l, b < 256) : Rel sgn (.file l) l
  | string (pre l : List Nat) (h : ∀ b ∈ l, b < 256) (h0 : ∀ b ∈ l, b ≠ 0 ∧ (sgn = true → b < 128)) :
      Rel sgn (.string (pre ++ l ++ [0]) pre.length) l
  | bytes (pre l : List Nat) (h : ∀ b ∈ l, b < 256) : Rel sgn (.bytes (pre ++ l) pre.length) l

theorem Rel.lt {sgn : Bool} {p : Port} {l : List Nat} (h : Rel sgn p l) : ∀ b ∈ l, b < 256 := by
  cases h with
  | closed => simp
  | file _ h => exact h
  | string _ _ h _ => exact h
  | bytes _ _ h => exact h

theorem Rel.size {sgn : Bool} {p : Port} {l : List Nat} (h : Rel sgn p l) : l.length ≤ size p := by
  cases h <;> simp [Ports.size] <;> omega

theorem charVal_clean {sgn : Bool} {b : Nat} (h : sgn = true → b < 128) : charVal sgn b = b := by
  unfold charVal
  cases sgn with
  | false => simp
  | true => have := h rfl; simp; omega

theorem getch_nil {sgn : Bool} {p : Port} (h : Rel sgn p []) : getch sgn p = some (EOF, p) := by
  cases h with
  | closed => rfl
  | file => rfl
  | string pre => simp [getch, charVal]
  | bytes pre => simp [getch]

theorem getch_cons {sgn : Bool} {p : Port} {b : Nat} {l : List Nat} (h : Rel sgn p (b :: l)) :
    ∃ p', getch sgn p = some ((b : Int), p') ∧ Rel sgn p' l ∧ ungetch sgn b p' = some p := by
  cases h with
  | file _ h =>
    exact ⟨.file l, rfl, .file l (fun x hx => h x (by simp [hx])), by simp [ungetch]⟩
  | string pre _ h h0 =>
    have hc := h0 b (by simp)
    have hv := charVal_clean hc.2
    refine ⟨.string (pre ++ b :: l ++ [0]) (pre.length + 1), ?_, ?_, ?_⟩
    · simp [getch, hv, hc.1]
    · have := Rel.string (sgn := sgn) (pre ++ [b]) l (fun x hx => h x (by simp [hx])) (fun x hx => h0 x (by simp [hx]))
      simpa using this
    · simp [ungetch, hv]
  | bytes pre _ h =>
    have hb := h b (by simp)
    refine ⟨.bytes (pre ++ b :: l) (pre.length + 1), ?_, ?_, ?_⟩
    · simp only [getch, List.length_append, List.length_cons]
      rw [if_neg (by omega)]
      simp
      omega
    · have := Rel.bytes (sgn := sgn) (pre ++ [b]) l (fun x hx => h x (by simp [hx]))
      simpa using this
    · simp [ungetch]

theorem charRes_nat {b : Nat} (h : b < 256) : charRes b = .char b := by
  unfold charRes mkchar
  rw [if_neg (show (b : Int) ≠ -1 by omega)]
  congr 1
  omega

theorem u8Res_nat {b : Nat} (h : b < 256) : u8Res b = .num b := by
  unfold u8Res
  rw [if_neg (show (b : Int) ≠ -1 by omega)]
  congr 1
  omega

theorem readChar_rel {sgn : Bool} {p : Port} {l : List Nat} (h : Rel sgn p l) :
    ∃ p', readChar sgn p = some (Spec.first .char l, p') ∧ Rel sgn p' l.tail := by
  cases l with
  | nil => exact ⟨p, by simp [readChar, getch_nil h, Spec.first, charRes], h⟩
  | cons b l =>
    obtain ⟨p', h1, h2, -⟩ := getch_cons h
    exact ⟨p', by simp [readChar, h1, Spec.first, charRes_nat (h.lt b (by simp))], h2⟩

theorem readU8_rel {sgn : Bool} {p : Port} {l : List Nat} (h : Rel sgn p l) :
    ∃ p', readU8 sgn p = some (Spec.first .num l, p') ∧ Rel sgn p' l.tail := by
  cases l with
  | nil => exact ⟨p, by simp [readU8, getch_nil h, Spec.first, u8Res], h⟩
  | cons b l =>
    obtain ⟨p', h1, h2, -⟩ := getch_cons h
    exact ⟨p', by simp [readU8, h1, Spec.first, u8Res_nat (h.lt b (by simp))], h2⟩

theorem peekc_cons {sgn : Bool} {p : Port} {b : Nat} {l : List Nat} (h : Rel sgn p (b :: l)) :
    peekc sgn p = some ((b : Int), p) := by
  obtain ⟨p', h1, -, h3⟩ := getch_cons h
  have : (b : Int) ≠ EOF := show (b : Int) ≠ -1 by omega
  simp [peekc, h1, h3, this]

theorem peekChar_rel {sgn : Bool} {p : Port} {l : List Nat} (h : Rel sgn p l) :
    peekChar sgn p = some (Spec.first .char l, p) := by
  cases l with
  | nil => simp [peekChar, peekc, getch_nil h, Spec.first, charRes]
  | cons b l => simp [peekChar, peekc_cons h, Spec.first, charRes_nat (h.lt b (by simp))]

theorem peekU8_rel {sgn : Bool} {p : Port} {l : List Nat} (h : Rel sgn p l) :
    peekU8 sgn p = some (Spec.first .num l, p) := by
  cases l with
  | nil => simp [peekU8, peekc, getch_nil h, Spec.first, u8Res]
  | cons b l => simp [peekU8, peekc_cons h, Spec.first, u8Res_nat (h.lt b (by simp))]

theorem getString_clean {l : List Nat} (h : ∀ b ∈ l, b ≠ 0) : getString l = l := by
  unfold getString
  induction l with
  | nil => rfl
  | cons b l ih =>
    rw [List.takeWhile_cons, if_pos (by simpa using h b (by simp)), ih (fun x hx => h x (by simp [hx]))]

theorem Crlf.tail {b : Nat} {l : List Nat} (h : Spec.Crlf (b :: l)) : Spec.Crlf l := by
  unfold Spec.Crlf at h
  split at h
  · trivial
  · rename_i e; cases e; exact h.2
  · rename_i e; cases e; exact h

theorem lineLoop_rel {sgn : Bool} : ∀ (n : Nat) {p : Port} {l : List Nat} (nothing : Bool) (op : List Nat), Rel sgn p l →
    l.length < n → Spec.Crlf l → (∀ b ∈ l, b ≠ 0) → (∀ b ∈ op, b ≠ 0) →
    ∃ p', lineLoop sgn n nothing op p =
        some (if l = [] ∧ nothing = true then .eof else .str (op ++ l.takeWhile (!Spec.isEol ·)), p') ∧
      Rel sgn p' (Spec.afterLine l)
  | 0, _, l, _, _, _, hn, _, _, _ => by omega
  | n + 1, p, l, nothing, op, h, hn, hc, h0, hop => by
    obtain ⟨p', h1, h2⟩ := readChar_rel h
    cases l with
    | nil =>
      refine ⟨p', ?_, h2⟩
      simp only [lineLoop, h1, Option.bind_some, Spec.first, getString_clean hop]
      cases nothing <;> simp
    | cons b l =>
      have hb : b < 256 := h.lt b (by simp)
      simp only [lineLoop, h1, Option.bind_some, Spec.first]
      simp only [List.tail_cons] at h2
      simp only [List.length_cons] at hn
      split
      · rename_i e; cases e
      · rename_i e; cases e
        refine ⟨p', ?_, ?_⟩
        · simp [getString_clean hop, Spec.isEol]
        · simpa [Spec.afterLine, Spec.isEol, Spec.afterEol] using h2
      · rename_i e; cases e
        have hc' : l.head? = some 10 ∧ Spec.Crlf l := hc
        cases l with
        | nil => simp at hc'
        | cons c l =>
          have hc10 : c = 10 := by simpa using hc'.1
          subst hc10
          obtain ⟨p'', h3, h4⟩ := lineLoop_rel n false op h2 (by simpa using hn) hc'.2 (fun b hb => h0 b (by simp [hb])) hop
          refine ⟨p'', ?_, ?_⟩
          · rw [h3]; simp [Spec.isEol]
          · simpa [Spec.afterLine, Spec.isEol, Spec.afterEol] using h4
      · rename_i c h10 h13 e
        cases e
        have hb10 : b ≠ 10 := fun e => h10 (by rw [e])
        have hb13 : b ≠ 13 := fun e => h13 (by rw [e])
        rw [Nat.mod_eq_of_lt hb]
        obtain ⟨p'', h3, h4⟩ := lineLoop_rel n false (op ++ [b]) h2 (by omega) (Crlf.tail hc) (fun b hb => h0 b (by simp [hb]))
          (by
            intro x hx
            rcases List.mem_append.1 hx with hx | hx
            · exact hop x hx
            · simp at hx; subst hx; exact h0 x (by simp))
        refine ⟨p'', ?_, ?_⟩
        · rw [h3]; simp [Spec.isEol, hb10, hb13]
        · simpa [Spec.afterLine, Spec.isEol, hb10, hb13] using h4
      · rename_i h1 h2 h3 h4
        exact absurd rfl (h4 b)

theorem paste_cons (s : List Nat) (i b : Nat) (l : List Nat) (h : i < s.length) :
    Spec.paste (s.set i b) (i + 1) l = Spec.paste s i (b :: l) := by
  have e : (s.take (i + 1)).set i b = s.take i ++ [b] := by
    rw [List.take_add_one, List.getElem?_eq_getElem h, List.set_append_right _ _ (by simp; omega)]
    simp [Nat.min_eq_left (Nat.le_of_lt h)]
  unfold Spec.paste
  rw [List.take_set, e, List.drop_set_of_lt (by omega)]
  simp [Nat.add_comm, Nat.add_left_comm]

theorem paste_nil (s : List Nat) (i : Nat) : Spec.paste s i [] = s := by simp [Spec.paste]

theorem subLoop_rel {sgn : Bool} (start : Nat) : ∀ (n i : Nat) (str : List Nat) {p : Port} {l : List Nat}, Rel sgn p l →
    start ≤ i → i + n ≤ str.length →
    ∃ p', subLoop sgn start n i str p =
        some (if i = start ∧ n ≠ 0 ∧ l = [] then .eof else .num (i - start + (l.take n).length),
          Spec.paste str i (l.take n), p') ∧ Rel sgn p' (l.drop n)
  | 0, i, str, p, l, h, _, _ => ⟨p, by simp [subLoop, paste_nil], h⟩
  | n + 1, i, str, p, l, h, hi, hl => by
    obtain ⟨p', h1, h2⟩ := readChar_rel h
    cases l with
    | nil =>
      refine ⟨p', ?_, h2⟩
      simp [subLoop, h1, Spec.first, paste_nil]
    | cons b l =>
      have hb : b < 256 := h.lt b (by simp)
      obtain ⟨p'', h3, h4⟩ := subLoop_rel start n (i + 1) (str.set i b) h2 (by omega) (by simp; omega)
      refine ⟨p'', ?_, by simpa using h4⟩
      simp only [subLoop, h1, Option.bind_some, Spec.first]
      rw [if_pos (by omega), Nat.mod_eq_of_lt hb, h3, paste_cons _ _ _ _ (by omega)]
      rw [if_neg (by omega), if_neg (by simp)]
      simp
      omega

theorem subU8Loop_rel {sgn : Bool} (start : Nat) : ∀ (n i : Nat) (str : List Nat) {p : Port} {l : List Nat}, Rel sgn p l →
    start ≤ i → i + n ≤ str.length →
    ∃ p', subU8Loop sgn start n i str p =
        some (if i = start ∧ n ≠ 0 ∧ l = [] then .eof else .num (i - start + (l.take n).length),
          Spec.paste str i (l.take n), p') ∧ Rel sgn p' (l.drop n)
  | 0, i, str, p, l, h, _, _ => ⟨p, by simp [subU8Loop, paste_nil], h⟩
  | n + 1, i, str, p, l, h, hi, hl => by
    obtain ⟨p', h1, h2⟩ := readU8_rel h
    cases l with
    | nil =>
      refine ⟨p', ?_, h2⟩
      simp [subU8Loop, h1, Spec.first, paste_nil]
    | cons b l =>
      have hb : b < 256 := h.lt b (by simp)
      obtain ⟨p'', h3, h4⟩ := subU8Loop_rel start n (i + 1) (str.set i b) h2 (by omega) (by simp; omega)
      refine ⟨p'', ?_, by simpa using h4⟩
      simp only [subU8Loop, h1, Option.bind_some, Spec.first]
      rw [if_pos (by omega), Nat.mod_eq_of_lt hb, h3, paste_cons _ _ _ _ (by omega)]
      rw [if_neg (by omega), if_neg (by simp)]
      simp
      omega

theorem cut (k c : Nat) (l : List Nat) :
    (if (l.take k).length = k then Spec.paste (List.replicate k c) 0 (l.take k)
      else (Spec.paste (List.replicate k c) 0 (l.take k)).take (l.take k).length) = l.take k := by
  split
  · rename_i h
    simp [Spec.paste] at h ⊢
    omega
  · simp [Spec.paste]

/-- carriage returns and NULs of what is left of a port. -/
def LinesOk (l : List Nat) : Prop := Spec.Crlf l ∧ ∀ b ∈ l, b ≠ 0

theorem LinesOk.drop : ∀ {l : List Nat} (n : Nat), LinesOk l → LinesOk (l.drop n)
  | _, 0, h => h
  | [], _ + 1, h => h
  | _ :: _, n + 1, h => LinesOk.drop n ⟨Crlf.tail h.1, fun b hb => h.2 b (by simp [hb])⟩

theorem afterLine_drop (l : List Nat) : ∃ n, Spec.afterLine l = l.drop n := by
  have h1 : ∀ l : List Nat, ∃ n, Spec.afterEol l = l.drop n := by
    intro l
    unfold Spec.afterEol
    split
    · exact ⟨2, rfl⟩
    · exact ⟨1, rfl⟩
    · exact ⟨0, rfl⟩
  have h2 : ∀ l : List Nat, ∃ n, l.dropWhile (!Spec.isEol ·) = l.drop n := by
    intro l
    induction l with
    | nil => exact ⟨0, rfl⟩
    | cons b l ih =>
      rw [List.dropWhile_cons]
      split
      · obtain ⟨n, hn⟩ := ih; exact ⟨n + 1, by simpa using hn⟩
      · exact ⟨0, rfl⟩
  obtain ⟨n, hn⟩ := h2 l
  obtain ⟨m, hm⟩ := h1 (l.drop n)
  exact ⟨n + m, by rw [Spec.afterLine, hn, hm, List.drop_drop]⟩

theorem step_rel {sgn : Bool} {p : Port} {l : List Nat} (h : Rel sgn p l) (o : Op) (hr : Spec.InRange o)
    (hl : o = .readLine → LinesOk l) :
    ∃ p', step sgn p o = some ((Spec.step l o).1, p') ∧ Rel sgn p' (Spec.step l o).2 := by
  cases o with
  | readChar =>
    obtain ⟨p', h1, h2⟩ := readChar_rel h
    exact ⟨p', by simp [step, h1, Spec.step], h2⟩
  | peekChar => exact ⟨p, by simp [step, peekChar_rel h, Spec.step], h⟩
  | readU8 =>
    obtain ⟨p', h1, h2⟩ := readU8_rel h
    exact ⟨p', by simp [step, h1, Spec.step], h2⟩
  | peekU8 => exact ⟨p, by simp [step, peekU8_rel h, Spec.step], h⟩
  | readLine =>
    obtain ⟨hc, h0⟩ := hl rfl
    obtain ⟨p', h1, h2⟩ := lineLoop_rel (size p + 1) true [] h (by have := h.size; omega) hc h0 (by simp)
    refine ⟨p', ?_, h2⟩
    simp only [step, readLine, h1, Option.map_some, Spec.step, Spec.line]
    by_cases hl : l = [] <;> simp [hl]
  | readSub k =>
    obtain ⟨p', h1, h2⟩ := subLoop_rel 0 k 0 (List.replicate k 63) h (by omega) (by simp)
    refine ⟨p', ?_, h2⟩
    have hc := cut k 63 l
    simp only [step, readSub, readSub!, Nat.sub_zero, h1, Option.bind_some, Spec.step, Spec.block]
    by_cases he : k ≠ 0 ∧ l = []
    · simp [he]
    · rw [if_neg (fun h => he h.2), if_neg he]
      simp only [Nat.zero_add, Option.map_some, hc]
  | readSubU8 k =>
    obtain ⟨p', h1, h2⟩ := subU8Loop_rel 0 k 0 (List.replicate k 0) h (by omega) (by simp)
    refine ⟨p', ?_, h2⟩
    have hc := cut k 0 l
    simp only [step, readSubU8, readSubU8!, Nat.sub_zero, h1, Option.bind_some, Spec.step, Spec.block]
    by_cases he : k ≠ 0 ∧ l = []
    · simp [he]
    · rw [if_neg (fun h => he h.2), if_neg he]
      simp only [Nat.zero_add, Option.map_some, hc]
  | readSub! s i j =>
    by_cases hij : i ≤ j
    · have hr : j ≤ s.length := hr
      obtain ⟨p', h1, h2⟩ := subLoop_rel i (j - i) i s h (Nat.le_refl _) (by omega)
      refine ⟨p', ?_, h2⟩
      simp only [step, readSub!, h1, Option.map_some, Spec.step, Spec.count]
      have : (True ∧ j - i ≠ 0 ∧ l = []) ↔ (i < j ∧ l = []) := by
        constructor
        · rintro ⟨-, h, h'⟩; exact ⟨by omega, h'⟩
        · rintro ⟨h, h'⟩; exact ⟨trivial, by omega, h'⟩
      simp only [this, Nat.sub_self, Nat.zero_add]
    · have e : j - i = 0 := by omega
      refine ⟨p, ?_, by simpa [Spec.step, e] using h⟩
      simp only [step, readSub!, e, subLoop, Option.map_some, Spec.step, Spec.count, List.take_zero, paste_nil]
      rw [if_neg (by omega)]
      simp
  | readSubU8! s i j =>
    by_cases hij : i ≤ j
    · have hr : j ≤ s.length := hr
      obtain ⟨p', h1, h2⟩ := subU8Loop_rel i (j - i) i s h (Nat.le_refl _) (by omega)
      refine ⟨p', ?_, h2⟩
      simp only [step, readSubU8!, h1, Option.map_some, Spec.step, Spec.count]
      have : (True ∧ j - i ≠ 0 ∧ l = []) ↔ (i < j ∧ l = []) := by
        constructor
        · rintro ⟨-, h, h'⟩; exact ⟨by omega, h'⟩
        · rintro ⟨h, h'⟩; exact ⟨trivial, by omega, h'⟩
      simp only [this, Nat.sub_self, Nat.zero_add]
    · have e : j - i = 0 := by omega
      refine ⟨p, ?_, by simpa [Spec.step, e] using h⟩
      simp only [step, readSubU8!, e, subU8Loop, Option.map_some, Spec.step, Spec.count, List.take_zero, paste_nil]
      rw [if_neg (by omega)]
      simp
  | close => exact ⟨.closed, rfl, .closed⟩

theorem step_drop (l : List Nat) (o : Op) : ∃ n, (Spec.step l o).2 = l.drop n := by
  cases o with
  | readChar => exact ⟨1, by simp [Spec.step]⟩
  | peekChar => exact ⟨0, rfl⟩
  | readU8 => exact ⟨1, by simp [Spec.step]⟩
  | peekU8 => exact ⟨0, rfl⟩
  | readLine => exact afterLine_drop l
  | readSub k => exact ⟨k, rfl⟩
  | readSubU8 k => exact ⟨k, rfl⟩
  | readSub! s i j => exact ⟨j - i, rfl⟩
  | readSubU8! s i j => exact ⟨j - i, rfl⟩
  | close => exact ⟨l.length, by simp [Spec.step]⟩

theorem run_rel {sgn : Bool} : ∀ (os : List Op) {p : Port} {l : List Nat}, Rel sgn p l → (∀ o ∈ os, Spec.InRange o) →
    (Op.readLine ∈ os → LinesOk l) → run sgn p os = some (Spec.run l os)
  | [], _, _, _, _, _ => rfl
  | o :: os, p, l, h, hr, hl => by
    obtain ⟨p', h1, h2⟩ := step_rel h o (hr o (by simp)) (fun e => hl (by simp [e]))
    obtain ⟨n, hn⟩ := step_drop l o
    have ih := run_rel os h2 (fun o ho => hr o (by simp [ho])) (fun hm => by
      rw [hn]; exact LinesOk.drop n (hl (by simp [hm])))
    simp only [run, h1, Option.bind_some, ih, Option.map_some, Spec.run]

/-- C71, full statement: whatever is done with an input port gives what the bytes of its source give, in order. -/
def C71Full : Prop :=
  ∀ (sgn : Bool) (src : Source) (l : List Nat) (os : List Op), (∀ b ∈ l, b < 256) → (∀ o ∈ os, Spec.InRange o) →
    run sgn (openPort l src) os = some (Spec.run l os)

/-- Holds for files and bytevectors, and for strings without NULs and (where `char` is signed) bytes from 128; lines need texts without NULs and
carriage returns that are not before a line feed. -/
theorem c71_ports_partial (sgn : Bool) (src : Source) (l : List Nat) (os : List Op) (hb : ∀ b ∈ l, b < 256)
    (hr : ∀ o ∈ os, Spec.InRange o) (hc : Spec.Clean sgn src l os) :
    run sgn (openPort l src) os = some (Spec.run l os) := by
  refine run_rel os ?_ hr hc.2
  cases src with
  | file => exact .file l hb
  | string => exact .string [] l hb (hc.1 rfl)
  | bytevector => exact .bytes [] l hb

/-- "ab\r\nc\n" and then some. -/
example : (∀ b ∈ [97, 98, 13, 10, 99, 10, 100], b < 256) ∧
    Spec.Clean true .string [97, 98, 13, 10, 99, 10, 100] [.peekChar, .readLine, .readLine, .readSub! [1, 2, 3, 4] 1 3, .readChar] ∧
    Spec.run [97, 98, 13, 10, 99, 10, 100] [.peekChar, .readLine, .readLine, .readSub! [1, 2, 3, 4] 1 3, .readChar] =
      [.char 97, .str [97, 98], .str [99], .num 1, .str [1, 100, 3, 4], .eof] := by
  refine ⟨by decide, ⟨fun _ => by decide, fun _ => ⟨?_, by decide⟩⟩, by decide⟩
  simp [Spec.Crlf]

/-- Bytevectors and files: any bytes, also 255 and 0. -/
example : Spec.Clean true .bytevector [255, 0, 200] [.readU8, .peekU8, .readSubU8 5] ∧
    Spec.run [255, 0, 200] [.readU8, .peekU8, .readSubU8 5] = [.num 255, .num 0, .bytes [0, 200]] :=
  ⟨⟨by simp, by simp⟩, by decide⟩

/-- Where `char` is signed, the character 255 of a string reads as the end of file. -/
theorem c71_counterexample : ¬ C71Full := by
  intro h
  exact absurd (h true .string [255] [.readChar] (by decide) (by simp [Spec.InRange])) (by decide)

/-- Each of the other conditions of `c71_ports_partial` is needed: other characters from 128 of strings are read as other characters; text after a NUL
is lost in string ports and in lines; a carriage return alone does not end a line and is dropped. -/
theorem c71_counterexample_conditions :
    run true (openPort [233] .string) [.readChar] = some [.char 16777193] ∧
    Spec.run [233] [.readChar] = [.char 233] ∧
    run false (openPort [97, 0, 98] .string) [.readChar, .readChar] = some [.char 97, .eof] ∧
    Spec.run [97, 0, 98] [.readChar, .readChar] = [.char 97, .char 0] ∧
    run false (openPort [97, 0, 98, 10] .file) [.readLine] = some [.str [97]] ∧
    Spec.run [97, 0, 98, 10] [.readLine] = [.str [97, 0, 98]] ∧
    run false (openPort [97, 13, 98] .file) [.readLine] = some [.str [97, 98]] ∧
    Spec.run [97, 13, 98] [.readLine, .readLine] = [.str [97], .str [98]] := by decide

/-- Peeking at the character 255 of a string takes it away: what is looked at is not there any more. -/
theorem c71_peek_consumes (l : List Nat) :
    ∀ b, b ≠ 0 → b < 128 → run true (openPort (255 :: b :: l) .string) [.peekChar, .readChar] = some [.eof, .char b] := by
  intro b h0 hb
  have hv : charVal true b = b := charVal_clean (fun _ => hb)
  have h255 : charVal true 255 = -1 := by decide
  simp [run, step, openPort, peekChar, peekc, readChar, getch, h255, hv, h0, charRes_nat (Nat.lt_trans hb (by decide : 128 < 256))]
  simp [charRes]

end Verif.Ports

import Verif.Cbuf.Model
import Mathlib.Tactic.Common
/-
C23: string and bytevector output ports.
-/
namespace Verif.Cbuf

/-- Specification: `w` is what has been written so far.  A string port read gives the characters written up to the
first NUL (`_partial`), a bytevector port read gives all of them. -/
def spec : List Nat → List Op → List (List Nat)
  | _, [] => []
  | w, .putc c :: os => spec (w ++ [c % 256]) os
  | w, .puts s :: os => spec (w ++ (s.takeWhile (· ≠ 0)).map (· % 256)) os
  | w, .write s :: os => spec (w ++ s.map (· % 256)) os
  | w, .getString :: os => w.takeWhile (· ≠ 0) :: spec w os
  | w, .getBytes :: os => w :: spec w os

/-- the buffer holds `w` -/
def Holds (b : Buf) (w : List Nat) : Prop :=
  0 < b.buf.length ∧ ∃ rest, b.buf = w.map some ++ rest ∧ b.fill = w.length

theorem Holds.grow {b : Buf} {w : List Nat} (h : Holds b w) : Holds (cbgrow b 1) w ∧ (cbgrow b 1).fill < (cbgrow b 1).buf.length := by
  obtain ⟨h0, rest, h1, h2⟩ := h
  have hl : b.buf.length = w.length + rest.length := by rw [h1]; simp
  refine ⟨⟨?_, rest ++ List.replicate ((if b.buf.length + 1 > b.buf.length * 2 then b.buf.length * 2 + 1 else b.buf.length * 2) - b.buf.length) none, ?_, h2⟩, ?_⟩
  · simp only [cbgrow, List.length_append]; omega
  · simp only [cbgrow, h1, List.append_assoc]
  · simp only [cbgrow, List.length_append, List.length_replicate]
    split <;> omega

/-- after the check for space -/
theorem Holds.room {b : Buf} {w : List Nat} (h : Holds b w) :
    Holds (if b.fill = b.buf.length then cbgrow b 1 else b) w ∧
      (if b.fill = b.buf.length then cbgrow b 1 else b).fill < (if b.fill = b.buf.length then cbgrow b 1 else b).buf.length := by
  split
  · exact h.grow
  · refine ⟨h, ?_⟩
    obtain ⟨h0, rest, h1, h2⟩ := h
    have hl : b.buf.length = w.length + rest.length := by rw [h1]; simp
    omega

theorem put_room {b : Buf} {w : List Nat} (h : Holds b w) (hr : b.fill < b.buf.length) (c : Nat) :
    ∃ rest, put b b.fill c = some { b with buf := (w ++ [c % 256]).map some ++ rest } := by
  obtain ⟨h0, rest, h1, h2⟩ := h
  have hl : b.buf.length = w.length + rest.length := by rw [h1]; simp
  obtain ⟨x, rest, rfl⟩ : ∃ x r, rest = x :: r := by
    cases rest with
    | nil => simp at hl; omega
    | cons x r => exact ⟨x, r, rfl⟩
  refine ⟨rest, ?_⟩
  rw [put, if_pos hr]
  congr 1
  simp only [h1, h2, Buf.mk.injEq, and_true]
  rw [List.set_append_right _ _ (by simp)]
  simp

theorem putc_holds {b : Buf} {w : List Nat} (h : Holds b w) (c : Nat) : ∃ b', cbputc b c = some b' ∧ Holds b' (w ++ [c % 256]) := by
  obtain ⟨h1, h2⟩ := h.room
  obtain ⟨rest, h3⟩ := put_room h1 h2 c
  obtain ⟨_, _, _, h4⟩ := h1
  refine ⟨_, by simp only [cbputc, h3, Option.bind_eq_bind, Option.bind_some]; rfl, ?_, rest, rfl, by simp [h4]⟩
  simp; omega

theorem write_holds : ∀ {s : List Nat} {b : Buf} {w : List Nat}, Holds b w →
    ∃ b', cbwrite b s = some b' ∧ Holds b' (w ++ s.map (· % 256)) := by
  intro s
  induction s with
  | nil => intro b w h; exact ⟨b, rfl, by simpa using h⟩
  | cons c s ih =>
    intro b w h
    obtain ⟨b1, e1, h1⟩ := putc_holds h c
    obtain ⟨b2, e2, h2⟩ := ih h1
    exact ⟨b2, by simp only [cbwrite, e1, Option.bind_eq_bind, Option.bind_some]; exact e2, by simpa using h2⟩

theorem puts_holds : ∀ {s : List Nat} {b : Buf} {w : List Nat}, Holds b w →
    ∃ b', cbputs b s = some b' ∧ Holds b' (w ++ (s.takeWhile (· ≠ 0)).map (· % 256)) := by
  intro s
  induction s with
  | nil => intro b w h; exact ⟨b, rfl, by simpa using h⟩
  | cons c s ih =>
    intro b w h
    by_cases hc : c = 0
    · exact ⟨b, by simp [cbputs, hc], by simpa [hc] using h⟩
    · obtain ⟨b1, e1, h1⟩ := putc_holds h c
      obtain ⟨b2, e2, h2⟩ := ih h1
      exact ⟨b2, by simp only [cbputs, if_neg hc, e1, Option.bind_eq_bind, Option.bind_some]; exact e2, by simpa [hc] using h2⟩

theorem bytes_map (w : List Nat) (rest : List (Option Nat)) : bytes w.length (w.map some ++ rest) = some w := by
  induction w with
  | nil => simp [bytes]
  | cons c w ih => simp [bytes, ih]

theorem cstring_map (w : List Nat) (rest : List (Option Nat)) :
    cstring ((w ++ [0]).map some ++ rest) = some (w.takeWhile (· ≠ 0)) := by
  induction w with
  | nil => simp [cstring]
  | cons c w ih =>
    by_cases hc : c = 0
    · simp [cstring, hc]
    · simp only [List.cons_append, List.map_cons, cstring, if_neg hc]
      rw [ih]
      simp [hc]

theorem getString_holds {b : Buf} {w : List Nat} (h : Holds b w) :
    ∃ b', getString b = some (b', w.takeWhile (· ≠ 0)) ∧ Holds b' w := by
  obtain ⟨h1, h2⟩ := h.room
  obtain ⟨rest, h3⟩ := put_room h1 h2 0
  obtain ⟨_, _, _, h4⟩ := h1
  refine ⟨_, by
    simp only [getString, cbdata, h3, Option.bind_eq_bind, Option.bind_some, Nat.zero_mod]
    rw [cstring_map]
    rfl, ?_⟩
  · refine ⟨by simp; omega, some 0 :: rest, by simp, by simpa using h4⟩

theorem run_spec : ∀ (os : List Op) (b : Buf) (w : List Nat), Holds b w → run b os = some (spec w os) := by
  intro os
  induction os with
  | nil => intro b w _; rfl
  | cons o os ih =>
    intro b w h
    cases o with
    | putc c =>
      obtain ⟨b1, e1, h1⟩ := putc_holds h c
      simp only [run, spec, e1, Option.bind_eq_bind, Option.bind_some]; exact ih _ _ h1
    | puts s =>
      obtain ⟨b1, e1, h1⟩ := puts_holds (s := s) h
      simp only [run, spec, e1, Option.bind_eq_bind, Option.bind_some]; exact ih _ _ h1
    | write s =>
      obtain ⟨b1, e1, h1⟩ := write_holds (s := s) h
      simp only [run, spec, e1, Option.bind_eq_bind, Option.bind_some]; exact ih _ _ h1
    | getString =>
      obtain ⟨b1, e1, h1⟩ := getString_holds h
      simp only [run, spec, e1, Option.bind_eq_bind, Option.bind_some, ih _ _ h1]
    | getBytes =>
      have h' := h
      obtain ⟨_, rest, h1, h2⟩ := h
      have : getBytes b = some w := by rw [getBytes, h1, h2, bytes_map]
      simp only [run, spec, this, Option.bind_eq_bind, Option.bind_some, ih _ _ h']

/-- C23: every sequence of writes and reads of a fresh port runs without undefined behaviour (no store or
load outside the buffer, no read of unwritten bytes), whatever the number of growths; every bytevector read returns exactly the bytes
written so far, in order, and every string read returns the characters written so far up to the first NUL.
(`_partial`: the full statement has no "up to the first NUL"; see `c23_counterexample`.) -/
theorem c23_ports_partial (os : List Op) : run newcb os = some (spec [] os) :=
  run_spec os newcb [] ⟨by simp [newcb], List.replicate 64 none, by simp [newcb], rfl⟩

/-- C23: if only characters other than NUL and below 256 are written, string reads return exactly the characters written. -/
theorem c23_string_partial (s : List Nat) (hs : ∀ c ∈ s, 0 < c ∧ c < 256) : run newcb [.write s, .getString] = some [s] := by
  rw [c23_ports_partial]
  have h1 : s.map (· % 256) = s := by
    rw [List.map_congr_left (g := id)]
    · simp
    · intro c hc; exact Nat.mod_eq_of_lt (hs c hc).2
  have h2 : s.takeWhile (· ≠ 0) = s := by
    clear h1
    induction s with
    | nil => rfl
    | cons c s ih =>
      have := (hs c (by simp)).1
      rw [List.takeWhile_cons_of_pos (by simp; omega), ih (fun d hd => hs d (by simp [hd]))]
  simp only [spec, List.nil_append, h1, h2]

/-- C23: writing a string object to a bytevector port in one go returns it. -/
theorem c23_bytes (s : List Nat) (hs : ∀ c ∈ s, c < 256) : run newcb [.write s, .getBytes] = some [s] := by
  rw [c23_ports_partial]
  have h1 : s.map (· % 256) = s := by
    rw [List.map_congr_left (g := id)]
    · simp
    · intro c hc; exact Nat.mod_eq_of_lt (hs c hc)
  simp only [spec, List.nil_append, h1]

/-- the full statement of C23 for string ports: reads return everything written -/
def C23Full : Prop := ∀ s : List Nat, (∀ c ∈ s, c < 256) → run newcb [.write s, .getString] = some [s]

/-- C23 is violated: after writing "a", NUL, "b" the string read from the port is "a" only. -/
theorem c23_counterexample : ¬ C23Full := by
  intro h
  have := h [97, 0, 98] (by simp)
  rw [c23_ports_partial] at this
  simp [spec] at this

example : run newcb [.write (List.replicate 200 65), .getBytes, .puts [66, 67], .putc 256, .getString] =
    some [List.replicate 200 65, List.replicate 200 65 ++ [66, 67]] := by decide +kernel

end Verif.Cbuf

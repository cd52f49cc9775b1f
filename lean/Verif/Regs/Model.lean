/-
Model of the register file of the #F runtime: `cxm_rgc` and `rreserve`
(6.sf:440, 6.sf:589-600).
-/

namespace Verif.Regs

/-- A register file: the words from `cxg_regs` (6.sf:514) up to `cxg_rend`, in
order; `none` is a word that `realloc` returned uninitialised.  The register
pointer `r` is represented by its offset from `cxg_regs`. -/
structure File where
  words : List (Option Int)

/-- `cxg_rend - cxg_regs`. -/
def File.size (f : File) : Nat := f.words.length

/-- What a read at offset `i` from `cxg_regs` gives.  Inside the file it is the
stored word; outside it is decided by `over`: C leaves such a read undefined,
`over i = none` models that, `over i = some w` models a machine on which the
read harmlessly yields the word `w`. -/
def readAt (over : Nat → Option (Option Int)) (f : File) (i : Nat) : Option (Option Int) :=
  match f.words[i]? with
  | some w => some w
  | none => over i

/-- The loop `while (needs--) *p++ = *regs++;` (6.sf:598): `p` is at offset
`i`, `regs` at offset `i + off`, `n` iterations left.  A store outside the file
is undefined (`none`). -/
def shiftLoop (over : Nat → Option (Option Int)) (off : Nat) : Nat → Nat → File → Option File
  | _, 0, f => some f
  | i, n + 1, f =>
    match readAt over f (i + off) with
    | none => none
    | some w =>
      if i < f.size then shiftLoop over off (i + 1) n ⟨f.words.set i w⟩ else none

/-- `realloc(p, needs*sizeof(obj))` (6.sf:594) of a file: keeps the common
prefix, the rest is uninitialised.  `realloc` is assumed to succeed (the code
exits otherwise). -/
def grow (f : File) (needs : Nat) : File :=
  ⟨f.words.take needs ++ List.replicate (needs - f.size) none⟩

/-- `cxm_rgc(regs, needs)` (6.sf:589-600).  `file = none` is `cxg_regs == NULL`,
`r = none` is `regs == NULL`, `r = some k` is `regs == cxg_regs + k`.  The
result is the register file afterwards; the returned pointer is `cxg_regs`, that
is offset 0.  `assert(needs > 0)` failing is `none`. -/
def rgc (over : Nat → Option (Option Int)) (file : Option File) (r : Option Nat) (needs : Nat) :
    Option File :=
  if needs = 0 then none
  else
    let roff := r.getD 0
    match file with
    | none =>
      let f := grow ⟨[]⟩ needs
      if 0 < roff then shiftLoop over roff 0 needs f else some f
    | some f =>
      let f := if f.size < needs then grow f needs else f
      if 0 < roff then shiftLoop over roff 0 needs f else some f

/-- `rreserve(m)` (6.sf:440): the file and the offset of `r` afterwards. -/
def rreserve (over : Nat → Option (Option Int)) (f : File) (r m : Nat) : Option (File × Nat) :=
  if r + m ≥ f.size then (rgc over (some f) (some r) m).map fun f => (f, 0) else some (f, r)

end Verif.Regs

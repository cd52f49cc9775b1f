import Verif.Labels.Model
/-
Texts with labels as trees: what is written, and which objects the reader makes of it.
-/
namespace Verif.Labels

mutual
/-- external representations; labels stand for objects of the writer -/
inductive D where
  | imm (i : Imm)
  | str (s : List Char)
  | bytes (b : List Nat)
  | pair (a d : D)
  | vec (ds : DS)
  | box (a : D)
  | lab (o : Nat) (d : D)
  | ref (o : Nat)
inductive DS where
  | nil
  | cons (d : D) (ds : DS)
end

mutual
/-- the text of a representation; `num` are the numbers of the labels -/
def render (num : Nat → Nat) : D → List Char
  | .imm i => immText i
  | .str s => '"' :: esc '"' s ++ ['"']
  | .bytes b => "#u8(".toList ++ spaced (b.map fun k : Nat => dec k) ++ [')']
  | .pair a d => '(' :: render num a ++ tailText num d ++ [')']
  | .vec ds => "#(".toList ++ spaced (renders num ds) ++ [')']
  | .box a => "#&".toList ++ render num a
  | .lab o d => '#' :: dec (num o) ++ '=' :: render num d
  | .ref o => '#' :: dec (num o) ++ ['#']
/-- the text after the car of a pair -/
def tailText (num : Nat → Nat) : D → List Char
  | .pair a d => ' ' :: render num a ++ tailText num d
  | .imm .null => []
  | d => " . ".toList ++ render num d
def renders (num : Nat → Nat) : DS → List (List Char)
  | .nil => []
  | .cons d ds => render num d :: renders num ds
end

mutual
/-- the objects made by the reader -/
def build (num : Nat → Nat) : D → List Cell → List (Int × V) → Option (V × List Cell × List (Int × V))
  | .imm i, h, sh => some (.imm i, h, sh)
  | .str s, h, sh => some (.ptr h.length, h ++ [.str s], sh)
  | .bytes b, h, sh => some (.ptr h.length, h ++ [.bytes b], sh)
  | .pair a d, h, sh =>
    match build num a h sh with
    | some (v, h, sh) =>
      match build num d h sh with
      | some (w, h, sh) => some (.ptr h.length, h ++ [.pair v w], sh)
      | none => none
    | none => none
  | .vec ds, h, sh =>
    match builds num ds h sh with
    | some (vs, h, sh) => some (.ptr h.length, h ++ [.vec vs], sh)
    | none => none
  | .box a, h, sh =>
    match build num a h sh with
    | some (v, h, sh) => some (.ptr h.length, h ++ [.box v], sh)
    | none => none
  | .lab o d, h, sh =>
    if (assq (num o) sh).isSome then none else
    match build num d h ((num o, .imm (.bool false)) :: sh) with
    | some (.proc _, _, _) => none
    | some (v, h, sh) => some (v, h, setLoc (num o) v sh)
    | none => none
  | .ref o, h, sh => if (assq (num o) sh).isSome then some (.proc (num o), h, sh) else none
def builds (num : Nat → Nat) : DS → List Cell → List (Int × V) → Option (List V × List Cell × List (Int × V))
  | .nil, h, sh => some ([], h, sh)
  | .cons d ds, h, sh =>
    match build num d h sh with
    | some (v, h, sh) =>
      match builds num ds h sh with
      | some (vs, h, sh) => some (v :: vs, h, sh)
      | none => none
    | none => none
end

/-- symbols that look like numbers: `+i`, `-inf.0`, `+nan.0`, `+.5`, `-.` -/
def Odd (s : List Char) : Prop :=
  ∃ c r, s = c :: r ∧ (c = '+' ∨ c = '-') ∧
    (r.map Char.toLower ∈ ["i".toList, "inf.0".toList, "nan.0".toList] ∨
      ∃ r', r = '.' :: r' ∧ (r' = [] ∨ ∃ c2 r2, r' = c2 :: r2 ∧ '0' ≤ c2 ∧ c2 ≤ '9'))

/-- immediate data with a readable representation: fixnums in range and symbols that do not look like numbers -/
def ImmOk : Imm → Prop
  | .fix n => -536870912 ≤ n ∧ n ≤ 536870911
  | .sym s => '\x00' ∉ s ∧ ¬ Odd s
  | _ => True

mutual
/-- representations whose atoms are readable -/
def D.Ok (num : Nat → Nat) : D → Prop
  | .imm i => ImmOk i
  | .str _ => True
  | .bytes b => ∀ k ∈ b, k < 256
  | .pair a d => a.Ok num ∧ d.Ok num
  | .vec ds => ds.Ok num
  | .box a => a.Ok num
  | .lab o d => num o ≤ 536870911 ∧ d.Ok num
  | .ref o => num o ≤ 536870911
def DS.Ok (num : Nat → Nat) : DS → Prop
  | .nil => True
  | .cons d ds => d.Ok num ∧ ds.Ok num
end

mutual
/-- fuel for the reader -/
def D.sz : D → Nat
  | .imm _ => 6
  | .str _ => 6
  | .bytes b => 8 + 2 * b.length
  | .pair a d => 6 + a.sz + d.sz
  | .vec ds => 6 + ds.sz
  | .box a => 6 + a.sz
  | .lab _ d => 6 + d.sz
  | .ref _ => 6
def DS.sz : DS → Nat
  | .nil => 4
  | .cons d ds => 4 + d.sz + ds.sz
end

end Verif.Labels

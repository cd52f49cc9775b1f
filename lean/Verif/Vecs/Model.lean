/-
Vector wrapping in the macro expander, 2.sf:180-223.

Data: `ff` is #f; `atom` stands for every other datum that is not a pair, symbol, vector or the empty list
(numbers, characters, strings, booleans, boxes …).  `none` is a run-time error (list->vector of a
non-list, vector-ref of an empty vector, or recursion deeper than the fuel).  Sharing (`eq?`-ness of unchanged
parts) is not modelled.
-/
namespace Verif.Vecs

inductive D
  | nil
  | ff
  | atom (n : Nat)
  | sym (s : String)
  | pair (a b : D)
  | vec (l : List D)

/-- a proper list (`vector->list`) -/
def ofList : List D → D
  | [] => .nil
  | x :: l => .pair x (ofList l)

/-- `list->vector` argument: elements of a proper list -/
def toList : D → Option (List D)
  | .nil => some []
  | .pair a b => (toList b).map (a :: ·)
  | _ => none

/-- Scheme truth -/
def truthy : D → Bool
  | .ff => false
  | _ => true

mutual
/-- `mv2`, 2.sf:204-213 (inside `map-vecs`); `and` returns #f when its first argument is #f. -/
def mv2 (f : List D → Option D) : D → Option D
  | .vec l => f l
  | .pair a b => do
    let am ← mv2 f a
    if truthy am then
      let bm ← mv f b
      some (.pair am bm)
    else
      let bm ← mv2 f b
      if truthy bm then some (.pair a bm) else some .ff
  | _ => some .ff

/-- `mv`, 2.sf:214. -/
def mv (f : List D → Option D) : D → Option D
  | .vec l => do
    let m ← f l
    if truthy m then some m else some (.vec l)
  | .pair a b => do
    let m ← (do
      let am ← mv2 f a
      if truthy am then
        let bm ← mv f b
        some (.pair am bm)
      else
        let bm ← mv2 f b
        if truthy bm then some (.pair a bm) else some .ff)
    if truthy m then some m else some (.pair a b)
  | x => some x
end

/-- `map-vecs`, 2.sf:203-215. -/
def mapVecs (f : List D → Option D) (x : D) : Option D := mv f x

/-- `wrap-vec`, 2.sf:217, with `wrap-vecs` (218) unfolded; fuel bounds the nesting of vectors. -/
def wrapVec : Nat → List D → Option D
  | 0, _ => none
  | n + 1, v => do
    let l ← mapVecs (wrapVec n) (ofList v)
    some (.vec [l])

/-- `wrap-vecs`, 2.sf:218. -/
def wrapVecs (n : Nat) (x : D) : Option D := mapVecs (wrapVec n) x

/-- `unwrap-vec`, 2.sf:219-222. -/
def unwrapVec : Nat → List D → Option D
  | 0, _ => none
  | n + 1, v =>
    match v with
    | [l] => do
      let m ← mapVecs (unwrapVec n) l
      let es ← toList m
      some (.vec es)
    | x :: _ => some x
    | [] => none

/-- `unwrap-vecs`, 2.sf:223. -/
def unwrapVecs (n : Nat) (x : D) : Option D := mapVecs (unwrapVec n) x

end Verif.Vecs

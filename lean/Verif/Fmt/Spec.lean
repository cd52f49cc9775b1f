import Verif.Fmt.Model
/-
What templates mean: their parts, the text they stand for, and the conversions that may be left out of it.
-/
namespace Verif.Fmt

/-- the parts of templates, except loops. -/
inductive Simple where
  | lit (c : Char)          -- a character
  | arg                     -- $arg, the next argument
  | plain                   -- $a, the next argument
  | argc                    -- $argc, the number of arguments
  | argNo                   -- $arg#, the number of arguments used so far
  | prev                    -- $arg#-1
  | next                    -- $arg#+1
  | live                    -- $live
  | ret (ws : List Char)    -- $return, and the white space after it
  | dollar                  -- $$

/-- `loop b` is `${b$}`: repeat until all arguments are used. -/
inductive Item where
  | one (s : Simple)
  | loop (body : List Simple)

/-- how a part is written. -/
def Simple.text : Simple → List Char
  | .lit c => [c]
  | .arg => ['$', 'a', 'r', 'g']
  | .plain => ['$', 'a']
  | .argc => ['$', 'a', 'r', 'g', 'c']
  | .argNo => ['$', 'a', 'r', 'g', '#']
  | .prev => ['$', 'a', 'r', 'g', '#', '-', '1']
  | .next => ['$', 'a', 'r', 'g', '#', '+', '1']
  | .live => ['$', 'l', 'i', 'v', 'e']
  | .ret ws => ['$', 'r', 'e', 't', 'u', 'r', 'n'] ++ ws
  | .dollar => ['$', '$']

/-- how a template is written. -/
def unparse : List Item → List Char
  | [] => []
  | .one s :: l => s.text ++ unparse l
  | .loop b :: l => ['$', '{'] ++ (b.flatMap Simple.text ++ (['$', '}'] ++ unparse l))

/-- the text of a part, and the arguments left; `none` if arguments are missing. -/
def Simple.render (ltext rtext : Text) (total : Nat) : Simple → List Text → Option (List Char × List Text)
  | .lit c, as => some ([c], as)
  | .arg, a :: as => some (a.flat, as)
  | .plain, a :: as => some (a.flat, as)
  | .arg, [] => none
  | .plain, [] => none
  | .argc, as => some (dec total, as)
  | .argNo, as => some (dec ((total : Int) - as.length), as)
  | .prev, as => some (dec ((total : Int) - as.length - 1), as)
  | .next, as => some (dec ((total : Int) - as.length + 1), as)
  | .live, as => some (ltext.flat, as)
  | .ret _, as => some (rtext.flat, as)
  | .dollar, as => some (['$'], as)

/-- parts one after the other. -/
def renders (L R : Text) (total : Nat) : List Simple → List Text → Option (List Char × List Text)
  | [], as => some ([], as)
  | s :: l, as => do
    let (t, as) ← s.render L R total as
    let (u, as) ← renders L R total l as
    some (t ++ u, as)

/-- repeat (at most `n` times) until no arguments are left. -/
def repeats (L R : Text) (total : Nat) (b : List Simple) : Nat → List Text → Option (List Char × List Text)
  | _, [] => some ([], [])
  | 0, _ :: _ => none
  | n + 1, a :: as => do
    let (t, as) ← renders L R total b (a :: as)
    let (u, as) ← repeats L R total b n as
    some (t ++ u, as)

/-- The text a template stands for, with all conversions, and the arguments left. -/
def render (L R : Text) (total : Nat) : List Item → List Text → Option (List Char × List Text)
  | [], as => some ([], as)
  | .one s :: l, as => do
    let (t, as) ← s.render L R total as
    let (u, as) ← render L R total l as
    some (t ++ u, as)
  | .loop b :: l, as => do
    let (t, as) ← repeats L R total b as.length as
    let (u, as) ← render L R total l as
    some (t ++ u, as)

/-- `c` may follow the part directly. -/
def follow : Simple → Char → Prop
  | .lit _, _ => True
  | .dollar, _ => True
  | .arg, c => alpha c = false ∧ numeric c = false ∧ c ≠ '#'
  | .argNo, c => alpha c = false ∧ numeric c = false ∧ c ≠ '+' ∧ c ≠ '-'
  | .ret ws, c => white c = false ∧ (ws = [] → alpha c = false ∧ numeric c = false)
  | _, c => alpha c = false ∧ numeric c = false

/-- a part is written in the right way. -/
def Simple.Valid : Simple → Prop
  | .lit c => c ≠ '$'
  | .ret ws => ∀ c ∈ ws, white c = true
  | _ => True

/-- number of arguments used. -/
def Simple.nargs : Simple → Nat
  | .arg => 1
  | .plain => 1
  | _ => 0

/-- does the part end with a character that is not a part of an identifier? -/
def Simple.edge : Simple → Bool
  | .lit c => !identChar c
  | _ => false

/-- the same for a list of parts, where `e` tells it for the text before. -/
def endEdge : Bool → List Simple → Bool
  | e, [] => e
  | _, s :: l => endEdge s.edge l

/-- a part `$return` follows a character that is not a part of an identifier, and the type after it is not called `…_void`. -/
def RetOk (e : Bool) (s : Simple) (rest : List Char) : Prop :=
  ∀ ws, s = .ret ws → e = true ∧ ∀ T, primexpCtype rest = some T → ¬ "_void".toList <:+ T

/-- the part may follow `p`. -/
def follows (p : Option Simple) (s : Simple) : Prop := ∀ q c, p = some q → s = .lit c → follow q c

/-- Well-formed lists of parts: `e` tells whether the text before cannot end with an identifier, `p` is the part before. -/
def Seq : Bool → Option Simple → List Simple → Prop
  | _, _, [] => True
  | e, p, s :: l => follows p s ∧ s.Valid ∧ RetOk e s (l.flatMap Simple.text) ∧ Seq s.edge (some s) l

/-- Well-formed bodies of loops: they start with a character that is not a part of an identifier, and use 1 to 10 arguments. -/
structure Body (b : List Simple) : Prop where
  first : ∃ c b', b = .lit c :: b' ∧ identChar c = false
  seq : Seq false none b
  args : 1 ≤ (b.map Simple.nargs).sum ∧ (b.map Simple.nargs).sum ≤ 10

/-- Well-formed templates. -/
def Wf : Bool → Option Simple → List Item → Prop
  | _, _, [] => True
  | e, p, .one s :: l => follows p s ∧ s.Valid ∧ RetOk e s (unparse l) ∧ Wf s.edge (some s) l
  | e, _, .loop b :: l => Body b ∧ Wf (e && endEdge false b) none l

/-- `p` may stand before an identifier: it is empty, which is only possible at the start, or its last character does not belong to an identifier. -/
def Edge (isId : Char → Bool) (start : Bool) (p : List Char) : Prop := (p = [] ∧ start = true) ∨ ∃ q c, p = q ++ [c] ∧ isId c = false

/-- a list of digits, a comma and a space, or nothing. -/
def Level (lv : List Char) : Prop := lv = [] ∨ ∃ ds, (∀ c ∈ ds, numeric c = true) ∧ lv = ds ++ [',', ' ']

/-- The conversions that may be left out: a value of type `T` made an object and read back as a value of type `T`, or not used. -/
inductive Step (isId : Char → Bool) (start : Bool) : List Char → List Char → Prop
  | same {p T lv x : List Char} : Edge isId start p → (∀ c ∈ T, identChar c = true) → Level lv →
      Step isId start (p ++ (T ++ ("_from_".toList ++ (T ++ ('(' :: (lv ++ x)))))) (p ++ ('(' :: x))
  | void {p T lv x : List Char} : Edge isId start p → (∀ c ∈ T, identChar c = true) → Level lv →
      Step isId start (p ++ ("void_from_".toList ++ (T ++ ('(' :: (lv ++ x))))) (p ++ ("(void)(".toList ++ x))

/-- any number of steps. -/
inductive Steps (isId : Char → Bool) (start : Bool) : List Char → List Char → Prop
  | refl (a : List Char) : Steps isId start a a
  | step {a b c : List Char} : Step isId start a b → Steps isId start b c → Steps isId start a c

/-- letters and digits. -/
def alnum (c : Char) : Bool := alpha c || numeric c

end Verif.Fmt

/-
`syntax-rules`: /repo/2.sf:757-1065 (`compile-syntax-rules`, `apply-synrules`).

Simplifications.  Boxes in patterns and templates (2.sf:640-755, an extension that runs predicates and conversions) are
not modelled.  A datum other than an identifier, a pair, `()` or a vector is an `atom`; `equal?` on such data is
equality.  An identifier, plain or renamed, is what its accessors return (2.sf:182-200): `sid name id location`; the
plain symbol `s` is `sid s (sym s) (sym s)`.  `(vector list)` represents a vector (`svector?`, 2.sf:184).
-/
namespace Verif.Macros

/-- ids and locations: symbols and numbers, compared with `eqv?`. -/
inductive Key where
  | sym (s : String)
  | num (n : Nat)
deriving DecidableEq, Repr

/-- forms, patterns, templates. -/
inductive Sx where
  | nil
  | atom (n : Nat)
  | sid (name : String) (id loc : Key)
  | vec (items : Sx)
  | pair (a d : Sx)
deriving DecidableEq, Repr

/-- the symbol `s` as it comes from the reader. -/
def Sx.sym (s : String) : Sx := .sid s (.sym s) (.sym s)

/-- environments and bindings are association lists searched with `assv`. -/
def assv {α : Type} (k : Key) : List (Key × α) → Option α
  | [] => none
  | (k', v) :: l => if k = k' then some v else assv k l

/-- `lookup-sid`, 2.sf:247-248; the arguments are the id and the location of the identifier. -/
def lookupSid (id loc : Key) (env : List (Key × Key)) : Key := (assv id env).getD loc

/-- an expander made by `compile-syntax-rules`, 2.sf:923: the form and the environment of the definition. -/
structure Macro where
  ellipsisId : Option Key
  literals : List Key
  rules : List (Sx × Sx)
  env : List (Key × Key)

/-- `ellipsis?`, 2.sf:762-766 and 935-939. -/
def Macro.ell (m : Macro) : Sx → Bool
  | .sid _ id loc =>
    match m.ellipsisId with
    | some e => decide (e = id)
    | none => decide (lookupSid id loc m.env = .sym "...")
  | _ => false

/-- `ellipsis-pair?`, 2.sf:779 and 934. -/
def Macro.ellPair (m : Macro) : Sx → Bool
  | .pair e _ => m.ell e
  | _ => false

/-- `list?`. -/
def isList : Sx → Bool
  | .nil => true
  | .pair _ d => isList d
  | _ => false

/-- the elements of a list. -/
def items : Sx → List Sx
  | .pair a d => a :: items d
  | _ => []

/-- a list of elements followed by a tail, `append`. -/
def listS : List Sx → Sx → Sx
  | [], t => t
  | x :: xs, t => .pair x (listS xs t)

/-- `list-tail`. -/
def tailS : Nat → Sx → Sx
  | 0, x => x
  | n + 1, .pair _ d => tailS n d
  | _ + 1, x => x

/-! ### checks at definition, `compile-syntax-rules` -/

mutual
/-- the loop `check` of `check-ellipses` (2.sf:797-831); `true` means accepted. -/
def checkEll (m : Macro) (tmpl : Bool) : Sx → Bool
  | .pair a (.pair e r) =>
    !m.ell a && checkEll m tmpl a &&
    (if m.ell e then
      !m.ell r && !m.ellPair r && (if tmpl then checkEll m tmpl r else isList r && checkItems m tmpl r)
    else checkEll m tmpl (.pair e r))
  | .pair a d => !m.ell a && checkEll m tmpl a && !m.ell d && checkEll m tmpl d
  | .vec x => !m.ellPair x && checkEll m tmpl x
  | _ => true
/-- the `for-each` in 2.sf:816-820. -/
def checkItems (m : Macro) (tmpl : Bool) : Sx → Bool
  | .pair y ys => !m.ell y && checkEll m tmpl y && checkItems m tmpl ys
  | _ => true
end

/-- `check-ellipses` for the pattern `(_ . x)`, 2.sf:791-796. -/
def checkPattern (m : Macro) (x : Sx) : Bool := !m.ell x && !m.ellPair x && checkEll m false x
/-- `check-ellipses` for a template. -/
def checkTemplate (m : Macro) (x : Sx) : Bool := !m.ell x && checkEll m true x

/-- `make-pat-env`, 2.sf:832-848: pattern variables with their depths; `none` for a duplicate variable. -/
def patEnv (m : Macro) : Sx → Nat → List (Key × Nat) → Option (List (Key × Nat))
  | .sid _ id _, depth, l =>
    if id ∈ m.literals then some l
    else if (assv id l).isSome then none
    else some ((id, depth) :: l)
  | .vec x, depth, l => patEnv m x depth l
  | .pair a (.pair e r), depth, l =>
    if m.ell e then (patEnv m r depth l).bind (patEnv m a (depth + 1))
    else (patEnv m (.pair e r) depth l).bind (patEnv m a depth)
  | .pair a d, depth, l => (patEnv m d depth l).bind (patEnv m a depth)
  | _, _, l => some l

/-- `check-var-depths`, 2.sf:849-880: `none` for an error, otherwise whether the template contains a variable whose
depth is `depth`. -/
def checkDepths (m : Macro) (env : List (Key × Nat)) : Sx → Nat → Option Bool
  | .sid _ id _, depth =>
    match assv id env with
    | none => some false
    | some d => if 0 < d ∧ depth ≠ d then none else some (decide (depth = d))
  | .vec x, depth => checkDepths m env x depth
  | .pair a (.pair e r), depth =>
    if m.ell e then
      (checkDepths m env a (depth + 1)).bind fun ca =>
        (checkDepths m env r depth).bind fun _ => if ca then some true else none
    else
      (checkDepths m env a depth).bind fun ca =>
        (checkDepths m env (.pair e r) depth).bind fun cd => some (ca || cd)
  | .pair a d, depth =>
    (checkDepths m env a depth).bind fun ca => (checkDepths m env d depth).bind fun cd => some (ca || cd)
  | _, _ => some false

/-- `check-rule`, 2.sf:881-897, for the rule `((_ . p) t)`. -/
def checkRule (m : Macro) (p t : Sx) : Bool :=
  checkPattern m p && checkTemplate m t &&
  (match patEnv m p 0 [] with
   | none => false
   | some env => (checkDepths m env t 0).isSome)

/-! ### use, `apply-synrules` -/

/-- `list-ids`, 2.sf:940-953. -/
def listIds (m : Macro) (pred : Key → Bool) : Sx → Bool → List Key → List Key
  | .sid _ id _, inc, l => if inc && pred id then id :: l else l
  | .vec x, inc, l => listIds m pred x inc l
  | .pair a (.pair e r), inc, l =>
    if m.ell e then listIds m pred a true (listIds m pred r inc l)
    else listIds m pred a inc (listIds m pred (.pair e r) inc l)
  | .pair a d, inc, l => listIds m pred a inc (listIds m pred d inc l)
  | _, _, l => l

/-- `not-pat-literal?`, 2.sf:933. -/
def Macro.notLit (m : Macro) (id : Key) : Bool := !decide (id ∈ m.literals)

/-- the loop `skip`, 2.sf:969-971; `none` if the form is shorter than the tail of the pattern. -/
def skip : Sx → Sx → Option Sx
  | .pair _ p, .pair _ s => skip p s
  | .pair _ _, _ => none
  | _, s => some s

/-- the loop `match-cars`, 2.sf:972-976: `f` on the elements of the form in front of the tail, then `g`. -/
def matchCars (f g : Sx → Bool) : Sx → Sx → Bool
  | .pair _ s, .pair a d => f a && matchCars f g s d
  | .pair _ _, _ => false
  | _, sexp => g sexp

/-- `matches?`, 2.sf:954-980; `env` is the environment of the macro use. -/
def matches_ (m : Macro) (env : List (Key × Key)) : Sx → Sx → Bool
  | .sid _ id loc, sexp =>
    m.notLit id ||
    (match sexp with
     | .sid _ id' loc' => decide (lookupSid id loc m.env = lookupSid id' loc' env)
     | _ => false)
  | .vec x, sexp => match sexp with | .vec y => matches_ m env x y | _ => false
  | .pair a (.pair e r), sexp =>
    if m.ell e then
      match skip r sexp with
      | none => false
      | some s => matchCars (matches_ m env a) (matches_ m env r) s sexp
    else match sexp with
      | .pair x y => matches_ m env a x && matches_ m env (.pair e r) y
      | _ => false
  | .pair a d, sexp =>
    match sexp with
    | .pair x y => matches_ m env a x && matches_ m env d y
    | _ => false
  | .nil, sexp => decide (sexp = .nil)
  | .atom n, sexp => decide (sexp = .atom n)

/-- `(apply-map-list (cons vars rows))`, 2.sf:85-89, as used in 2.sf:998. -/
def transBind : List Key → List (List Sx) → List (Key × Sx)
  | [], _ => []
  | v :: vs, rows =>
    if rows.any List.isEmpty then []
    else (v, listS (rows.map (fun r => r.headD .nil)) .nil) :: transBind vs (rows.map List.tail)

/-- `make-bindings`, 2.sf:981-1003, for a form that matches. -/
def bindings (m : Macro) : Sx → Sx → List (Key × Sx) → List (Key × Sx)
  | .sid _ id _, sexp, b => if m.notLit id then (id, sexp) :: b else b
  | .vec x, sexp, b => match sexp with | .vec y => bindings m x y b | _ => b
  | .pair a (.pair e r), sexp, b =>
    if m.ell e then
      let n := (items sexp).length - (items r).length
      transBind (listIds m m.notLit a true []) (((items sexp).take n).map (fun x => (bindings m a x []).map Prod.snd)) ++
        bindings m r (tailS n sexp) b
    else match sexp with
      | .pair x y => bindings m a x (bindings m (.pair e r) y b)
      | _ => b
  | .pair a d, sexp, b =>
    match sexp with
    | .pair x y => bindings m a x (bindings m d y b)
    | _ => b
  | _, _, b => b

/-- `remove-dups`, 2.sf:1004-1011. -/
def removeDups (l : List Key) : List Key :=
  let rec loop : List Key → List Key → List Key
    | [], res => res
    | x :: l, res => loop l (if x ∈ res then res else x :: res)
  loop l []

/-- `(memv id l)`. -/
def memv (id : Key) : List Key → List Key
  | [] => []
  | x :: l => if id = x then x :: l else memv id l

/-- what can go wrong: unequal lengths are reported (2.sf:1047-1050), anything else is a crash of the expander. -/
inductive Err where
  | lengths
  | crash
deriving DecidableEq

/-- `apply-map-list`, 2.sf:85-89, for a non-empty list of lists. -/
def applyMapList : List Sx → List (List Sx) → List (List Sx)
  | [], _ => []
  | x :: l, ls =>
    if ls.any List.isEmpty then [] else (x :: ls.map (fun r => r.headD .nil)) :: applyMapList l (ls.map List.tail)

/-- `map` of a function that may fail. -/
def mapE {α : Type} (f : α → Except Err Sx) : List α → Except Err (List Sx)
  | [] => .ok []
  | x :: l => match f x with
    | .error e => .error e
    | .ok y => match mapE f l with
      | .error e => .error e
      | .ok ys => .ok (y :: ys)

/-- `(map lookup vars)` with `lookup` from 2.sf:1039: the lists to iterate over; a variable without a binding or a
value that is not a list is a crash. -/
def valLists (b : List (Key × Sx)) : List Key → Except Err (List (List Sx))
  | [] => .ok []
  | v :: vs => match assv v b with
    | none => .error .crash
    | some x => if isList x then
        match valLists b vs with
        | .error e => .error e
        | .ok l => .ok (items x :: l)
      else .error .crash

/-- What does not change during the expansion of a template, 2.sf:1012-1019 and the arguments of
`apply-synrules`. -/
structure Ctx where
  m : Macro
  top : List (Key × Sx)
  lits : List Key
  ellVars : List Key
  idn : Nat

/-- `expand`, 2.sf:1020-1057. -/
def expand (c : Ctx) : Sx → List (Key × Sx) → Except Err Sx
  | .sid name id loc, b =>
    match assv id b with
    | some v => .ok v
    | none => match assv id c.top with
      | some v => .ok v
      | none => .ok (.sid name (.num (c.idn + ((memv id c.lits).length - 1))) (lookupSid id loc c.m.env))
  | .vec x, b => match expand c x b with | .error e => .error e | .ok y => .ok (.vec y)
  | .pair a (.pair e r), b =>
    if c.m.ell e then
      let vars := listIds c.m (fun id => decide (id ∈ c.ellVars)) a true []
      match valLists b vars with
      | .error e => .error e
      | .ok [] => .error .crash
      | .ok (l :: ls) =>
        if ls.all (fun r => r.length = l.length) then
          match mapE (fun vals => expand c a (vars.zip vals)) (applyMapList l ls) with
          | .error e => .error e
          | .ok xs => match expand c r b with
            | .error e => .error e
            | .ok y => .ok (listS xs y)
        else .error .lengths
    else match expand c a b with
      | .error e => .error e
      | .ok x => match expand c (.pair e r) b with
        | .error e => .error e
        | .ok y => .ok (.pair x y)
  | .pair a d, b =>
    match expand c a b with
    | .error e => .error e
    | .ok x => match expand c d b with
      | .error e => .error e
      | .ok y => .ok (.pair x y)
  | .nil, _ => .ok .nil
  | .atom n, _ => .ok (.atom n)

/-- the context made by `expand-template`, 2.sf:1012-1019. -/
def mkCtx (m : Macro) (idn : Nat) (pat tmpl : Sx) (top : List (Key × Sx)) : Ctx :=
  { m := m, top := top, idn := idn,
    lits := removeDups (listIds m (fun id => (assv id top).isNone) tmpl true []),
    ellVars := listIds m m.notLit pat false [] }

/-- `expand-template`, 2.sf:1012-1058: the result and the next free id number. -/
def expandTemplate (m : Macro) (idn : Nat) (pat tmpl : Sx) (top : List (Key × Sx)) : Except Err (Sx × Nat) :=
  let c := mkCtx m idn pat tmpl top
  match expand c tmpl top with
  | .error e => .error e
  | .ok x => .ok (x, idn + c.lits.length)

/-- what `apply-synrules` does with a macro use. -/
inductive Outcome where
  | noRule
  | result (r : Except Err (Sx × Nat))

/-- the loop over the rules, 2.sf:1059-1071. -/
def applyRules (m : Macro) (idn : Nat) (env : List (Key × Key)) (sexp : Sx) : List (Sx × Sx) → Outcome
  | [] => .noRule
  | (pat, tmpl) :: rules =>
    match pat, sexp with
    | .pair _ p, .pair _ s =>
      if matches_ m env p s then .result (expandTemplate m idn p tmpl (bindings m p s []))
      else applyRules m idn env sexp rules
    | .sid _ _ _, .sid _ _ _ => .result (expandTemplate m idn .nil tmpl [])
    | _, _ => applyRules m idn env sexp rules

/-- `apply-synrules`, 2.sf:925-1071. -/
def applySynrules (m : Macro) (idn : Nat) (env : List (Key × Key)) (sexp : Sx) : Outcome :=
  applyRules m idn env sexp m.rules

end Verif.Macros

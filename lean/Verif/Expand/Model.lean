import Verif.Macros.Model
/-
The macro expander: /repo/2.sf:224-649 (`expand-any` and its helpers), with `compile-syntax-rules` 2.sf:757-923 and
`apply-synrules` (Verif/Macros/Model.lean, 2.sf:925-1065).

The code is written in continuation-passing style and so is the model: `ek`, `sk`, `dk`, `bk` are what to do with an
expression, a keyword, a definition, a `begin`; `#f` is `none`.  Errors (`x-error`, and crashes such as `(car '())`) are
`none`.  The argument `g` is a switch that is off in the code: with `g` the expander refuses to apply a `syntax-lambda`
that contains an id it may generate again and to redefine `%quote` and `%const` (see C58).  The functions call each other without a decreasing argument, so `expand-any`, `expand-def` and the loop over the
top level take the depth of the recursion as an extra argument (`recs`, `topN`); running out of it is `none` as well.

Simplifications.  Boxes in forms are not modelled (as in Verif/Macros).  Variables: the symbol `symloc->var s` is
`Var.glob s`, the symbol `intloc->var n name` is `Var.loc n name`; C30 says that different ones are different symbols.
Strings, numbers, characters, booleans and wrapped micro-syntax are atoms; what `decompose-literal` makes of an atom and of
the name of a symbol, and which atoms are strings, are parameters (`Host`).
-/
namespace Verif.Expand
open Verif.Macros

/-- environments: from ids to locations, 2.sf:244-262. -/
abbrev Env := List (Key × Key)

/-- variables of the output, 2.sf:278-296. -/
inductive Var where
  | glob (s : String)
  | loc (n : Nat) (name : String)
deriving DecidableEq, Repr

/-- The output: the forms built in 2.sf:298-479, 580-600, 626. -/
inductive Out where
  | var (v : Var)
  /-- `(lambda (formals … . rest) body)`, 2.sf:414, 327 -/
  | lam (formals : List Var) (rest : Option Var) (body : Out)
  /-- `(letcc v e)`, 2.sf:435, 335 -/
  | letcc (v : Var) (body : Out)
  /-- `(set! v e)`, 2.sf:429 -/
  | set (v : Var) (e : Out)
  /-- `(if e …)`, `(withcc e …)`, `(%quote e)`, `(begin e …)`: a keyword and outputs, 2.sf:432, 440, 443, 299 -/
  | form (kw : String) (es : List Out)
  /-- `(%const x …)`, `(%definition x)`, `(%localdef x)`: a keyword and data, 2.sf:446, 449 -/
  | raw (kw : String) (tail : List Sx)
  /-- `(%prim sf e …)` and the like, 2.sf:456 -/
  | prim (kw : String) (sf : Sx) (es : List Out)
  /-- `(letrec ([v e] …) body)`, 2.sf:587 -/
  | letrec (vs : List Var) (es : List Out) (body : Out)
  /-- a combination, 2.sf:484 -/
  | app (f : Out) (es : List Out)
  /-- `(define v e)`, 2.sf:626 -/
  | define (v : Var) (e : Out)
deriving Repr

/-- what a location holds, 2.sf:225-239: a variable, expanded code, a builtin, or an expander with its environment:
made by `syntax-rules` or by `syntax-lambda`. -/
inductive Val where
  | var (v : Var)
  | code (o : Out)
  | builtin (s : String)
  | rules (m : Macro)
  | slam (formals body : List Sx) (env : Env)

/-- stores: from locations to values. -/
abbrev Store := List (Key × Val)

/-- What is left open: the data after `%const` for an atom and for the name of a symbol (2.sf:141-173), which atoms are
strings. -/
structure Host where
  lit : Nat → List Sx
  text : String → List Sx
  isStr : Nat → Bool

/-- `sid?`, 2.sf:182-183. -/
def isSid : Sx → Bool
  | .sid _ _ _ => true
  | _ => false

/-- `lookup-location`, 2.sf:250-253. -/
def lookupLocation (l : Key) (st : Store) : Option Val :=
  match assv l st with
  | some v => some v
  | none => match l with
    | .sym s => some (.var (.glob s))
    | .num _ => none

/-- `lookup2`, 2.sf:255-260. -/
def lookup2 (sid : Sx) (env : Env) (st : Store) : Option Val :=
  match sid with
  | .sid _ id loc => lookupLocation (lookupSid id loc env) st
  | _ => none

/-- the loop of `substitute-in-store`, 2.sf:268-272: the first entry for the location is dropped. -/
def dropLoc (l : Key) : Store → Store
  | [] => []
  | (k, v) :: st => if l = k then st else (k, v) :: dropLoc l st

/-- `(and (symbol? loc) (eq? val (symloc->var loc)))`, 2.sf:274. -/
def isOwnVar (l : Key) (v : Val) : Bool :=
  match l, v with
  | .sym s, .var (.glob s') => decide (s = s')
  | _, _ => false

/-- `substitute-in-store`, 2.sf:265-276. -/
def substStore (st : Store) (l : Key) (v : Val) : Store :=
  if isOwnVar l v then dropLoc l st else (l, v) :: dropLoc l st

/-- `make-begin`, 2.sf:298-299. -/
def makeBegin : List Out → Out
  | [o] => o
  | os => .form "begin" os

/-- the arguments of a list. -/
def listOf (xs : List Sx) : Sx := listS xs .nil

mutual
/-- `(decompose-literal (unwrap-vecs x))`, 2.sf:125-173, 220-222: identifiers are their names. -/
def decompose (h : Host) : Sx → Sx
  | .nil => listOf [.sym "%const", .sym "null"]
  | .atom n => listOf (.sym "%const" :: h.lit n)
  | .sid name _ _ => listOf (.sym "%const" :: .sym "symbol" :: h.text name)
  | .vec x => listOf (.sym "%const" :: .sym "vector" :: decomposeItems h x)
  | .pair a d =>
    if isList d then listOf (.sym "%const" :: .sym "list" :: decompose h a :: decomposeItems h d)
    else listOf [.sym "%const", .sym "pair", decompose h a, decompose h d]
/-- `(map decompose-literal x)`, 2.sf:130, 140. -/
def decomposeItems (h : Host) : Sx → List Sx
  | .pair a d => decompose h a :: decomposeItems h d
  | _ => []
end

/-- the loop `ok?`, 2.sf:453-455; a vector is represented by `(vector list)`. -/
def okSf (h : Host) : Sx → Bool
  | .atom n => h.isStr n
  | .nil => true
  | .pair a d => isList d && okSf h a && okSf h d
  | .vec x => okSf h x
  | .sid _ _ _ => false

/-! ### `compile-syntax-rules`, `compile-syntax-lambda` -/

/-- the loop `collect` at the end of `check-rule`, 2.sf:888-897. -/
def collectLits (m : Macro) (pe : List (Key × Nat)) : Sx → List Key → List Key
  | .sid name id loc, l =>
    if m.ell (.sid name id loc) then l else if (assv id pe).isSome then l else id :: l
  | .vec x, l => collectLits m pe x l
  | .pair a d, l => collectLits m pe a (collectLits m pe d l)
  | _, l => l

/-- the pattern without its first element, 2.sf:882-888. -/
def patRest : Sx → Option Sx
  | .pair (.sid _ _ _) p => some p
  | .sid _ _ _ => some .nil
  | _ => none

/-- `check-rule`, 2.sf:876-897: the rule and the ids of its template that are not pattern variables. -/
def compileRule (m : Macro) : Sx → Option ((Sx × Sx) × List Key)
  | .pair pat (.pair tmpl .nil) =>
    match patRest pat with
    | none => none
    | some p =>
      if checkRule m p tmpl then
        match patEnv m p 0 [] with
        | none => none
        | some pe => some ((pat, tmpl), collectLits m pe tmpl [])
      else none
  | _ => none

/-- `(map check-rule rules)`, 2.sf:921. -/
def compileRules (m : Macro) : List Sx → Option (List ((Sx × Sx) × List Key))
  | [] => some []
  | r :: rs => match compileRule m r with
    | none => none
    | some x => match compileRules m rs with
      | none => none
      | some xs => some (x :: xs)

/-- `list-dots-ids`, 2.sf:899-908. -/
def listDots : Sx → List Key → List Key
  | .sid _ id loc, l => if loc = .sym "..." then id :: l else l
  | .vec x, l => listDots x l
  | .pair a d, l => listDots a (listDots d l)
  | _, l => l

/-- the loop of `reduce-env`, 2.sf:909-920. -/
def reduceEnv (env : Env) : List Key → Env → Env
  | [], r => r
  | id :: ids, r =>
    reduceEnv env ids
      (if (assv id r).isNone then match assv id env with | some l => (id, l) :: r | none => r else r)

/-- an id of an identifier. -/
def sidId : Sx → Key
  | .sid _ id _ => id
  | _ => .num 0

/-- `compile-syntax-rules`, 2.sf:757-923; the argument is the cdr of the form. -/
def compileSynrules (tail : Sx) (env : Env) : Option Macro :=
  let er : Option (Option Key × Sx × List Sx) :=
    match tail with
    | .pair (.sid _ id _) (.pair ls rs) => some (some id, ls, items rs)
    | .pair ls rs => some (none, ls, items rs)
    | _ => none
  match er with
  | none => none
  | some (ellId, ls, rs) =>
    let m : Macro := { ellipsisId := ellId, literals := (items ls).map sidId, rules := [], env := env }
    if isList ls && (items ls).all (fun l => isSid l && !m.ell l) then
      match compileRules m rs with
      | none => none
      | some xs =>
        let lits := m.literals ++ xs.flatMap Prod.snd
        some { m with rules := xs.map Prod.fst,
                      env := reduceEnv env (if ellId.isSome then lits else listDots (listOf rs) lits) [] }
    else none

/-- `compile-syntax-lambda`, 2.sf:639-649; the argument is the cdr of the form. -/
def compileSynlambda (tail : Sx) (env : Env) : Option Val :=
  match tail with
  | .pair formals body =>
    if isList formals && (items formals).all isSid && decide (items formals).Nodup then
      some (.slam (items formals) (items body) env)
    else none
  | _ => none

/-! ### the expander -/

/-- the result of the whole computation: an output, or what `expand-top-level-forms` returns. -/
inductive Ans where
  | out (o : Out)
  | prog (os : List Out) (st : Store) (locN : Nat)

/-- continuations for an expression, a keyword, a definition, a `begin`: 2.sf:392. -/
abbrev EK := Out → Option Ans
@[inherit_doc EK] abbrev SK := Val → Sx → Store → Nat → Option Ans
@[inherit_doc EK] abbrev DK := Bool → Sx → Nat → Env → Store → Nat → Option Ans
@[inherit_doc EK] abbrev BK := Sx → Nat → Env → Store → Nat → Option Ans

/-- the type of `expand-any`, 2.sf:392. -/
abbrev AnyT := Sx → Nat → Env → Store → Nat → Bool → Option EK → Option SK → Option DK → Option BK → Option Ans

/-- the continuation `k` of `expand-def`, 2.sf:529: variable definitions, syntax definitions, expressions (`none`: a body
that is no expression), and the state. -/
abbrev DefK := List (Sx × Sx) → List (Sx × Sx) → Option (List Sx) → Nat → Env → Store → Nat → Option Ans

/-- the type of `expand-def`, 2.sf:529. -/
abbrev DefT := Sx → List (Sx × Sx) → List (Sx × Sx) → Option (List Sx) → Nat → Env → Store → Nat → DefK → Option EK →
  Option Ans

/-- the output of an answer. -/
def outOf : Option Ans → Option Out
  | some (.out o) => some o
  | _ => none

/-- `expand-expr`, 2.sf:524-525. -/
def expandExpr (any : AnyT) (x : Sx) (idn : Nat) (env : Env) (st : Store) (ln : Nat) : Option Out :=
  outOf (any x idn env st ln false (some fun o => some (.out o)) none none none)

/-- `(map expand-subexpr xs)`. -/
def expandExprs (any : AnyT) (xs : List Sx) (idn : Nat) (env : Env) (st : Store) (ln : Nat) : Option (List Out) :=
  match xs with
  | [] => some []
  | x :: xs => match expandExpr any x idn env st ln with
    | none => none
    | some o => match expandExprs any xs idn env st ln with
      | none => none
      | some os => some (o :: os)

/-- `expand-val`, 2.sf:517-522. -/
def expandVal (any : AnyT) (x : Sx) (idn : Nat) (env : Env) (st : Store) (ln : Nat)
    (k : Val → Store → Nat → Option Ans) : Option Ans :=
  any x idn env st ln false (some fun o => k (.code o) st ln) (some fun v _ st ln => k v st ln) none none

/-- `flatten-dotted`, 2.sf:302-303. -/
def flattenDotted : Sx → List Sx
  | .pair a d => a :: flattenDotted d
  | x => [x]

/-- the loop of `expand-lambda`, 2.sf:317-324: the variables (in order), and the new state. -/
def bindFormals : List Sx → Env → Store → Nat → List Var × Env × Store × Nat
  | .sid name id _ :: fs, env, st, ln =>
    let r := bindFormals fs ((id, .num ln) :: env) ((.num ln, .var (.loc ln name)) :: st) (ln + 1)
    (.loc ln name :: r.1, r.2)
  | _ :: fs, env, st, ln => bindFormals fs env st ln
  | [], env, st, ln => ([], env, st, ln)

/-- `expand-lambda`, 2.sf:301-327. -/
def expandLambda (any : AnyT) (formals expr : Sx) (idn : Nat) (env : Env) (st : Store) (ln : Nat) : Option Out :=
  let fs := if isList formals then items formals else flattenDotted formals
  if fs.all isSid && decide fs.Nodup then
    let r := bindFormals fs env st ln
    match expandExpr any expr idn r.2.1 r.2.2.1 r.2.2.2 with
    | none => none
    | some b => if isList formals then some (.lam r.1 none b) else some (.lam r.1.dropLast r.1.getLast? b)
  else none

/-- `expand-letcc`, 2.sf:329-336. -/
def expandLetcc (any : AnyT) (formal expr : Sx) (idn : Nat) (env : Env) (st : Store) (ln : Nat) : Option Out :=
  match formal with
  | .sid name id _ =>
    match expandExpr any expr idn ((id, .num ln) :: env) ((.num ln, .var (.loc ln name)) :: st) (ln + 1) with
    | none => none
    | some b => some (.letcc (.loc ln name) b)
  | _ => none

/-- the second loop of `expand-syntax-bindings`, 2.sf:358-363. -/
def storeVals (ienv : Env) : List (Sx × Sx) → List Val → Store → Store
  | (.sid _ id loc, _) :: bs, v :: vs, st => storeVals ienv bs vs ((lookupSid id loc ienv, v) :: st)
  | _, _, st => st

/-- the first loop of `expand-syntax-bindings`, 2.sf:352-358; `all` is the whole list of bindings. -/
def synBindLoop (any : AnyT) (all : List (Sx × Sx)) (idn : Nat) (senv ienv : Env) (k : Store → Nat → Option Ans) :
    List (Sx × Sx) → List Val → Store → Nat → Option Ans
  | [], vals, st, ln => k (storeVals ienv all vals.reverse st) ln
  | (_, e) :: bs, vals, st, ln =>
    expandVal any e idn senv st ln fun v st ln => synBindLoop any all idn senv ienv k bs (v :: vals) st ln

/-- `expand-syntax-bindings`, 2.sf:352-363. -/
def expandSynBindings (any : AnyT) (bs : List (Sx × Sx)) (idn : Nat) (senv ienv : Env) (st : Store) (ln : Nat)
    (k : Store → Nat → Option Ans) : Option Ans :=
  synBindLoop any bs idn senv ienv k bs [] st ln

/-- the definitions `(map expand-vd (reverse vds))`, 2.sf:584-585, 591. -/
def expandVds (any : AnyT) (vds : List (Sx × Sx)) (idn : Nat) (env : Env) (st : Store) (ln : Nat) :
    Option (List Var × List Out) :=
  match vds with
  | [] => some ([], [])
  | (s, e) :: vds =>
    match lookup2 s env st, expandExpr any e idn env st ln, expandVds any vds idn env st ln with
    | some (.var v), some o, some r => some (v :: r.1, o :: r.2)
    | _, _, _ => none

/-- `make-letrec`, 2.sf:586-587. -/
def makeLetrec (b : List Var × List Out) (e : Out) : Out :=
  if b.1.isEmpty then e else .letrec b.1 b.2 e

/-- the end of `finish-body`, 2.sf:582-600. -/
def finishBody (any : AnyT) (first : Sx) (rest : List Sx) (vds : List (Sx × Sx)) (exprs : Option (List Sx)) (idn : Nat)
    (env : Env) (lsd : Bool) (ek : Option EK) (sk : Option SK) (dk : Option DK) (bk : Option BK) (boundary : Option Out)
    (st : Store) (ln : Nat) : Option Ans :=
  if rest.isEmpty && vds.isEmpty && (exprs.getD []).isEmpty then any first idn env st ln lsd ek sk dk bk
  else
    match ek, exprs, expandVds any vds.reverse idn env st ln with
    | some ek, some exprs, some b =>
      match expandExprs any exprs.reverse idn env st ln with
      | none => none
      | some os =>
        if rest.isEmpty then
          match expandExpr any first idn env st ln with
          | none => none
          | some o => ek (makeLetrec b (makeBegin (os ++ [o])))
        else
          match boundary, expandExprs any rest idn env st ln with
          | some o, some os' => ek (makeLetrec b (makeBegin (os ++ o :: os')))
          | _, _ => none
    | _, _, _ => none

/-- the loop of `expand-body`, 2.sf:575-607. -/
def bodyLoop (any : AnyT) (dfn : DefT) (lsd : Bool) (ek : Option EK) (sk : Option SK) (dk : Option DK) (bk : Option BK)
    (first : Sx) : (rest : List Sx) → List (Sx × Sx) → List (Sx × Sx) → Option (List Sx) → Nat → Env → Store → Nat →
      Option Ans
  | [], vds, sds, exprs, idn, env, st, ln =>
    expandSynBindings any sds idn env env st ln
      (finishBody any first [] vds exprs idn env lsd ek sk dk bk none)
  | next :: rest, vds, sds, exprs, idn, env, st, ln =>
    dfn first vds sds exprs idn env st ln
      (fun vds sds exprs idn env st ln =>
        bodyLoop any dfn lsd ek sk dk bk next rest vds sds exprs idn env st ln)
      (if ek.isSome then
        some fun o => expandSynBindings any sds idn env env st ln
          (finishBody any first (next :: rest) vds exprs idn env lsd ek sk dk bk (some o))
      else none)

/-- `expand-body`, 2.sf:527-607. -/
def expandBody (any : AnyT) (dfn : DefT) (sexps : List Sx) (idn : Nat) (env : Env) (st : Store) (ln : Nat) (lsd : Bool)
    (ek : Option EK) (sk : Option SK) (dk : Option DK) (bk : Option BK) : Option Ans :=
  match sexps with
  | [] => none
  | first :: rest => bodyLoop any dfn lsd ek sk dk bk first rest [] [] (if ek.isSome then some [] else none) idn env st ln

/-- `(for-each check ds)`, 2.sf:539-545: no definition of the same id. -/
def noDup (id : Key) (ds : List (Sx × Sx)) : Bool := ds.all fun d => !decide (id = sidId d.1)

/-- the continuation `dk` of `expand-def`, 2.sf:530-557. -/
def defDk (vds sds : List (Sx × Sx)) (exprs : Option (List Sx)) (k : DefK) : DK :=
  fun isSyntax x idn env st ln =>
    match x with
    | .pair _ (.pair e .nil) =>
      match exprs with
      | some es => k vds sds (some (e :: es)) idn env st ln
      | none => none
    | .pair _ (.pair (.sid name id loc) (.pair e .nil)) =>
      let env := (id, .num ln) :: env
      if noDup id sds && noDup id vds then
        if isSyntax then k vds ((.sid name id loc, e) :: sds) exprs idn env st (ln + 1)
        else if exprs.isSome then
          k ((.sid name id loc, e) :: vds) sds exprs idn env ((.num ln, .var (.loc ln name)) :: st) (ln + 1)
        else none
      else none
    | _ => none

/-- the loop of the continuation `bk` of `expand-def`, 2.sf:558-573. -/
def defBkLoop (any : AnyT) (dfn : DefT) (k : DefK) : List Sx → List (Sx × Sx) → List (Sx × Sx) → Option (List Sx) → Nat →
    Env → Store → Nat → Option EK → Option Ans
  | [], vds, sds, exprs, idn, env, st, ln, _ => k vds sds exprs idn env st ln
  | x :: xs, vds, sds, exprs, idn, env, st, ln, ek =>
    dfn x vds sds exprs idn env st ln
      (fun vds sds exprs idn env st ln => defBkLoop any dfn k xs vds sds exprs idn env st ln none)
      (match ek with
       | none => none
       | some ek => some fun o =>
         match expandExprs any xs idn env st ln with
         | none => none
         | some os => ek (makeBegin (o :: os)))

/-- `expand-def`, 2.sf:528-574. -/
def defF (any : AnyT) (dfn : DefT) : DefT := fun x vds sds exprs idn env st ln k ek =>
  any x idn env st ln false ek none (some (defDk vds sds exprs k))
    (some fun x idn env st ln =>
      match x with
      | .pair _ xs => defBkLoop any dfn k (items xs) vds sds exprs idn env st ln ek
      | _ => none)

/-- the numbers of the ids of a form. -/
def idNums : Sx → List Nat
  | .sid _ (.num n) _ => [n]
  | .vec x => idNums x
  | .pair a d => idNums a ++ idNums d
  | _ => []

/-- the numbers of the ids bound by an environment. -/
def envNums (env : Env) : List Nat := env.filterMap fun p => match p.1 with | .num n => some n | .sym _ => none

/-- (only with the switch on) no id of the `syntax-lambda` or of its environment is one that may be generated again. -/
def slamOk (formals body : List Sx) (denv : Env) (idn : Nat) : Bool :=
  (formals ++ body).all (fun x => (idNums x).all (· < idn)) && (envNums denv).all (· < idn)

/-- the loop over the formals of a `syntax-lambda`, 2.sf:378-381. -/
def bindKeywords : List Sx → Nat → Env → Env
  | f :: fs, ln, env => bindKeywords fs (ln + 1) ((sidId f, .num ln) :: env)
  | [], _, env => env

/-- `apply-expander`, 2.sf:365-390. -/
def applyExpander (g : Bool) (any : AnyT) (dfn : DefT) (syn : Val) (x : Sx) (idn : Nat) (env : Env) (st : Store) (ln : Nat)
    (lsd : Bool) (ek : Option EK) (sk : Option SK) (dk : Option DK) (bk : Option BK) : Option Ans :=
  match syn with
  | .rules m =>
    match applySynrules m idn env x with
    | .result (.ok (y, idn')) => any y idn' env st ln lsd ek sk dk bk
    | _ => none
  | .slam formals body denv =>
    if g && !slamOk formals body denv idn then none
    else match x with
    | .pair _ args =>
      if formals.length = (items args).length then
        let ienv := bindKeywords formals ln denv
        expandSynBindings any (formals.zip (items args)) idn env ienv st (ln + formals.length) fun st ln =>
          expandBody any dfn body idn ienv st ln lsd ek sk (if lsd then dk else none) (if lsd then bk else none)
      else none
    | _ => none
  | _ => none

/-- the keywords of primitives, 2.sf:450. -/
def primNames : List String :=
  ["%prim", "%prim?", "%prim!", "%prim?!", "%prim*", "%prim*!", "%prim*?", "%prim*?!"]

/-- `handle-expr-builtin`, 2.sf:407-456. -/
def exprBuiltin (h : Host) (any : AnyT) (b : String) (tail : List Sx) (idn : Nat) (env : Env) (st : Store) (ln : Nat) :
    Option Out :=
  if b = "lambda" then
    match tail with
    | [formals, e] => expandLambda any formals e idn env st ln
    | _ => none
  else if b = "quote" then
    match tail with
    | [x] => expandExpr any (listOf [.sym "%quote", decompose h x]) idn [] st ln
    | _ => none
  else if b = "set!" then
    match tail with
    | [.sid name id loc, e] =>
      match lookup2 (.sid name id loc) env st, expandExpr any e idn env st ln with
      | some (.var v), some o => some (.set v o)
      | _, _ => none
    | _ => none
  else if b = "if" then
    if 2 ≤ tail.length ∧ tail.length ≤ 3 then (expandExprs any tail idn env st ln).map (.form "if") else none
  else if b = "letcc" then
    match tail with
    | [formal, e] => expandLetcc any formal e idn env st ln
    | _ => none
  else if b = "withcc" then
    if tail.length = 2 then (expandExprs any tail idn env st ln).map (.form "withcc") else none
  else if b = "%quote" then
    match tail with
    | [e] => (expandExpr any e idn env st ln).map fun o => .form "%quote" [o]
    | _ => none
  else if b = "%const" then
    if 1 ≤ tail.length then some (.raw "%const" tail) else none
  else if b = "%definition" ∨ b = "%localdef" then
    match tail with
    | [.atom n] => if h.isStr n then some (.raw b [.atom n]) else none
    | _ => none
  else if b ∈ primNames then
    match tail with
    | sf :: args => if okSf h sf then (expandExprs any args idn env st ln).map (.prim b sf) else none
    | _ => none
  else none

/-- the shape of `(define s e)`, `(define e)`, `(define-syntax s e)`, 2.sf:475-477. -/
def defineOk (b : String) : List Sx → Bool
  | [s, _] => isSid s
  | [_] => decide (b = "define")
  | _ => false

/-- the body of `handle-syntax-use` for a builtin, 2.sf:406-479; `tail` is the list of the operands.  The expression
`(begin e …)` is returned, not passed to `ek` (2.sf:473). -/
def useBuiltin (h : Host) (any : AnyT) (b : String) (head tail : Sx) (idn : Nat) (env : Env) (st : Store) (ln : Nat)
    (ek : Option EK) (sk : Option SK) (dk : Option DK) (bk : Option BK) : Option Ans :=
  if b = "syntax-rules" then
    match compileSynrules tail env, sk with
    | some m, some sk => sk (.rules m) (.pair head tail) st ln
    | _, _ => none
  else if b = "syntax-lambda" then
    if 2 ≤ (items tail).length then
      match compileSynlambda tail env, sk with
      | some v, some sk => sk v (.pair head tail) st ln
      | _, _ => none
    else none
  else if b = "begin" then
    match bk with
    | some bk => bk (.pair head tail) idn env st ln
    | none =>
      if (items tail).isEmpty then none
      else (expandExprs any (items tail) idn env st ln).map fun os => .out (makeBegin os)
  else if b = "define" ∨ b = "define-syntax" then
    if defineOk b (items tail) then
      match dk with
      | some dk => dk (decide (b = "define-syntax")) (.pair head tail) idn env st ln
      | none => none
    else none
  else
    match ek, exprBuiltin h any b (items tail) idn env st ln with
    | some ek, some o => ek o
    | _, _ => none

/-- `handle-syntax-use`, 2.sf:402-479; `tail` is the cdr of the form. -/
def handleSyntaxUse (h : Host) (g : Bool) (any : AnyT) (dfn : DefT) (tail : Sx) (idn : Nat) (env : Env) (lsd : Bool)
    (ek : Option EK) (sk : Option SK) (dk : Option DK) (bk : Option BK) : SK := fun syn head st ln =>
  match syn with
  | .builtin b => useBuiltin h any b head tail idn env st ln ek sk dk bk
  | _ => applyExpander g any dfn syn (.pair head tail) idn env st ln lsd ek sk dk bk

/-- `handle-combination`, 2.sf:480-484; `tail` is the cdr of the form. -/
def handleCombination (any : AnyT) (tail : Sx) (idn : Nat) (env : Env) (st : Store) (ln : Nat) (ek : EK) : EK := fun o =>
  match o, items tail with
  | .lam [] none b, [] => ek b
  | o, args =>
    match expandExprs any args idn env st ln with
    | none => none
    | some os => ek (.app o os)

/-- the case of an identifier, 2.sf:486-494. -/
def anySid (g : Bool) (any : AnyT) (dfn : DefT) (name : String) (id loc : Key) (idn : Nat) (env : Env) (st : Store)
    (ln : Nat) (ek : Option EK) (sk : Option SK) : Option Ans :=
  match lookupLocation (lookupSid id loc env) st with
  | none => none
  | some (.var v) => match ek with | some ek => ek (.var v) | none => none
  | some (.code o) => match ek with | some ek => ek o | none => none
  | some (.builtin b) => match sk with | some sk => sk (.builtin b) (.sid name id loc) st ln | none => none
  | some syn =>
    match sk, ek with
    | some sk, _ => sk syn (.sid name id loc) st ln
    | none, some ek => applyExpander g any dfn syn (.sid name id loc) idn env st ln false (some ek) none none none
    | none, none => none

/-- `expand-any`, 2.sf:392-515. -/
def anyF (h : Host) (g : Bool) (any : AnyT) (dfn : DefT) : AnyT := fun x idn env st ln lsd ek sk dk bk =>
  match x with
  | .sid name id loc => anySid g any dfn name id loc idn env st ln ek sk
  | .pair a d =>
    if isList d then
      any a idn env st ln false
        (match ek with | none => none | some ek => some (handleCombination any d idn env st ln ek))
        (some (handleSyntaxUse h g any dfn d idn env lsd ek sk dk bk)) none none
    else none
  | .atom n => any (listOf [.sym "%quote", decompose h (.atom n)]) idn [] st ln lsd ek sk dk bk
  | .nil => none
  | .vec _ => none

/-- the functions of the expander. -/
structure Rec where
  any : AnyT
  dfn : DefT

/-- `expand-any` and `expand-def` to a depth. -/
def recs (h : Host) (g : Bool) : Nat → Rec
  | 0 => ⟨fun _ _ _ _ _ _ _ _ _ _ => none, fun _ _ _ _ _ _ _ _ _ _ => none⟩
  | n + 1 => ⟨anyF h g (recs h g n).any (recs h g n).dfn, defF (recs h g n).any (recs h g n).dfn⟩

/-- the continuation of the loop `expand`, 2.sf:611-612. -/
abbrev TopK := Store → Nat → List Out → Option Ans
/-- the type of the loop `expand`, 2.sf:611. -/
abbrev TopT := List Sx → Nat → Env → Store → Nat → List Out → TopK → Option Ans

/-- `loc->var`, 2.sf:295-296. -/
def locVar (loc : Key) (name : String) : Var :=
  match loc with
  | .sym s => .glob s
  | .num n => .loc n name

/-- (only with the switch on) the keywords that may not be redefined. -/
def reserved : List Key := [.sym "%quote", .sym "%const"]

/-- the continuation `dk` at the top level, 2.sf:618-632. -/
def topDk (g : Bool) (any : AnyT) (top : TopT) (rest : List Sx) (idn : Nat) (env : Env) (acc : List Out) (k : TopK) (ek : EK) : DK :=
  fun isSyntax x idn' env' st ln =>
    match x with
    | .pair _ (.pair e .nil) =>
      match expandExpr any e idn' env' st ln with
      | none => none
      | some o => ek o
    | .pair _ (.pair (.sid name _ loc) (.pair e .nil)) =>
      if g && decide (loc ∈ reserved) then none
      else if isSyntax then
        expandVal any e idn' env' st ln fun v st ln => top rest idn env (substStore st loc v) ln acc k
      else
        match expandExpr any e idn' env' st ln with
        | none => none
        | some o =>
          top rest idn env (substStore st loc (.var (locVar loc name))) ln (.define (locVar loc name) o :: acc) k
    | _ => none

/-- the loop `expand` of `expand-top-level-forms`, 2.sf:611-637. -/
def topF (g : Bool) (any : AnyT) (top : TopT) : TopT := fun xs idn env st ln acc k =>
  match xs with
  | [] => k st ln acc
  | x :: rest =>
    let ek : EK := fun o => top rest idn env st ln (o :: acc) k
    any x idn env st ln true (some ek) none (some (topDk g any top rest idn env acc k ek))
      (some fun x idn' env' st ln =>
        match x with
        | .pair _ xs => top (items xs) idn' env' st ln acc fun st ln acc => top rest idn env st ln acc k
        | _ => none)

/-- the loop `expand`, to a depth. -/
def topN (h : Host) (g : Bool) : Nat → TopT
  | 0 => fun _ _ _ _ _ _ _ => none
  | n + 1 => topF g (recs h g n).any (topN h g n)

/-- `expand-top-level-forms`, 2.sf:609-637. -/
def expandTop (h : Host) (g : Bool) (n : Nat) (forms : List Sx) (st : Store) (ln : Nat) : Option Ans :=
  topN h g n forms 0 [] st ln [] fun st ln acc => some (.prog acc.reverse st ln)

/-- the builtins, 2.sf:1068-1072. -/
def builtinNames : List String :=
  ["begin", "define", "define-syntax", "if", "lambda", "quote", "set!", "syntax-rules", "syntax-lambda", "letcc", "withcc"]
  ++ primNames ++ ["%quote", "%const", "%definition", "%localdef"]

/-- `builtins-store`, 2.sf:1067-1076. -/
def builtinStore : Store := (builtinNames.map fun b => (.sym b, .builtin b)).reverse

end Verif.Expand

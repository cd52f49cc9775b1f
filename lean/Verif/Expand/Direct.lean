import Verif.Expand.Model
import Mathlib.Data.List.Forall2
/-
C59: what forms mean, in direct style: a form is an expression, a keyword, a definition or a `begin`, or it ends the
expansion.  The rules follow the cases of /repo/2.sf:301-637 without continuations.
-/
namespace Verif.Expand.Direct
open Verif.Macros Verif.Expand

/-- what a form turns out to be. -/
inductive Res where
  /-- an expression and its output -/
  | expr (o : Out)
  /-- a keyword, the form that names it, and the state -/
  | syn (v : Val) (hd : Sx) (st : Store) (ln : Nat)
  /-- a definition `(hd . tail)` -/
  | defn (stx : Bool) (hd tail : Sx) (idn : Nat) (env : Env) (st : Store) (ln : Nat)
  /-- `(begin . tail)` -/
  | beg (hd tail : Sx) (idn : Nat) (env : Env) (st : Store) (ln : Nat)
  /-- the output of a `begin` that is not passed on (2.sf:473) -/
  | stop (o : Out)

/-- the values of keyword arguments, with the state after them. -/
inductive VRes where
  | vals (vs : List Val) (st : Store) (ln : Nat)
  | stop (o : Out)

/-- what a form of a body turns out to be: definitions to add, an expression, or the end. -/
inductive DRes where
  | next (vds sds : List (Sx × Sx)) (exprs : Option (List Sx)) (idn : Nat) (env : Env) (st : Store) (ln : Nat)
  | expr (o : Out)
  | stop (o : Out)

/-- the new definitions of a body, 2.sf:530-557. -/
inductive AddDef (vds sds : List (Sx × Sx)) (exprs : Option (List Sx)) : Bool → Sx → Nat → Env → Store → Nat → DRes → Prop where
  | anon {b e es idn env st ln} : exprs = some es →
    AddDef vds sds exprs b (listOf [e]) idn env st ln (.next vds sds (some (e :: es)) idn env st ln)
  | stx {name id loc e idn env st ln} : (∀ d ∈ sds, id ≠ sidId d.1) → (∀ d ∈ vds, id ≠ sidId d.1) →
    AddDef vds sds exprs true (listOf [.sid name id loc, e]) idn env st ln
      (.next vds ((.sid name id loc, e) :: sds) exprs idn ((id, .num ln) :: env) st (ln + 1))
  | var {name id loc e idn env st ln} : (∀ d ∈ sds, id ≠ sidId d.1) → (∀ d ∈ vds, id ≠ sidId d.1) → exprs.isSome = true →
    AddDef vds sds exprs false (listOf [.sid name id loc, e]) idn env st ln
      (.next ((.sid name id loc, e) :: vds) sds exprs idn ((id, .num ln) :: env) ((.num ln, .var (.loc ln name)) :: st) (ln + 1))

/-- the formals of a `lambda` expression, 2.sf:302-310. -/
def formals (f : Sx) : List Sx := if isList f then items f else flattenDotted f

/-- a `lambda` expression with these formals, 2.sf:325-327. -/
def lamOf (f : Sx) (vs : List Var) (b : Out) : Out :=
  if isList f then .lam vs none b else .lam vs.dropLast vs.getLast? b

mutual
/-- `Form ex sy lsd idn env st ln x r`: the form `x` is `r`.  `ex`: expressions are expected, `sy`: keywords are
expected, `lsd`: definitions out of the body of a `syntax-lambda` are expected.  In the code `q` is true; if it is false
there is no derivation in which the output of a `begin` is not passed on or a literal is no expression. -/
inductive Form (h : Host) (q : Bool) : Bool → Bool → Bool → Nat → Env → Store → Nat → Sx → Res → Prop where
  /-- an identifier that denotes a variable -/
  | var {ex sy lsd idn env st ln name id loc v} : lookupLocation (lookupSid id loc env) st = some (.var v) →
    Form h q ex sy lsd idn env st ln (.sid name id loc) (.expr (.var v))
  /-- an argument of a `syntax-lambda` that is an expression -/
  | code {ex sy lsd idn env st ln name id loc o} : lookupLocation (lookupSid id loc env) st = some (.code o) →
    Form h q ex sy lsd idn env st ln (.sid name id loc) (.expr o)
  /-- a keyword -/
  | keyword {ex lsd idn env st ln name id loc v} : lookupLocation (lookupSid id loc env) st = some v →
    (∀ w, v ≠ .var w) → (∀ o, v ≠ .code o) →
    Form h q ex true lsd idn env st ln (.sid name id loc) (.syn v (.sid name id loc) st ln)
  /-- a macro used as an identifier -/
  | idMacro {lsd idn env st ln name id loc v r} : lookupLocation (lookupSid id loc env) st = some v →
    (∀ w, v ≠ .var w) → (∀ o, v ≠ .code o) → (∀ b, v ≠ .builtin b) →
    Apply h q true false false idn env st ln v (.sid name id loc) r →
    (∃ o, r = .expr o ∨ r = .stop o) →
    Form h q true false lsd idn env st ln (.sid name id loc) r
  /-- the same, if the expansion is a `begin` -/
  | idBegin {lsd idn env st ln name id loc v hd t idn' env' st' ln' os} : lookupLocation (lookupSid id loc env) st = some v →
    (∀ w, v ≠ .var w) → (∀ o, v ≠ .code o) → (∀ b, v ≠ .builtin b) →
    Apply h q true false false idn env st ln v (.sid name id loc) (.beg hd t idn' env' st' ln') →
    Exprs h q idn' env' st' ln' (items t) os → os ≠ [] → q = true →
    Form h q true false lsd idn env st ln (.sid name id loc) (.stop (makeBegin os))
  /-- a literal -/
  | lit {ex sy lsd idn env st ln n r} : Form h q ex sy lsd idn [] st ln (listOf [.sym "%quote", decompose h (.atom n)]) r →
    (q = true ∨ ∃ o, r = .expr o) →
    Form h q ex sy lsd idn env st ln (.atom n) r
  /-- a combination -/
  | app {sy lsd idn env st ln a d o os} : isList d = true → Form h q true true false idn env st ln a (.expr o) →
    Exprs h q idn env st ln (items d) os → (∀ b, ¬ (o = .lam [] none b ∧ items d = [])) →
    Form h q true sy lsd idn env st ln (.pair a d) (.expr (.app o os))
  /-- a combination of a `lambda` expression without formals -/
  | thunk {sy lsd idn env st ln a d b} : isList d = true → items d = [] →
    Form h q true true false idn env st ln a (.expr (.lam [] none b)) →
    Form h q true sy lsd idn env st ln (.pair a d) (.expr b)
  /-- a use of a macro -/
  | expand {ex sy lsd idn env st ln a d v hd st' ln' r} : isList d = true →
    Form h q ex true false idn env st ln a (.syn v hd st' ln') → (∀ b, v ≠ .builtin b) →
    Apply h q ex sy lsd idn env st' ln' v (.pair hd d) r → Form h q ex sy lsd idn env st ln (.pair a d) r
  /-- a use of a builtin -/
  | use {ex sy lsd idn env st ln a d b hd st' ln' r} : isList d = true →
    Form h q ex true false idn env st ln a (.syn (.builtin b) hd st' ln') →
    Use h q ex sy idn env st' ln' b hd d r → Form h q ex sy lsd idn env st ln (.pair a d) r
  /-- an operator that ends the expansion -/
  | opStop {ex sy lsd idn env st ln a d o} : isList d = true → Form h q ex true false idn env st ln a (.stop o) →
    Form h q ex sy lsd idn env st ln (.pair a d) (.stop o)
  /-- a `begin` as an operator -/
  | opBegin {ex sy lsd idn env st ln a d hd t idn' env' st' ln' os} : isList d = true →
    Form h q ex true false idn env st ln a (.beg hd t idn' env' st' ln') → Exprs h q idn' env' st' ln' (items t) os → os ≠ [] → q = true →
    Form h q ex sy lsd idn env st ln (.pair a d) (.stop (makeBegin os))
/-- a form where an expression is expected, 2.sf:524-525. -/
inductive Expr (h : Host) (q : Bool) : Nat → Env → Store → Nat → Sx → Out → Prop where
  | expr {idn env st ln x o} : Form h q true false false idn env st ln x (.expr o) → Expr h q idn env st ln x o
  | stop {idn env st ln x o} : Form h q true false false idn env st ln x (.stop o) → Expr h q idn env st ln x o
  | beg {idn env st ln x hd t idn' env' st' ln' os} : Form h q true false false idn env st ln x (.beg hd t idn' env' st' ln') →
    Exprs h q idn' env' st' ln' (items t) os → os ≠ [] → Expr h q idn env st ln x (makeBegin os)
/-- several expressions. -/
inductive Exprs (h : Host) (q : Bool) : Nat → Env → Store → Nat → List Sx → List Out → Prop where
  | nil {idn env st ln} : Exprs h q idn env st ln [] []
  | cons {idn env st ln x xs o os} : Expr h q idn env st ln x o → Exprs h q idn env st ln xs os →
    Exprs h q idn env st ln (x :: xs) (o :: os)
/-- a use of a builtin: the operands are `items d`, 2.sf:406-479. -/
inductive Use (h : Host) (q : Bool) : Bool → Bool → Nat → Env → Store → Nat → String → Sx → Sx → Res → Prop where
  | synrules {ex sy idn env st ln hd d m} : compileSynrules d env = some m →
    Use h q ex sy idn env st ln "syntax-rules" hd d (.syn (.rules m) (.pair hd d) st ln)
  | synlambda {ex sy idn env st ln hd d v} : 2 ≤ (items d).length → compileSynlambda d env = some v →
    Use h q ex sy idn env st ln "syntax-lambda" hd d (.syn v (.pair hd d) st ln)
  | beg {ex sy idn env st ln hd d} : Use h q ex sy idn env st ln "begin" hd d (.beg hd d idn env st ln)
  | define {ex sy idn env st ln b hd d} : b = "define" ∨ b = "define-syntax" → defineOk b (items d) = true →
    Use h q ex sy idn env st ln b hd d (.defn (decide (b = "define-syntax")) hd d idn env st ln)
  | lambda {sy idn env st ln hd d f e o} : items d = [f, e] → (∀ x ∈ formals f, isSid x = true) → (formals f).Nodup →
    Expr h q idn (bindFormals (formals f) env st ln).2.1 (bindFormals (formals f) env st ln).2.2.1
      (bindFormals (formals f) env st ln).2.2.2 e o →
    Use h q true sy idn env st ln "lambda" hd d (.expr (lamOf f (bindFormals (formals f) env st ln).1 o))
  | quote {sy idn env st ln hd d x o} : items d = [x] → Expr h q idn [] st ln (listOf [.sym "%quote", decompose h x]) o →
    Use h q true sy idn env st ln "quote" hd d (.expr o)
  | set {sy idn env st ln hd d name id loc e v o} : items d = [.sid name id loc, e] →
    lookupLocation (lookupSid id loc env) st = some (.var v) → Expr h q idn env st ln e o →
    Use h q true sy idn env st ln "set!" hd d (.expr (.set v o))
  | iff {sy idn env st ln hd d os} : (items d).length = 2 ∨ (items d).length = 3 → Exprs h q idn env st ln (items d) os →
    Use h q true sy idn env st ln "if" hd d (.expr (.form "if" os))
  | letcc {sy idn env st ln hd d name id loc e o} : items d = [.sid name id loc, e] →
    Expr h q idn ((id, .num ln) :: env) ((.num ln, .var (.loc ln name)) :: st) (ln + 1) e o →
    Use h q true sy idn env st ln "letcc" hd d (.expr (.letcc (.loc ln name) o))
  | withcc {sy idn env st ln hd d os} : (items d).length = 2 → Exprs h q idn env st ln (items d) os →
    Use h q true sy idn env st ln "withcc" hd d (.expr (.form "withcc" os))
  | quote' {sy idn env st ln hd d e o} : items d = [e] → Expr h q idn env st ln e o →
    Use h q true sy idn env st ln "%quote" hd d (.expr (.form "%quote" [o]))
  | const {sy idn env st ln hd d} : items d ≠ [] → Use h q true sy idn env st ln "%const" hd d (.expr (.raw "%const" (items d)))
  | text {sy idn env st ln b hd d n} : b = "%definition" ∨ b = "%localdef" → items d = [.atom n] → h.isStr n = true →
    Use h q true sy idn env st ln b hd d (.expr (.raw b [.atom n]))
  | prim {sy idn env st ln b hd d sf args os} : b ∈ primNames → items d = sf :: args → okSf h sf = true →
    Exprs h q idn env st ln args os → Use h q true sy idn env st ln b hd d (.expr (.prim b sf os))
/-- the expansion of a use `x` of a macro, 2.sf:365-390. -/
inductive Apply (h : Host) (q : Bool) : Bool → Bool → Bool → Nat → Env → Store → Nat → Val → Sx → Res → Prop where
  | rules {ex sy lsd idn env st ln m x y idn' r} : applySynrules m idn env x = .result (.ok (y, idn')) →
    Form h q ex sy lsd idn' env st ln y r → Apply h q ex sy lsd idn env st ln (.rules m) x r
  | argStop {ex sy lsd idn env st ln fs body denv hd args o} : fs.length = (items args).length →
    Vals h q idn env (items args) st (ln + fs.length) (.stop o) →
    Apply h q ex sy lsd idn env st ln (.slam fs body denv) (.pair hd args) (.stop o)
  | slam {ex sy lsd idn env st ln fs first rest denv hd args vs st' ln' r} : fs.length = (items args).length →
    Vals h q idn env (items args) st (ln + fs.length) (.vals vs st' ln') →
    Body h q ex sy lsd first rest [] [] (if ex then some [] else none) idn (bindKeywords fs ln denv)
      (storeVals (bindKeywords fs ln denv) (fs.zip (items args)) vs st') ln' r →
    (lsd = true ∨ (∃ o, r = .expr o) ∨ (∃ v hd st ln, r = .syn v hd st ln) ∨ ∃ o, r = .stop o) →
    Apply h q ex sy lsd idn env st ln (.slam fs (first :: rest) denv) (.pair hd args) r
  | slamBegin {ex sy idn env st ln fs first rest denv hd args vs st' ln' hd2 t idn2 env2 st2 ln2 os} :
    fs.length = (items args).length →
    Vals h q idn env (items args) st (ln + fs.length) (.vals vs st' ln') →
    Body h q ex sy false first rest [] [] (if ex then some [] else none) idn (bindKeywords fs ln denv)
      (storeVals (bindKeywords fs ln denv) (fs.zip (items args)) vs st') ln' (.beg hd2 t idn2 env2 st2 ln2) →
    Exprs h q idn2 env2 st2 ln2 (items t) os → os ≠ [] → q = true →
    Apply h q ex sy false idn env st ln (.slam fs (first :: rest) denv) (.pair hd args) (.stop (makeBegin os))
/-- values of keywords, one after the other, 2.sf:352-358, 517-522. -/
inductive Vals (h : Host) (q : Bool) : Nat → Env → List Sx → Store → Nat → VRes → Prop where
  | nil {idn env st ln} : Vals h q idn env [] st ln (.vals [] st ln)
  | code {idn env x xs st ln o vs st' ln'} : Form h q true true false idn env st ln x (.expr o) →
    Vals h q idn env xs st ln (.vals vs st' ln') → Vals h q idn env (x :: xs) st ln (.vals (.code o :: vs) st' ln')
  | codeStop {idn env x xs st ln o o'} : Form h q true true false idn env st ln x (.expr o) →
    Vals h q idn env xs st ln (.stop o') → Vals h q idn env (x :: xs) st ln (.stop o')
  | syn {idn env x xs st ln v hd st1 ln1 vs st' ln'} : Form h q true true false idn env st ln x (.syn v hd st1 ln1) →
    Vals h q idn env xs st1 ln1 (.vals vs st' ln') → Vals h q idn env (x :: xs) st ln (.vals (v :: vs) st' ln')
  | synStop {idn env x xs st ln v hd st1 ln1 o'} : Form h q true true false idn env st ln x (.syn v hd st1 ln1) →
    Vals h q idn env xs st1 ln1 (.stop o') → Vals h q idn env (x :: xs) st ln (.stop o')
  | stop {idn env x xs st ln o} : Form h q true true false idn env st ln x (.stop o) → Vals h q idn env (x :: xs) st ln (.stop o)
  | beg {idn env x xs st ln hd t idn' env' st' ln' os} : Form h q true true false idn env st ln x (.beg hd t idn' env' st' ln') →
    Exprs h q idn' env' st' ln' (items t) os → os ≠ [] → q = true → Vals h q idn env (x :: xs) st ln (.stop (makeBegin os))
/-- a form of a body, 2.sf:528-574. -/
inductive Def (h : Host) (q : Bool) : Bool → Nat → Env → Store → Nat → List (Sx × Sx) → List (Sx × Sx) → Option (List Sx) → Sx → DRes → Prop where
  | expr {idn env st ln vds sds exprs x o} : Form h q true false false idn env st ln x (.expr o) →
    Def h q true idn env st ln vds sds exprs x (.expr o)
  | stop {ex idn env st ln vds sds exprs x o} : Form h q ex false false idn env st ln x (.stop o) →
    Def h q ex idn env st ln vds sds exprs x (.stop o)
  | defn {ex idn env st ln vds sds exprs x b hd t idn' env' st' ln' r} :
    Form h q ex false false idn env st ln x (.defn b hd t idn' env' st' ln') → AddDef vds sds exprs b t idn' env' st' ln' r →
    Def h q ex idn env st ln vds sds exprs x r
  | beg {ex idn env st ln vds sds exprs x hd t idn' env' st' ln' r} :
    Form h q ex false false idn env st ln x (.beg hd t idn' env' st' ln') →
    Defs h q ex idn' env' st' ln' vds sds exprs (items t) r → Def h q ex idn env st ln vds sds exprs x r
/-- the forms of a `begin` in a body, 2.sf:558-573. -/
inductive Defs (h : Host) (q : Bool) : Bool → Nat → Env → Store → Nat → List (Sx × Sx) → List (Sx × Sx) → Option (List Sx) → List Sx → DRes → Prop where
  | nil {ex idn env st ln vds sds exprs} : Defs h q ex idn env st ln vds sds exprs [] (.next vds sds exprs idn env st ln)
  | cons {ex idn env st ln vds sds exprs x xs vds' sds' exprs' idn' env' st' ln' r} :
    Def h q ex idn env st ln vds sds exprs x (.next vds' sds' exprs' idn' env' st' ln') →
    Defs h q false idn' env' st' ln' vds' sds' exprs' xs r → Defs h q ex idn env st ln vds sds exprs (x :: xs) r
  | expr {idn env st ln vds sds exprs x xs o os} : Def h q true idn env st ln vds sds exprs x (.expr o) →
    Exprs h q idn env st ln xs os → Defs h q true idn env st ln vds sds exprs (x :: xs) (.expr (makeBegin (o :: os)))
  | stop {ex idn env st ln vds sds exprs x xs o} : Def h q ex idn env st ln vds sds exprs x (.stop o) →
    Defs h q ex idn env st ln vds sds exprs (x :: xs) (.stop o)
/-- a body, 2.sf:575-607. -/
inductive Body (h : Host) (q : Bool) : Bool → Bool → Bool → Sx → List Sx → List (Sx × Sx) → List (Sx × Sx) → Option (List Sx) → Nat → Env →
    Store → Nat → Res → Prop where
  | last {ex sy lsd first vds sds exprs idn env st ln vs st' ln' r} :
    Vals h q idn env (sds.map Prod.snd) st ln (.vals vs st' ln') →
    Finish h q ex sy lsd first [] vds exprs idn env none (storeVals env sds vs st') ln' r →
    Body h q ex sy lsd first [] vds sds exprs idn env st ln r
  | lastStop {ex sy lsd first vds sds exprs idn env st ln o} :
    Vals h q idn env (sds.map Prod.snd) st ln (.stop o) → Body h q ex sy lsd first [] vds sds exprs idn env st ln (.stop o)
  | next {ex sy lsd first next rest vds sds exprs idn env st ln vds' sds' exprs' idn' env' st' ln' r} :
    Def h q ex idn env st ln vds sds exprs first (.next vds' sds' exprs' idn' env' st' ln') →
    Body h q ex sy lsd next rest vds' sds' exprs' idn' env' st' ln' r →
    Body h q ex sy lsd first (next :: rest) vds sds exprs idn env st ln r
  | expr {sy lsd first next rest vds sds exprs idn env st ln o vs st' ln' r} :
    Def h q true idn env st ln vds sds exprs first (.expr o) →
    Vals h q idn env (sds.map Prod.snd) st ln (.vals vs st' ln') →
    Finish h q true sy lsd first (next :: rest) vds exprs idn env (some o) (storeVals env sds vs st') ln' r →
    Body h q true sy lsd first (next :: rest) vds sds exprs idn env st ln r
  | exprStop {sy lsd first next rest vds sds exprs idn env st ln o o'} :
    Def h q true idn env st ln vds sds exprs first (.expr o) → Vals h q idn env (sds.map Prod.snd) st ln (.stop o') →
    Body h q true sy lsd first (next :: rest) vds sds exprs idn env st ln (.stop o')
  | stop {ex sy lsd first next rest vds sds exprs idn env st ln o} :
    Def h q ex idn env st ln vds sds exprs first (.stop o) → Body h q ex sy lsd first (next :: rest) vds sds exprs idn env st ln (.stop o)
/-- the end of a body, 2.sf:582-600. -/
inductive Finish (h : Host) (q : Bool) : Bool → Bool → Bool → Sx → List Sx → List (Sx × Sx) → Option (List Sx) → Nat → Env → Option Out →
    Store → Nat → Res → Prop where
  | only {ex sy lsd first exprs idn env bd st ln r} : exprs.getD [] = [] → Form h q ex sy lsd idn env st ln first r →
    Finish h q ex sy lsd first [] [] exprs idn env bd st ln r
  | last {sy lsd first vds es idn env bd st ln vs is os o} : ¬ (vds = [] ∧ es = []) → Vds h q idn env st ln vds.reverse vs is →
    Exprs h q idn env st ln es.reverse os → Expr h q idn env st ln first o →
    Finish h q true sy lsd first [] vds (some es) idn env bd st ln (.expr (makeLetrec (vs, is) (makeBegin (os ++ [o]))))
  | more {sy lsd first next rest vds es idn env st ln vs is os o os'} : Vds h q idn env st ln vds.reverse vs is →
    Exprs h q idn env st ln es.reverse os → Exprs h q idn env st ln (next :: rest) os' →
    Finish h q true sy lsd first (next :: rest) vds (some es) idn env (some o) st ln
      (.expr (makeLetrec (vs, is) (makeBegin (os ++ o :: os'))))
/-- the definitions of a body, 2.sf:584-585. -/
inductive Vds (h : Host) (q : Bool) : Nat → Env → Store → Nat → List (Sx × Sx) → List Var → List Out → Prop where
  | nil {idn env st ln} : Vds h q idn env st ln [] [] []
  | cons {idn env st ln name id loc e ds v o vs os} : lookupLocation (lookupSid id loc env) st = some (.var v) →
    Expr h q idn env st ln e o → Vds h q idn env st ln ds vs os →
    Vds h q idn env st ln ((.sid name id loc, e) :: ds) (v :: vs) (o :: os)
end

/-- what the top-level forms expand to: the outputs in reverse order with the state, or the output at which the expansion
ended. -/
inductive TRes where
  | done (st : Store) (ln : Nat) (acc : List Out)
  | stop (o : Out)

/-- the top level, 2.sf:611-637. -/
inductive Top (h : Host) (q : Bool) : Nat → Env → Store → Nat → List Out → List Sx → TRes → Prop where
  | nil {idn env st ln acc} : Top h q idn env st ln acc [] (.done st ln acc)
  | expr {idn env st ln acc x xs o r} : Form h q true false true idn env st ln x (.expr o) →
    Top h q idn env st ln (o :: acc) xs r → Top h q idn env st ln acc (x :: xs) r
  | stop {idn env st ln acc x xs o} : Form h q true false true idn env st ln x (.stop o) →
    Top h q idn env st ln acc (x :: xs) (.stop o)
  | anon {idn env st ln acc x xs b hd e idn' env' st' ln' o r} :
    Form h q true false true idn env st ln x (.defn b hd (listOf [e]) idn' env' st' ln') → Expr h q idn' env' st' ln' e o →
    Top h q idn env st ln (o :: acc) xs r → Top h q idn env st ln acc (x :: xs) r
  | var {idn env st ln acc x xs hd name id loc e idn' env' st' ln' o r} :
    Form h q true false true idn env st ln x (.defn false hd (listOf [.sid name id loc, e]) idn' env' st' ln') →
    Expr h q idn' env' st' ln' e o →
    Top h q idn env (substStore st' loc (.var (locVar loc name))) ln' (.define (locVar loc name) o :: acc) xs r →
    Top h q idn env st ln acc (x :: xs) r
  | stx {idn env st ln acc x xs hd name id loc e idn' env' st' ln' v st2 ln2 r} :
    Form h q true false true idn env st ln x (.defn true hd (listOf [.sid name id loc, e]) idn' env' st' ln') →
    Vals h q idn' env' [e] st' ln' (.vals [v] st2 ln2) → Top h q idn env (substStore st2 loc v) ln2 acc xs r →
    Top h q idn env st ln acc (x :: xs) r
  | stxStop {idn env st ln acc x xs hd name id loc e idn' env' st' ln' o} :
    Form h q true false true idn env st ln x (.defn true hd (listOf [.sid name id loc, e]) idn' env' st' ln') →
    Vals h q idn' env' [e] st' ln' (.stop o) → Top h q idn env st ln acc (x :: xs) (.stop o)
  | beg {idn env st ln acc x xs hd t idn' env' st' ln' st2 ln2 acc2 r} :
    Form h q true false true idn env st ln x (.beg hd t idn' env' st' ln') →
    Top h q idn' env' st' ln' acc (items t) (.done st2 ln2 acc2) → Top h q idn env st2 ln2 acc2 xs r →
    Top h q idn env st ln acc (x :: xs) r
  | begStop {idn env st ln acc x xs hd t idn' env' st' ln' o} :
    Form h q true false true idn env st ln x (.beg hd t idn' env' st' ln') →
    Top h q idn' env' st' ln' acc (items t) (.stop o) → Top h q idn env st ln acc (x :: xs) (.stop o)

end Verif.Expand.Direct

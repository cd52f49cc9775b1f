import Verif.Arity.Model
/-
The interpreter's compiler to closures and its run time: /repo/int/ints.sf:1831-1908 (parms->frame,
scheme-compile), 1919-2185 (gen-*), 1740-1781 (argument-count check at calls).  The same text is in
int/intm.sf and int/intl.sf.

Simplifications.  Host closures `(lambda (rte) …)` are kept as data (`Code`, one constructor per `gen-`
procedure) run by `run`.  Input is an abstract syntax tree (shape and identifier checks of the reader side
are not modelled).  Operands are evaluated left to right.  Global variables are cells named by their symbol;
the default value of a global is its own symbol (ints.sf:2216-2223).  Built-in procedures are `cons`, `car`,
`cdr` and an arbitrary family of operations on atoms.  The inner case dispatch on slot numbers 0..3
(ints.sf:1936-1951, 1985-2003) is merged: all its branches are the same expression.
-/
namespace Verif.Interp

/-- Symbols. -/
abbrev Name := Nat

/-- Atomic data. -/
inductive Atom where
  | nil | void | bool (b : Bool) | num (n : Int) | sym (x : Name)
deriving DecidableEq

/-- Constants: atoms and pairs. -/
inductive Datum where
  | atom (a : Atom)
  | pair (a d : Datum)

/-- Built-in procedures. -/
inductive Prim where
  | cons | car | cdr | op (n : Nat)

/-- Core expressions (output of the macro expander). -/
inductive Exp where
  | var (x : Name)
  | cst (d : Datum)
  | set (x : Name) (e : Exp)
  /-- parameters (the last one is the rest parameter if `rest`) -/
  | lam (ps : List Name) (rest : Bool) (body : Exp)
  | ite (a b c : Exp)
  | when (a b : Exp)
  | letrec (xs : List Name) (vals : List Exp) (body : Exp)
  | begin (e : Exp) (es : List Exp)
  | define (x : Name) (e : Exp)
  | app (f : Exp) (args : List Exp)

/-- The closures built by the `gen-` procedures. -/
inductive Code where
  | cst (d : Datum)
  | slotRef0 (i : Nat) | slotRef1 (i : Nat) | slotRefUp2 (c : Code) | gloRef (x : Name)
  | slotSet0 (i : Nat) (c : Code) | slotSet1 (i : Nat) (c : Code) | slotSetN (up : Code) (i : Nat) (c : Code)
  | gloSet (x : Name) (c : Code)
  | lam0 (b : Code) | lam1 (b : Code) | lam2 (b : Code) | lam3 (b : Code) | lam4 (b : Code)
  | lamN (nb : Nat) (b : Code)
  | lam1r (b : Code) | lam2r (b : Code) | lam3r (b : Code) | lamNr (nb : Nat) (b : Code)
  | seq (a b : Code) | when (a b : Code) | ite (a b c : Code)
  | letrec1 (v b : Code) | letrec2 (v1 v2 b : Code) | letrec3 (v1 v2 v3 b : Code)
  | letrecN (nb : Nat) (vs : List Code) (b : Code)
  | gcomb0 (x : Name) | gcomb1 (x : Name) (a : Code) | gcomb2 (x : Name) (a b : Code)
  | gcomb3 (x : Name) (a b c : Code) | gcomb4 (x : Name) (a b c d : Code) | gcombN (x : Name) (as : List Code)
  | comb0 (f : Code) | comb1 (f a : Code) | comb2 (f a b : Code) | comb3 (f a b c : Code)
  | comb4 (f a b c d : Code) | combN (f : Code) (as : List Code)

/-! ### compilation -/

/-- `gen-rte-ref`, ints.sf:1929-1933. -/
def genRteRef : Nat → Nat → Code
  | 0, over => .slotRef0 over
  | 1, over => .slotRef1 over
  | up+2, over => .slotRefUp2 (genRteRef up over)

/-- `gen-rte-set`, ints.sf:1978-1982. -/
def genRteSet : Nat → Nat → Code → Code
  | 0, over, c => .slotSet0 over c
  | 1, over, c => .slotSet1 over c
  | up+2, over, c => .slotSetN (genRteRef up 0) over c

/-- `gen-var-ref`, ints.sf:1924-1927; `none` is a global. -/
def genVarRef (v : Option (Nat × Nat)) (x : Name) : Code :=
  match v with
  | some (up, over) => genRteRef up over
  | none => .gloRef x

/-- `gen-var-set`, ints.sf:1973-1976. -/
def genVarSet (v : Option (Nat × Nat)) (x : Name) (c : Code) : Code :=
  match v with
  | some (up, over) => genRteSet up over c
  | none => .gloSet x c

/-- `gen-lambda`, ints.sf:2034-2041. -/
def genLambda (nb : Nat) (b : Code) : Code :=
  match nb with
  | 0 => .lam0 b | 1 => .lam1 b | 2 => .lam2 b | 3 => .lam3 b | 4 => .lam4 b | _ => .lamN nb b

/-- `gen-lambda-rest`, ints.sf:2002-2007. -/
def genLambdaRest (nb : Nat) (b : Code) : Code :=
  match nb with
  | 1 => .lam1r b | 2 => .lam2r b | 3 => .lam3r b | _ => .lamNr nb b

/-- `gen-letrec`, ints.sf:2083-2089. -/
def genLetrec (vs : List Code) (b : Code) : Code :=
  match vs with
  | [v1] => .letrec1 v1 b
  | [v1, v2] => .letrec2 v1 v2 b
  | [v1, v2, v3] => .letrec3 v1 v2 v3 b
  | vs => .letrecN vs.length vs b

/-- `gen-combination`, ints.sf:2155-2163. -/
def genComb (f : Code) (as : List Code) : Code :=
  match as with
  | [] => .comb0 f | [a] => .comb1 f a | [a, b] => .comb2 f a b | [a, b, c] => .comb3 f a b c
  | [a, b, c, d] => .comb4 f a b c d | as => .combN f as

/-- `gen-glo-combination`, ints.sf:2121-2129. -/
def genGComb (x : Name) (as : List Code) : Code :=
  match as with
  | [] => .gcomb0 x | [a] => .gcomb1 x a | [a, b] => .gcomb2 x a b | [a, b, c] => .gcomb3 x a b c
  | [a, b, c, d] => .gcomb4 x a b c d | as => .gcombN x as

/-- `cons-cte`, ints.sf:1853-1854; a compile-time environment is the list of its frames. -/
def consCte (frame : List Name) (cte : List (List Name)) : List (List Name) :=
  if frame = [] then cte else frame :: cte

/-- the inner loop of `lookup`, ints.sf:1859-1862. -/
def lookupFrame (x : Name) : List Name → Nat → Option Nat
  | [], _ => none
  | y :: ys, over => if y = x then some over else lookupFrame x ys (over + 1)

/-- `lookup`, ints.sf:1855-1862; `none` if the variable is global. -/
def lookup (x : Name) : List (List Name) → Nat → Option (Nat × Nat)
  | [], _ => none
  | frame :: chain, up =>
    match lookupFrame x frame 1 with
    | some over => some (up, over)
    | none => lookup x chain (up + 1)

mutual
/-- `scheme-compile`, ints.sf:1852-1908. -/
def comp (cte : List (List Name)) : Exp → Code
  | .var x => genVarRef (lookup x cte 0) x
  | .cst d => .cst d
  | .set x e => genVarSet (lookup x cte 0) x (comp cte e)
  | .lam ps rest body =>
    let code := comp (consCte ps cte) body
    if rest then genLambdaRest ps.length code else genLambda ps.length code
  | .ite a b c => .ite (comp cte a) (comp cte b) (comp cte c)
  | .when a b => .when (comp cte a) (comp cte b)
  | .letrec xs vals body =>
    genLetrec (compAll (consCte xs cte) vals) (comp (consCte xs cte) body)
  | .begin e es => compSeq cte (comp cte e) es
  | .define x e => .seq (genVarSet (lookup x cte 0) x (comp cte e)) (.cst (.atom (.sym x)))
  | .app (.var x) args =>
    match lookup x cte 0 with
    | some v => genComb (genVarRef (some v) x) (compAll cte args)
    | none => genGComb x (compAll cte args)
  | .app f args => genComb (comp cte f) (compAll cte args)
/-- `(map comp …)`. -/
def compAll (cte : List (List Name)) : List Exp → List Code
  | [] => []
  | e :: es => comp cte e :: compAll cte es
/-- the loop for `begin`, ints.sf:1892-1897; `code` is the code of the preceding expression. -/
def compSeq (cte : List (List Name)) (code : Code) : List Exp → Code
  | [] => code
  | e :: es => .seq code (compSeq cte (comp cte e) es)
end

/-! ### running compiled code -/

/-- The host procedures made by the `gen-lambda-` family. -/
inductive LKind where
  | f0 | f1 | f2 | f3 | f4 | fn (nb : Nat) | r1 | r2 | r3 | rn (nb : Nat)

/-- Values.  `vec` is a run-time environment (a vector in the heap); `clos` an annotated procedure. -/
inductive CVal where
  | atom (a : Atom)
  | pair (a d : CVal)
  | prim (p : Prim)
  | vec (addr : Nat)
  | clos (k : LKind) (ann : Int) (body : Code) (rte : CVal)

/-- A constant as a value. -/
def Datum.toC : Datum → CVal
  | .atom a => .atom a
  | .pair a d => .pair a.toC d.toC

/-- Outcome of a computation: value and state, run-time error, or out of fuel. -/
inductive Res (V S : Type) where
  | ok (v : V) (s : S)
  | err
  | timeout

/-- sequencing. -/
def Res.bind {V S W T : Type} (r : Res V S) (k : V → S → Res W T) : Res W T :=
  match r with
  | .ok v s => k v s
  | .err => .err
  | .timeout => .timeout

/-- Heap of environment vectors and global variables. -/
structure CSt where
  heap : List (List CVal)
  glob : Name → CVal

/-- `(vector-ref v i)`; `none` is an error. -/
def vecRef (h : List (List CVal)) (v : CVal) (i : Nat) : Option CVal :=
  match v with
  | .vec a => match h[a]? with | some f => f[i]? | none => none
  | _ => none

/-- `(vector-set! v i x)`. -/
def vecSet (h : List (List CVal)) (v : CVal) (i : Nat) (x : CVal) : Option (List (List CVal)) :=
  match v with
  | .vec a =>
    match h[a]? with
    | some f => if i < f.length then some (h.set a (f.set i x)) else none
    | none => none
  | _ => none

/-- only `#f` is false. -/
def CVal.truth : CVal → Bool
  | .atom (.bool false) => false
  | _ => true

/-- lift an optional value. -/
def refRes (o : Option CVal) (s : CSt) : Res CVal CSt :=
  match o with | some v => .ok v s | none => .err

/-- `vector-set!` as a step. -/
def setRes (v : CVal) (i : Nat) (x : CVal) (s : CSt) : Res CVal CSt :=
  match vecSet s.heap v i x with
  | some h => .ok (.atom .void) { s with heap := h }
  | none => .err

/-- allocate an environment vector. -/
def alloc (f : List CVal) (s : CSt) : CVal × CSt :=
  (.vec s.heap.length, { s with heap := s.heap ++ [f] })

/-- update a global. -/
def setGlob (g : Name → CVal) (x : Name) (v : CVal) : Name → CVal := fun y => if y = x then v else g y

section
variable (app : CVal → List CVal → CSt → Res CVal CSt)

/-- `make-annotated-procedure`, ints.sf:1801-1809. -/
def mkClos (k : LKind) (nb : Nat) (rest : Bool) (b : Code) (rte : CVal) : CVal :=
  .clos k (if rest then Arity.restAnn nb else Arity.argcAnn nb) b rte

mutual
/-- Run a closure in the run-time environment `rte`, ints.sf:1936-2185.  `app` applies a procedure. -/
def run : Code → CVal → CSt → Res CVal CSt
  | .cst d, _, s => .ok d.toC s
  | .slotRef0 i, rte, s => refRes (vecRef s.heap rte i) s
  | .slotRef1 i, rte, s =>
    (refRes (vecRef s.heap rte 0) s).bind fun p s => refRes (vecRef s.heap p i) s
  | .slotRefUp2 c, rte, s =>
    (refRes (vecRef s.heap rte 0) s).bind fun p s => (refRes (vecRef s.heap p 0) s).bind fun q s => run c q s
  | .gloRef x, _, s => .ok (s.glob x) s
  | .slotSet0 i c, rte, s => (run c rte s).bind fun v s => setRes rte i v s
  | .slotSet1 i c, rte, s =>
    (refRes (vecRef s.heap rte 0) s).bind fun p s => (run c rte s).bind fun v s => setRes p i v s
  | .slotSetN up i c, rte, s =>
    (refRes (vecRef s.heap rte 0) s).bind fun p s => (run up p s).bind fun q s =>
      (run c rte s).bind fun v s => setRes q i v s
  | .gloSet x c, rte, s =>
    (run c rte s).bind fun v s => .ok (.atom .void) { s with glob := setGlob s.glob x v }
  | .lam0 b, rte, s => .ok (mkClos .f0 0 false b rte) s
  | .lam1 b, rte, s => .ok (mkClos .f1 1 false b rte) s
  | .lam2 b, rte, s => .ok (mkClos .f2 2 false b rte) s
  | .lam3 b, rte, s => .ok (mkClos .f3 3 false b rte) s
  | .lam4 b, rte, s => .ok (mkClos .f4 4 false b rte) s
  | .lamN nb b, rte, s => .ok (mkClos (.fn nb) nb false b rte) s
  | .lam1r b, rte, s => .ok (mkClos .r1 1 true b rte) s
  | .lam2r b, rte, s => .ok (mkClos .r2 2 true b rte) s
  | .lam3r b, rte, s => .ok (mkClos .r3 3 true b rte) s
  | .lamNr nb b, rte, s => .ok (mkClos (.rn nb) nb true b rte) s
  | .seq a b, rte, s => (run a rte s).bind fun _ s => run b rte s
  | .when a b, rte, s => (run a rte s).bind fun v s => if v.truth then run b rte s else .ok (.atom .nil) s
  | .ite a b c, rte, s => (run a rte s).bind fun v s => if v.truth then run b rte s else run c rte s
  | .letrec1 v1 b, rte, s =>
    let (x, s) := alloc [rte, .atom (.bool false)] s
    (run v1 x s).bind fun w s => (setRes x 1 w s).bind fun _ s => run b x s
  | .letrec2 v1 v2 b, rte, s =>
    let (x, s) := alloc [rte, .atom (.bool false), .atom (.bool false)] s
    (run v1 x s).bind fun w s => (setRes x 1 w s).bind fun _ s =>
      (run v2 x s).bind fun w s => (setRes x 2 w s).bind fun _ s => run b x s
  | .letrec3 v1 v2 v3 b, rte, s =>
    let (x, s) := alloc [rte, .atom (.bool false), .atom (.bool false), .atom (.bool false)] s
    (run v1 x s).bind fun w s => (setRes x 1 w s).bind fun _ s =>
      (run v2 x s).bind fun w s => (setRes x 2 w s).bind fun _ s =>
        (run v3 x s).bind fun w s => (setRes x 3 w s).bind fun _ s => run b x s
  | .letrecN nb vs b, rte, s =>
    let (x, s) := alloc (List.replicate (nb + 1) (.atom .void)) s
    (setRes x 0 rte s).bind fun _ s => (runLet vs x 1 s).bind fun _ s => run b x s
  | .gcomb0 x, _, s => app (s.glob x) [] s
  | .gcomb1 x a, rte, s =>
    let f := s.glob x
    (run a rte s).bind fun va s => app f [va] s
  | .gcomb2 x a b, rte, s =>
    let f := s.glob x
    (run a rte s).bind fun va s => (run b rte s).bind fun vb s => app f [va, vb] s
  | .gcomb3 x a b c, rte, s =>
    let f := s.glob x
    (run a rte s).bind fun va s => (run b rte s).bind fun vb s => (run c rte s).bind fun vc s =>
      app f [va, vb, vc] s
  | .gcomb4 x a b c d, rte, s =>
    let f := s.glob x
    (run a rte s).bind fun va s => (run b rte s).bind fun vb s => (run c rte s).bind fun vc s =>
      (run d rte s).bind fun vd s => app f [va, vb, vc, vd] s
  | .gcombN x as, rte, s =>
    let f := s.glob x
    (runAll as rte s).bind fun vs s => app f vs s
  | .comb0 f, rte, s => (run f rte s).bind fun vf s => app vf [] s
  | .comb1 f a, rte, s =>
    (run f rte s).bind fun vf s => (run a rte s).bind fun va s => app vf [va] s
  | .comb2 f a b, rte, s =>
    (run f rte s).bind fun vf s => (run a rte s).bind fun va s => (run b rte s).bind fun vb s =>
      app vf [va, vb] s
  | .comb3 f a b c, rte, s =>
    (run f rte s).bind fun vf s => (run a rte s).bind fun va s => (run b rte s).bind fun vb s =>
      (run c rte s).bind fun vc s => app vf [va, vb, vc] s
  | .comb4 f a b c d, rte, s =>
    (run f rte s).bind fun vf s => (run a rte s).bind fun va s => (run b rte s).bind fun vb s =>
      (run c rte s).bind fun vc s => (run d rte s).bind fun vd s => app vf [va, vb, vc, vd] s
  | .combN f as, rte, s =>
    (run f rte s).bind fun vf s => (runAll as rte s).bind fun vs s => app vf vs s
/-- `evaluate`, ints.sf:2149-2152. -/
def runAll : List Code → CVal → CSt → Res (List CVal) CSt
  | [], _, s => .ok [] s
  | c :: cs, rte, s => (run c rte s).bind fun v s => (runAll cs rte s).bind fun vs s => .ok (v :: vs) s
/-- the loop of `gen-letrec-n`, ints.sf:2113-2117. -/
def runLet : List Code → CVal → Nat → CSt → Res CVal CSt
  | [], _, _, s => .ok (.atom .void) s
  | c :: cs, x, i, s => (run c x s).bind fun v s => (setRes x i v s).bind fun _ s => runLet cs x (i + 1) s
end
end

/-- a list value. -/
def listC : List CVal → CVal
  | [] => .atom .nil
  | v :: vs => .pair v (listC vs)

/-- The loop `(vector-set! x i (car l))` while `i <= n`, ints.sf:2068-2073. -/
def fillFixed (n : Nat) : Nat → Nat → List CVal → List CVal → Option (List CVal)
  | 0, _, _, _ => none
  | fuel+1, i, x, l =>
    if i ≤ n then
      match l with
      | v :: l => if i < x.length then fillFixed n fuel (i + 1) (x.set i v) l else none
      | [] => none
    else some x

/-- The loop of `gen-lambda-n-rest`, ints.sf:2026-2031: the last slot gets the remaining list. -/
def fillRest (n : Nat) : Nat → Nat → List CVal → List CVal → Option (List CVal)
  | 0, _, _, _ => none
  | fuel+1, i, x, l =>
    if i < n then
      match l with
      | v :: l => if i < x.length then fillRest n fuel (i + 1) (x.set i v) l else none
      | [] => none
    else if i < x.length then some (x.set i (listC l)) else none

/-- The vector built on entry to a procedure, ints.sf:2009-2077; `none` if the host procedure is called
with a wrong number of arguments.  `gen-lambda-0` builds no vector. -/
def frameOf (k : LKind) (rte : CVal) (args : List CVal) : Option (Option (List CVal)) :=
  match k, args with
  | .f0, [] => some none
  | .f1, [a] => some (some [rte, a])
  | .f2, [a, b] => some (some [rte, a, b])
  | .f3, [a, b, c] => some (some [rte, a, b, c])
  | .f4, [a, b, c, d] => some (some [rte, a, b, c, d])
  | .fn nb, a :: b :: c :: d :: e =>
    let x := List.replicate (nb + 1) (CVal.atom .void)
    let x := ((((x.set 0 rte).set 1 a).set 2 b).set 3 c).set 4 d
    (fillFixed nb (nb + 1) 5 x e).map some
  | .r1, a => some (some [rte, listC a])
  | .r2, a :: b => some (some [rte, a, listC b])
  | .r3, a :: b :: c => some (some [rte, a, b, listC c])
  | .rn nb, a :: b :: c :: d =>
    let x := List.replicate (nb + 1) (CVal.atom .void)
    let x := (((x.set 0 rte).set 1 a).set 2 b).set 3 c
    (fillRest nb (nb + 1) 4 x d).map some
  | _, _ => none

/-- operations on atoms (arbitrary). -/
abbrev Delta := Nat → List Atom → Option Atom

/-- all arguments are atoms. -/
def atomsC : List CVal → Option (List Atom)
  | [] => some []
  | .atom a :: vs => (atomsC vs).map (a :: ·)
  | _ :: _ => none

/-- Built-in procedures. -/
def primC (δ : Delta) (p : Prim) (args : List CVal) : Option CVal :=
  match p, args with
  | .cons, [a, d] => some (.pair a d)
  | .car, [.pair a _] => some a
  | .cdr, [.pair _ d] => some d
  | .op n, args =>
    match atomsC args with
    | some as => (δ n as).map .atom
    | none => none
  | _, _ => none

/-- `scheme-call` / `scheme-apply`: check the procedure and the argument count, then enter it,
ints.sf:1756-1781.  `fuel` bounds the depth of calls. -/
def applyC (δ : Delta) : Nat → CVal → List CVal → CSt → Res CVal CSt
  | 0, _, _, _ => .timeout
  | fuel+1, f, args, s =>
    match f with
    | .prim p => refRes (primC δ p args) s
    | .clos k ann body rte =>
      if Arity.argcheck ann args.length = .apply then
        match frameOf k rte args with
        | none => .err
        | some none => run (applyC δ fuel) body rte s
        | some (some f) => let (x, s) := alloc f s; run (applyC δ fuel) body x s
      else .err
    | _ => .err

/-- `scheme-compile-run`, ints.sf:2192-2194. -/
def compileRun (δ : Delta) (fuel : Nat) (e : Exp) (s : CSt) : Res CVal CSt :=
  run (applyC δ fuel) (comp [] e) (.atom (.bool false)) s

end Verif.Interp

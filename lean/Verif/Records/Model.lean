/-
Records: typed blocks (lib/libl.sf:359-400), the record operations (lib/libl.sf:2287-2327) and the macro `define-record-type`
(lib/libl.sf:2329-2365).

Simplifications.  The heap is a list of blocks that never move; the asserts of the debugging build are checks that stop the program.  Identifiers are
numbers, and identifiers inserted by the macro (`r`, `obj`, `val`) are apart from all of them.  Definitions made by one use of the macro are one frame
of variables.  The quoted name and the quoted list of fields in the type descriptor are immediate constants.
-/
namespace Verif.Records

/-- identifiers of the program. -/
abbrev Name := Nat

/-- objects: immediate ones and pointers to heap blocks. -/
inductive Val
  | imm (n : Nat)
  | ptr (a : Nat)
  deriving DecidableEq

/-- `#f` is `(obj)0`, libl.sf:406. -/
abbrev no : Val := .imm 0
abbrev yes : Val := .imm 1
abbrev void : Val := .imm 2

/-- elements of blocks: run-time tags (libl.sf:319), code pointers of closures, objects. -/
inductive Word
  | tag (n : Nat)
  | code (n : Nat)
  | val (v : Val)
  deriving DecidableEq

/-- heap blocks: native ones have a pointer in the header (libl.sf:295), the others their size. -/
inductive Blk
  | native (n : Nat)
  | sized (ws : List Word)
  deriving DecidableEq

abbrev Heap := List Blk

/-- the block of an object, if it is a pointer to a block that is not native. -/
def words (h : Heap) : Val → Option (List Word)
  | .imm _ => none
  | .ptr a =>
    match h[a]? with
    | some (.sized ws) => some ws
    | _ => none

/-- `istyped`, libl.sf:363-368: the type is a heap object. -/
def istyped (h : Heap) (o : Val) : Bool :=
  match words h o with
  | some (.val (.ptr _) :: _) => true
  | _ => false

/-- `typedtype`, libl.sf:386-389 (`recordrtd`, libl.sf:2293). -/
def typedtype (h : Heap) (o : Val) : Option Val :=
  if istyped h o then
    match words h o with
    | some (.val t :: _) => some t
    | _ => none
  else none

/-- `*typedref`, libl.sf:394-399 (`recordref`, libl.sf:2295). -/
def typedref (h : Heap) (o : Val) (i : Nat) : Option Val :=
  if istyped h o then
    match (words h o).bind (fun ws => ws[i + 1]?) with
    | some (.val v) => some v
    | _ => none
  else none

/-- `*typedref(o, i) = v`, libl.sf:394-399. -/
def typedset (h : Heap) (o : Val) (i : Nat) (v : Val) : Option Heap :=
  if istyped h o then
    match o, words h o with
    | .ptr a, some ws => if i + 1 < ws.length then some (h.set a (.sized (ws.set (i + 1) (.val v)))) else none
    | _, _ => none
  else none

/-- `record?` with a type, libl.sf:2300-2303. -/
def isrecord (h : Heap) (o t : Val) : Bool :=
  if !istyped h o then false else typedtype h o = some t

/-- `make-record`, libl.sf:2306-2312: fields are zeroed, the type comes first. -/
def makeRecord (h : Heap) (rtd : Val) (c : Nat) : Option (Val × Heap) :=
  match rtd with
  | .imm _ => none
  | .ptr t => some (.ptr h.length, h ++ [.sized (.val (.ptr t) :: List.replicate c (.val no))])

/-- `new-record-type`, libl.sf:2326-2327: a pair (tag 3, libl.sf:2005). -/
def newType (h : Heap) (name fields : Val) : Val × Heap :=
  (.ptr h.length, h ++ [.sized [.tag 3, .val name, .val fields]])

/-! ### the macro -/

/-- variables of the expansion. -/
inductive V
  | user (n : Name)
  | r
  | obj
  | val
  deriving DecidableEq

/-- expressions of the expansion. -/
inductive E
  | var (x : V)
  /-- `(new-record-type 'name '(f ...))` -/
  | newType
  /-- `(make-record t n)` -/
  | make (t : E) (n : Nat)
  /-- `(record? o t)` -/
  | isRec (o t : E)
  /-- `(record-ref o i)` -/
  | ref (o : E) (i : Nat)
  /-- `(record-set! o i x)` -/
  | set (o : E) (i : Nat) (x : E)
  /-- `(begin a b)` -/
  | seq (a b : E)
  /-- `(let ([x e]) b)` -/
  | let1 (x : V) (e b : E)
  /-- `(lambda (x ...) b)` -/
  | lam (xs : List V) (b : E)
  /-- `(syntax-error …)`, which is no keyword: a call of a procedure that is not defined -/
  | error

/-- a use of `define-record-type`, libl.sf:2364. -/
structure Decl where
  rtn : Name
  consn : Name
  ids : List Name
  predn : Name
  fields : List (List Name)

/-- `id-eq??`, libl.sf:2332-2336. -/
def idEq {α : Type} (id b : Name) (kt kf : α) : α := if id = b then kt else kf

/-- `id-assq??`, libl.sf:2337-2340. -/
def idAssq {α : Type} (id : Name) : List (Name × Nat) → (Nat → α) → α → α
  | [], _, kf => kf
  | (id0, r0) :: idr, kt, kf => idEq id id0 (kt r0) (idAssq id idr kt kf)

/-- `(begin x ... r)`. -/
def begin (xs : List E) (r : E) : E := xs.foldr .seq r

/-- `init`, libl.sf:2341-2347. -/
def init (r : E) (fi : List (Name × Nat)) : List Name → List E → E
  | [], xs => begin xs r
  | id0 :: ids, xs => idAssq id0 fi (fun i0 => init r fi ids (xs ++ [.set r i0 (.var (.user id0))])) .error

/-- `unroll`, libl.sf:2348-2362. -/
def unroll (rtn consn : Name) (ids : List Name) (predn : Name) :
    List (List Name) → List (Name × Nat) → List (Name × Nat) → List (Name × Nat) → Option (List (Name × E))
  -- libl.sf:2350-2356
  | [], fi, ai, mi => some
      ((rtn, .newType) ::
       (consn, .lam (ids.map .user) (.let1 .r (.make (.var (.user rtn)) fi.length) (init (.var .r) fi ids []))) ::
       (predn, .lam [.obj] (.isRec (.var .obj) (.var (.user rtn)))) ::
       (ai.map (fun a => (a.1, .lam [.obj] (.ref (.var .obj) a.2))) ++
        mi.map (fun m => (m.1, .lam [.obj, .val] (.set (.var .obj) m.2 (.var .val))))))
  -- libl.sf:2357-2359
  | [fn, accn] :: fam, fi, ai, mi =>
    unroll rtn consn ids predn fam (fi ++ [(fn, fi.length)]) (ai ++ [(accn, fi.length)]) mi
  -- libl.sf:2360-2362
  | [fn, accn, modn] :: fam, fi, ai, mi =>
    unroll rtn consn ids predn fam (fi ++ [(fn, fi.length)]) (ai ++ [(accn, fi.length)]) (mi ++ [(modn, fi.length)])
  | _ :: _, _, _, _ => none

/-- `define-record-type`, libl.sf:2363-2365. -/
def expand (d : Decl) : Option (List (Name × E)) := unroll d.rtn d.consn d.ids d.predn d.fields [] [] []

/-! ### values of expansions -/

/-- values of definitions: objects and procedures. -/
inductive Def
  | val (v : Val)
  | proc (xs : List V) (b : E)

/-- the variables defined by one use of the macro; the last definition of a variable comes first. -/
abbrev Frame := List (Name × Def)

abbrev Locals := List (V × Val)

/-- the value of a variable. -/
def look (fr : Frame) (l : Locals) (x : V) : Option Val :=
  match l.lookup x with
  | some v => some v
  | none =>
    match x with
    | .user n =>
      match fr.lookup n with
      | some (.val v) => some v
      | _ => none
    | _ => none

/-- values of expressions. -/
def eval (fr : Frame) : E → Locals → Heap → Option (Val × Heap)
  | .var x, l, h => (look fr l x).map (fun v => (v, h))
  | .newType, _, h => some (newType h (.imm 3) (.imm 3))
  | .make t n, l, h => (eval fr t l h).bind (fun r => makeRecord r.2 r.1 n)
  | .isRec o t, l, h =>
    (eval fr o l h).bind (fun x => (eval fr t l x.2).map (fun y => (if isrecord y.2 x.1 y.1 then yes else no, y.2)))
  | .ref o i, l, h => (eval fr o l h).bind (fun x => (typedref x.2 x.1 i).map (fun v => (v, x.2)))
  | .set o i x, l, h =>
    (eval fr o l h).bind (fun o => (eval fr x l o.2).bind (fun v => (typedset v.2 o.1 i v.1).map (fun h => (void, h))))
  | .seq a b, l, h => (eval fr a l h).bind (fun r => eval fr b l r.2)
  | .let1 x e b, l, h => (eval fr e l h).bind (fun r => eval fr b ((x, r.1) :: l) r.2)
  | .lam _ _, _, _ => none
  | .error, _, _ => none

/-- definitions, in order. -/
def evalDefs : List (Name × E) → Frame → Heap → Option (Frame × Heap)
  | [], fr, h => some (fr, h)
  | (n, .lam xs b) :: ds, fr, h => evalDefs ds ((n, .proc xs b) :: fr) h
  | (n, e) :: ds, fr, h => (eval fr e [] h).bind (fun r => evalDefs ds ((n, .val r.1) :: fr) r.2)

/-- a call of the procedure in a variable of a frame. -/
def callProc (fr : Frame) (n : Name) (args : List Val) (h : Heap) : Option (Val × Heap) :=
  match fr.lookup n with
  | some (.proc xs b) => if xs.length = args.length then eval fr b (xs.zip args) h else none
  | _ => none

/-! ### programs -/

/-- what a program does.  `declare` evaluates a use of the macro: at the top, or once more each time the body around it is evaluated. -/
inductive Op (D : Type)
  | declare (d : D)
  /-- a new native block -/
  | native (n : Nat)
  /-- a new tagged block: pair, vector, box, string … -/
  | tagged (t : Nat) (vs : List Val)
  /-- a new closure -/
  | closure (c : Nat) (vs : List Val)
  /-- assignment of an element of a block that is not a record -/
  | poke (a i : Nat) (v : Val)
  /-- a call of the procedure `n` defined by the `k`-th declaration -/
  | call (k : Nat) (n : Name) (args : List Val)

structure St where
  heap : Heap
  frames : List Frame

def alloc (s : St) (b : Blk) : Val × St := (.ptr s.heap.length, { s with heap := s.heap ++ [b] })

/-- one action and its result. -/
def step (s : St) : Op Decl → Option (Val × St)
  | .declare d =>
    (expand d).bind (fun ds => (evalDefs ds [] s.heap).map (fun r => (void, { heap := r.2, frames := s.frames ++ [r.1] })))
  | .native n => some (alloc s (.native n))
  | .tagged t vs => some (alloc s (.sized (.tag t :: vs.map .val)))
  | .closure c vs => some (alloc s (.sized (.code c :: vs.map .val)))
  | .poke a i v =>
    match s.heap[a]? with
    | some (.sized (w :: ws)) =>
      if istyped s.heap (.ptr a) = false ∧ i < ws.length then
        some (void, { s with heap := s.heap.set a (.sized (w :: ws.set i (.val v))) })
      else none
    | _ => none
  | .call k n args =>
    (s.frames[k]?).bind (fun fr => (callProc fr n args s.heap).map (fun r => (r.1, { s with heap := r.2 })))

/-- the results of a program and the state after it. -/
def run : St → List (Op Decl) → Option (List Val × St)
  | s, [] => some ([], s)
  | s, o :: os => (step s o).bind (fun r => (run r.2 os).map (fun q => (r.1 :: q.1, q.2)))

end Verif.Records

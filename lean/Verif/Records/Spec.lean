import Verif.Records.Model

/-
Specification for C70: record types as abstract data.

A record belongs to one evaluated declaration and has a value for each field name.  There are no indices, no descriptors and no blocks.
-/
namespace Verif.Records.Spec

/-- a field: name, accessor, modifier. -/
structure Field where
  name : Name
  acc : Name
  mod : Option Name

/-- a record type declaration. -/
structure Ty where
  rtn : Name
  consn : Name
  ids : List Name
  predn : Name
  fields : List Field

/-- the text of a declaration. -/
def Field.print (f : Field) : List Name := f.name :: f.acc :: f.mod.toList

def Ty.print (t : Ty) : Decl := ⟨t.rtn, t.consn, t.ids, t.predn, t.fields.map Field.print⟩

/-- the names a declaration defines. -/
def Ty.names (t : Ty) : List Name :=
  t.rtn :: t.consn :: t.predn :: (t.fields.map (·.acc) ++ t.fields.filterMap (·.mod))

/-- well-formed declarations: what R7RS 5.5 asks for. -/
def Ty.Wf (t : Ty) : Prop :=
  t.names.Nodup ∧ (t.fields.map (·.name)).Nodup ∧ t.ids.Nodup ∧ ∀ x ∈ t.ids, x ∈ t.fields.map (·.name)

/-- objects: records of the `k`-th evaluated declaration; anything else has elements. -/
inductive Obj
  | record (k : Nat) (f : Name → Val)
  | other (vs : List Val)

structure St where
  objs : List Obj
  types : List Ty

/-- the fields of a new record: arguments by name; `#f` for the others. -/
def fresh (ids : List Name) (args : List Val) (x : Name) : Val := ((ids.zip args).lookup x).getD no

/-- a record of declaration `k`. -/
def recordOf (s : St) (k : Nat) : Val → Option (Name → Val)
  | .imm _ => none
  | .ptr a =>
    match s.objs[a]? with
    | some (.record k' f) => if k' = k then some f else none
    | _ => none

/-- a call of procedure `n` of declaration `k`; `none`: the program is in error. -/
def callOf (s : St) (k : Nat) (t : Ty) (n : Name) (args : List Val) : Option (Val × St) :=
  if n = t.consn then
    if args.length = t.ids.length then
      some (.ptr s.objs.length, { s with objs := s.objs ++ [.record k (fresh t.ids args)] })
    else none
  else if n = t.predn then
    match args with
    | [o] => some (if (recordOf s k o).isSome then yes else no, s)
    | _ => none
  else
    match t.fields.find? (fun f => f.acc = n) with
    | some f =>
      match args with
      | [o] => (recordOf s k o).map (fun g => (g f.name, s))
      | _ => none
    | none =>
      match t.fields.find? (fun f => f.mod = some n) with
      | some f =>
        match args with
        | [.ptr a, v] =>
          (recordOf s k (.ptr a)).map (fun g =>
            (void, { s with objs := s.objs.set a (.record k (fun x => if x = f.name then v else g x)) }))
        | _ => none
      | none => none

def step (s : St) : Op Ty → Option (Val × St)
  | .declare t => some (void, { objs := s.objs ++ [.other [.imm 3, .imm 3]], types := s.types ++ [t] })
  | .native _ => some (.ptr s.objs.length, { s with objs := s.objs ++ [.other []] })
  | .tagged _ vs => some (.ptr s.objs.length, { s with objs := s.objs ++ [.other vs] })
  | .closure _ vs => some (.ptr s.objs.length, { s with objs := s.objs ++ [.other vs] })
  | .poke a i v =>
    match s.objs[a]? with
    | some (.other vs) => if i < vs.length then some (void, { s with objs := s.objs.set a (.other (vs.set i v)) }) else none
    | _ => none
  | .call k n args => (s.types[k]?).bind (fun t => callOf s k t n args)

/-- the results of a program without errors, and the state after it. -/
def run : St → List (Op Ty) → Option (List Val × St)
  | s, [] => some ([], s)
  | s, o :: os => (step s o).bind (fun r => (run r.2 os).map (fun q => (r.1 :: q.1, q.2)))

/-- the text of a program. -/
def printOp : Op Ty → Op Decl
  | .declare t => .declare t.print
  | .native n => .native n
  | .tagged t vs => .tagged t vs
  | .closure c vs => .closure c vs
  | .poke a i v => .poke a i v
  | .call k n args => .call k n args

/-- the declarations of a program satisfy `P`. -/
def Decls (P : Ty → Prop) (p : List (Op Ty)) : Prop := ∀ t, Op.declare t ∈ p → P t

end Verif.Records.Spec

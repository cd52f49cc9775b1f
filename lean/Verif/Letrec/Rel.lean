import Verif.Letrec.Model
import Verif.Core.Trace
import Verif.Core.Free
/-
Programs with `letrec` and their fixed forms; related values, continuations and states (C35).
-/
namespace Verif.Letrec
open Verif.Core
variable {W : Type}

/-- Expressions that are evaluated without any effect, in any state; `K n` is the value of the primitive `op n` without
operands, if it is a constant. -/
def quick (K : Nat → Option Nat) : Exp → Bool
  | .lam _ _ => true
  | .prim _ .void [] => true
  | .prim _ (.op n) [] => (K n).isSome
  | _ => false

/-- their values. -/
def qval (K : Nat → Option Nat) (ρ : Env) : Exp → Val
  | .lam ids b => .clos ids b ρ
  | .prim _ (.op n) [] => .atom ((K n).getD 0)
  | _ => .atom 1

/-- the parameters of the relation: variables bound by `letrec`, and constants. -/
structure Par where
  U : Id → Bool
  K : Nat → Option Nat

/-- the fixed form of a `letrec`: simple bindings `ss`, complex ones `cs`, procedures `ls`. -/
def aroundOf (ss : List (Id × Exp)) (cs : List Id) (ls : List (Id × Exp)) (inner : Exp) : Exp :=
  letExp (ss.map (·.1) ++ cs) (ss.map (·.2) ++ cs.map (fun _ => voidExp)) (refix ls.length ls inner)

/-- a binding before and after. -/
structure Pair where
  id : Id
  src : Exp
  tgt : Exp

/-- the binding after. -/
abbrev Pair.out (b : Pair) : Id × Exp := (b.id, b.tgt)

/-- Variables of a `letrec` with ids `ids`: `ss` simple, `ls` procedures, `cs` complex; `S` are the variables used inside, `A`
the variables assigned inside. -/
structure Shape (P : Par) (ids : List Id) (ss ls : List Pair) (cs : List Id) (S A : Id → Prop) : Prop where
  asg : ∀ y, A y → S y
  nodup : ids.Nodup
  nodup' : (ss.map Pair.id ++ ls.map Pair.id ++ cs).Nodup
  sub : ∀ x, x ∈ ss.map Pair.id ++ ls.map Pair.id ++ cs → x ∈ ids
  rec' : ∀ x ∈ ids, P.U x = true ∧ x.isGlobal = false
  used : ∀ x ∈ ids, S x → x ∈ ss.map Pair.id ++ ls.map Pair.id ++ cs
  fixed : ∀ x ∈ ss.map Pair.id ++ ls.map Pair.id, ¬ A x
  simple : ∀ b ∈ ss, quick P.K b.src = true ∧ ∀ y ∈ ids, ¬ Free y b.src
  lams : ∀ b ∈ ls, isLam b.src = true ∧ ∀ y, Free y b.src → Free y b.tgt
  free : ∀ b ∈ ss ++ ls, (∀ y, Free y b.src → S y) ∧ (∀ y, AssignedIn y b.src → A y)

mutual
/-- The second expression is a fixed form of the first. -/
inductive LR (P : Par) : Exp → Exp → Prop
  | var (x : Id) : LR P (.var x) (.var x)
  | set {x : Id} {e e' : Exp} : LR P e e' → LR P (.set x e) (.set x e')
  | ite {a b c a' b' c' : Exp} : LR P a a' → LR P b b' → LR P c c' → LR P (.ite a b c) (.ite a' b' c')
  | prim {eff : Effect} {p : PrimName} {es es' : List Exp} : LRs P es es' → LR P (.prim eff p es) (.prim eff p es')
  | app {f f' : Exp} {es es' : List Exp} : LR P f f' → LRs P es es' → LR P (.app f es) (.app f' es')
  | null {b b' : Exp} : LR P b b' → LR P (.app (.lam [] b) []) b'
  | idl {x : Id} {e e' : Exp} : x.isGlobal = false → LR P e e' → LR P (.app (.lam [x] (.var x)) [e]) e'
  | lam {ids : List Id} {b b' : Exp} : LR P b b' → LR P (.lam ids b) (.lam ids b')
  | letcc {x : Id} {b b' : Exp} : LR P b b' → LR P (.letcc x b) (.letcc x b')
  | withcc {c c' e e' : Exp} : LR P c c' → LR P e e' → LR P (.withcc c e) (.withcc c' e')
  | star {ids : List Id} {voids : List Exp} {chain inner : Exp} {ss ls : List Pair} {cs us : List Id} {S A : Id → Prop} :
      Shape P ids ss ls cs S A → voids.length = ids.length → (∀ v ∈ voids, ∃ eff, v = .prim eff .void []) →
      (∀ x ∈ us, x ∈ ids ∧ x ∉ ss.map Pair.id ++ ls.map Pair.id ++ cs) →
      (∀ y, S y → y ∉ ids → Free y (letExp ids voids chain)) → (∀ y, A y → y ∉ ids → AssignedIn y (letExp ids voids chain)) →
      (∀ b ∈ ss, LR P b.src b.tgt) → (∀ b ∈ ls, LR P b.src b.tgt) →
      LC P S A (ss ++ ls) us chain inner →
      LR P (letExp ids voids chain) (aroundOf (ss.map Pair.out) cs (ls.map Pair.out) inner)
  | rec' {ids : List Id} {voids rands : List Exp} {tmps : List Id} {asg body body' inner : Exp} {d : Id} {ss ls : List Pair} {S A : Id → Prop} :
      Shape P ids ss ls [] S A → voids.length = ids.length → (∀ v ∈ voids, ∃ eff, v = .prim eff .void []) →
      (∀ y, S y → y ∉ ids → Free y (letExp ids voids (letExp [d] [letExp tmps rands asg] body))) →
      (∀ y, A y → y ∉ ids → AssignedIn y (letExp ids voids (letExp [d] [letExp tmps rands asg] body))) →
      (∀ b ∈ ss, LR P b.src b.tgt) → (∀ b ∈ ls, LR P b.src b.tgt) →
      (∀ e ∈ rands, quick P.K e = true) → rands.length = ids.length → tmps.length = ids.length → tmps.Nodup → Asg P ids tmps asg →
      (∀ b ∈ ss ++ ls, ∃ i : Nat, ids[i]? = some b.id ∧ rands[i]? = some b.src) →
      (∀ t ∈ tmps, t ∉ ids) →
      ¬ S d → (∀ y, Free y body → S y) → (∀ y, AssignedIn y body → A y) → LR P body body' → Dead P S body' inner →
      LR P (letExp ids voids (letExp [d] [letExp tmps rands asg] body)) (aroundOf (ss.map Pair.out) [] (ls.map Pair.out) inner)
/-- for lists. -/
inductive LRs (P : Par) : List Exp → List Exp → Prop
  | nil : LRs P [] []
  | cons {e e' : Exp} {es es' : List Exp} : LR P e e' → LRs P es es' → LRs P (e :: es) (e' :: es')
/-- Initializations of a `letrec*`; `qs` are those that the fixed program does not have, `us` the unused variables. -/
inductive LC (P : Par) : (S A : Id → Prop) → List Pair → List Id → Exp → Exp → Prop
  | done {S A : Id → Prop} {qs : List Pair} {us : List Id} {b b' : Exp} : LR P b b' → (∀ y, Free y b → S y) → (∀ y, AssignedIn y b → A y) →
      LC P S A qs us b b'
  | c {S A : Id → Prop} {qs : List Pair} {us : List Id} {x d d' : Id} {e e' b b' : Exp} : LR P e e' → (∀ y, Free y e → S y) → (∀ y, AssignedIn y e → A y) →
      S x → A x → ¬ S d → ¬ S d' → (∀ q ∈ qs, q.id ≠ d) → d ∉ us → LC P S A qs us b b' →
      LC P S A qs us (letExp [d] [.set x e] b) (letExp [d'] [.set x e'] b')
  | u {S A : Id → Prop} {qs : List Pair} {us : List Id} {x d d' : Id} {e e' b b' : Exp} : x ∈ us → x.isGlobal = false → LR P e e' →
      (∀ y, Free y e → S y) → (∀ y, AssignedIn y e → A y) →
      ¬ S d → ¬ S d' → (∀ q ∈ qs, q.id ≠ d) → d ∉ us → LC P S A qs us b b' →
      LC P S A qs us (letExp [d] [.set x e] b) (letExp [d'] [e'] b')
  | q {S A : Id → Prop} {qs : List Pair} {us : List Id} {d : Id} {q : Pair} {b b' : Exp} : q ∈ qs → q.id.isGlobal = false →
      ¬ S d → (∀ q ∈ qs, q.id ≠ d) → d ∉ us → LC P S A qs us b b' → LC P S A qs us (letExp [d] [.set q.id q.src] b) b'
/-- Assignments of temporary variables to the variables of a `letrec`. -/
inductive Asg (P : Par) : List Id → List Id → Exp → Prop
  | nil (eff : Effect) : Asg P [] [] (.prim eff .void [])
  | cons {x t d : Id} {ids ts : List Id} {b : Exp} : x.isGlobal = false → t.isGlobal = false → P.U t = false → d ∉ ids → d ∉ ts → Asg P ids ts b →
      Asg P (x :: ids) (t :: ts) (letExp [d] [.set x (.var t)] b)
/-- Unused procedures before the body. -/
inductive Dead (P : Par) : (Id → Prop) → Exp → Exp → Prop
  | done {S : Id → Prop} (b : Exp) : Dead P S b b
  | cons {S : Id → Prop} {b e inner : Exp} {d : Id} : quick P.K e = true → ¬ S d → Dead P S b inner → Dead P S b (letExp [d] [e] inner)
end

theorem LRs.length {P : Par} : {es es' : List Exp} → LRs P es es' → es.length = es'.length
  | _, _, .nil => rfl
  | _, _, .cons _ h => by simp [LRs.length h]

theorem LRs.get {P : Par} : {es es' : List Exp} → LRs P es es' → ∀ {i : Nat} {e : Exp}, es[i]? = some e → ∃ e', es'[i]? = some e' ∧ LR P e e'
  | _, _, .nil, i, e, h => by simp at h
  | _, _, .cons (e' := e') h1 h2, i, e, h => by
    cases i with
    | zero => simp only [List.getElem?_cons_zero, Option.some.injEq] at h; subst h; exact ⟨e', rfl, h1⟩
    | succ i => simpa using LRs.get h2 (by simpa using h)

/-! ### cells, environments -/

/-- What became of a cell of the program: a cell of the fixed program, a value bound directly, a cell of the fixed program
that keeps its value, nothing. -/
inductive Slot where
  | live (a : Nat)
  | dir (w : Val)
  | cell (a : Nat) (w : Val)
  | dead

/-- the cell of the fixed program. -/
def Slot.addr : Slot → Option Nat
  | .live a => some a
  | .dir _ => none
  | .cell a _ => some a
  | .dead => none

/-- what the variable `y`, with cell `a`, is bound to in the fixed program. -/
inductive LK (U : Id → Bool) (φ : List Slot) (y : Id) (a : Nat) : Val → Prop
  | live {a' : Nat} : φ[a]? = some (.live a') → LK U φ y a (.box a')
  | dir {w : Val} : U y = true → y.isGlobal = false → φ[a]? = some (.dir w) → (∀ b, w ≠ .box b) → LK U φ y a w
  | cell {a' : Nat} {w : Val} : U y = true → y.isGlobal = false → φ[a]? = some (.cell a' w) → LK U φ y a (.box a')

/-- related environments, for the variables `S`, of which `A` may be assigned. -/
structure ER (P : Par) (φ : List Slot) (S A : Id → Prop) (ρ ρt : Env) : Prop where
  look : ∀ y r, S y → ρ.lookup y = some r → ∃ a r', r = .box a ∧ ρt.lookup y = some r' ∧ LK P.U φ y a r'
  live : ∀ y r, A y → ρ.lookup y = some r → ∃ a a', r = .box a ∧ φ[a]? = some (.live a')

/-- the same for the free variables of an expression. -/
abbrev EE (P : Par) (φ : List Slot) (e : Exp) (ρ ρt : Env) : Prop := ER P φ (Free · e) (AssignedIn · e) ρ ρt

/-- and of expressions. -/
abbrev EEs (P : Par) (φ : List Slot) (es : List Exp) (ρ ρt : Env) : Prop :=
  ER P φ (fun y => ∃ e ∈ es, Free y e) (fun y => ∃ e ∈ es, AssignedIn y e) ρ ρt

/-- The value of a quick expression is related to `w`. -/
inductive QR (P : Par) (φ : List Slot) (ρ : Env) : Exp → Val → Prop
  | clos {ids : List Id} {b b' : Exp} {ρt : Env} : LR P b b' → EE P φ (.lam ids b) ρ ρt → QR P φ ρ (.lam ids b) (.clos ids b' ρt)
  | rclos {ps ids : List Id} {lams : List Exp} {i : Nat} {b b' : Exp} {ρt : Env} : lams[i]? = some (.lam ps b') → LR P b b' →
      EE P φ (.lam ps b) ρ (.fix ids lams ρt) → QR P φ ρ (.lam ps b) (.rclos ids lams i ρt)
  | atom {e : Exp} {n : Nat} : quick P.K e = true → (∀ ρ, qval P.K ρ e = .atom n) → QR P φ ρ e (.atom n)

/-- the value of the cell is fixed. -/
def Frz (φ : List Slot) (a : Nat) (w : Val) : Prop := φ[a]? = some (.dir w) ∨ ∃ a', φ[a]? = some (.cell a' w)

/-- Initializations that the fixed program has done already, and unused variables. -/
structure Pend (P : Par) (φ : List Slot) (ρ : Env) (qs : List Pair) (us : List Id) : Prop where
  val : ∀ q ∈ qs, ∃ a w, ρ.lookup q.id = some (.box a) ∧ Frz φ a w ∧ QR P φ ρ q.src w
  dead : ∀ x ∈ us, ∃ a, ρ.lookup x = some (.box a) ∧ φ[a]? = some .dead

/-- A `let` with one variable waits for its operand. -/
def Wait (x : Id) (b : Exp) (ρ : Env) (d : Nat → Val) (todo : List Nat) : Prop :=
  todo = [0] ∨ (todo = [] ∧ d 0 = .clos [x] b ρ)

mutual
/-- related values. -/
inductive VR (P : Par) (φ : List Slot) : Val → Val → Prop
  | atom (n : Nat) : VR P φ (.atom n) (.atom n)
  | pair {a d a' d' : Val} : VR P φ a a' → VR P φ d d' → VR P φ (.pair a d) (.pair a' d')
  | box {a a' : Nat} : φ[a]? = some (.live a') → VR P φ (.box a) (.box a')
  | trap : VR P φ .trap .trap
  | clos {ids : List Id} {b b' : Exp} {ρ ρt : Env} : LR P b b' → EE P φ (.lam ids b) ρ ρt → VR P φ (.clos ids b ρ) (.clos ids b' ρt)
  | rclos {ps ids : List Id} {lams : List Exp} {i : Nat} {b b' : Exp} {ρ ρt : Env} : lams[i]? = some (.lam ps b') → LR P b b' →
      EE P φ (.lam ps b) ρ (.fix ids lams ρt) → VR P φ (.clos ps b ρ) (.rclos ids lams i ρt)
  | cont {κ κ' : Kont} : KR P φ κ κ' → VR P φ (.cont κ) (.cont κ')
/-- related continuations. -/
inductive KR (P : Par) (φ : List Slot) : Kont → Kont → Prop
  | halt : KR P φ .halt .halt
  | trap : KR P φ .trap .trap
  | throw {v w : Val} : VR P φ v w → KR P φ (.throw v) (.throw w)
  | set {x : Id} {κ κ' : Kont} : KR P φ κ κ' → KR P φ (.set x κ) (.set x κ')
  | ite {b c b' c' : Exp} {ρ ρt : Env} {κ κ' : Kont} : LR P b b' → LR P c c' → EEs P φ [b, c] ρ ρt → KR P φ κ κ' →
      KR P φ (.ite b c ρ κ) (.ite b' c' ρt κ')
  | args {op : Op} {es es' : List Exp} {d d' : Nat → Val} {i : Nat} {todo : List Nat} {ρ ρt : Env} {κ κ' : Kont} :
      LRs P es es' → EEs P φ es ρ ρt → (∀ j, VR P φ (d j) (d' j)) → KR P φ κ κ' →
      KR P φ (.args op es d i todo ρ κ) (.args op es' d' i todo ρt κ')
  | begf {S A : Id → Prop} {qs : List Pair} {us : List Id} {x x' : Id} {b b' e e' : Exp} {d d' : Nat → Val} {todo todo' : List Nat} {ρ ρt : Env} {κ κ' : Kont} :
      ¬ S x → ¬ S x' → (∀ q ∈ qs, q.id ≠ x) → x ∉ us → (∀ q ∈ qs, ∀ y, Free y q.src → S y) → LC P S A qs us b b' → (∀ y, A y → S y) → ER P φ S A ρ ρt → Pend P φ ρ qs us →
      Wait x b ρ d todo → Wait x' b' ρt d' todo' → KR P φ κ κ' →
      KR P φ (.args .call [.lam [x] b, e] d 1 todo ρ κ) (.args .call [.lam [x'] b', e'] d' 1 todo' ρt κ')
  | idl {x : Id} {e : Exp} {d : Nat → Val} {todo : List Nat} {ρ : Env} {κ κ' : Kont} : x.isGlobal = false → Wait x (.var x) ρ d todo → KR P φ κ κ' →
      KR P φ (.args .call [.lam [x] (.var x), e] d 1 todo ρ κ) κ'
  | unused {eff : Effect} {x : Id} {e : Exp} {d : Nat → Val} {a : Nat} {ρ : Env} {κ κ' : Kont} : d 0 = .box a → φ[a]? = some .dead → KR P φ κ κ' →
      KR P φ (.args (.prim eff .boxset) [.var x, e] d 1 [] ρ κ) κ'
  | withcc {e e' : Exp} {ρ ρt : Env} : LR P e e' → EE P φ e ρ ρt → KR P φ (.withcc e ρ) (.withcc e' ρt)
end

/-- the contents of a cell and what became of it. -/
def SlotOk (P : Par) (φ : List Slot) (heap : List Val) (v : Val) : Slot → Prop
  | .live a => ∃ w, heap[a]? = some w ∧ VR P φ v w
  | .dir w => blank v = true ∨ VR P φ v w
  | .cell a w => heap[a]? = some w ∧ (blank v = true ∨ VR P φ v w)
  | .dead => True

/-- related stores. -/
structure SR (P : Par) (φ : List Slot) (σ σt : Store W) : Prop where
  glob : ∀ x, (σ.glob x = none ∧ σt.glob x = none) ∨ ∃ v w, σ.glob x = some v ∧ σt.glob x = some w ∧ VR P φ v w
  len : φ.length = σ.heap.length
  cells : ∀ (a : Nat) v s, σ.heap[a]? = some v → φ[a]? = some s → SlotOk P φ σt.heap v s
  inj : ∀ (a b : Nat) s a', φ[a]? = some (.live a') → φ[b]? = some s → a ≠ b → s.addr ≠ some a'
  world : σ.world = σt.world

/-- related states. -/
inductive Sync (P : Par) : State W → State W → Prop
  | ev {φ : List Slot} {e e' : Exp} {ρ ρt : Env} {κ κ' : Kont} {σ σt : Store W} : LR P e e' → EE P φ e ρ ρt → KR P φ κ κ' → SR P φ σ σt →
      Sync P (.ev e ρ κ σ) (.ev e' ρt κ' σt)
  | chain {φ : List Slot} {S A : Id → Prop} {qs : List Pair} {us : List Id} {e e' : Exp} {ρ ρt : Env} {κ κ' : Kont} {σ σt : Store W} :
      (∀ q ∈ qs, ∀ y, Free y q.src → S y) → LC P S A qs us e e' → (∀ y, A y → S y) → ER P φ S A ρ ρt → Pend P φ ρ qs us → KR P φ κ κ' → SR P φ σ σt →
      Sync P (.ev e ρ κ σ) (.ev e' ρt κ' σt)
  | args {φ : List Slot} {op : Op} {es es' : List Exp} {d d' : Nat → Val} {todo : List Nat} {ρ ρt : Env} {κ κ' : Kont} {σ σt : Store W} :
      LRs P es es' → EEs P φ es ρ ρt → (∀ j, VR P φ (d j) (d' j)) → KR P φ κ κ' → SR P φ σ σt →
      Sync P (.args op es d todo ρ κ σ) (.args op es' d' todo ρt κ' σt)
  | ap {φ : List Slot} {f g : Val} {vs ws : List Val} {κ κ' : Kont} {σ σt : Store W} : VR P φ f g →
      List.Forall₂ (VR P φ) vs ws → KR P φ κ κ' → SR P φ σ σt → Sync P (.ap f vs κ σ) (.ap g ws κ' σt)
  | ret {φ : List Slot} {v w : Val} {κ κ' : Kont} {σ σt : Store W} : VR P φ v w → KR P φ κ κ' → SR P φ σ σt → Sync P (.ret v κ σ) (.ret w κ' σt)

variable {P : Par}

/-- related values look the same. -/
theorem VR.view {φ : List Slot} : {v w : Val} → VR P φ v w → v.view = w.view
  | _, _, .atom _ => rfl
  | _, _, .pair h1 h2 => by simp only [Val.view, VR.view h1, VR.view h2]
  | _, _, .box _ => rfl
  | _, _, .trap => rfl
  | _, _, .clos .. => rfl
  | _, _, .rclos .. => rfl
  | _, _, .cont _ => rfl

theorem VR.false {φ : List Slot} {v w : Val} (h : VR P φ v w) : v.isFalse = w.isFalse := by
  cases h <;> rfl

theorem QR.vr {φ : List Slot} {ρ : Env} {e : Exp} {w : Val} (h : QR P φ ρ e w) : VR P φ (qval P.K ρ e) w := by
  cases h with
  | clos h1 h2 => exact .clos h1 h2
  | rclos h1 h2 h3 => exact .rclos h1 h2 h3
  | atom _ h => rw [h]; exact .atom _

theorem QR.quick {φ : List Slot} {ρ : Env} {e : Exp} {w : Val} (h : QR P φ ρ e w) : quick P.K e = true := by
  cases h with
  | clos => rfl
  | rclos => rfl
  | atom h => exact h

/-! ### more cells -/

/-- `φ'` knows more cells than `φ`. -/
def Ext (φ φ' : List Slot) : Prop := ∀ (a : Nat) (c : Slot), φ[a]? = some c → φ'[a]? = some c

theorem Ext.append (φ ν : List Slot) : Ext φ (φ ++ ν) := fun a c h => by
  rw [List.getElem?_append_left]
  · exact h
  · exact (List.getElem?_eq_some_iff.mp h).1

theorem Ext.refl (φ : List Slot) : Ext φ φ := fun _ _ h => h

theorem LK.mono {U : Id → Bool} {φ φ' : List Slot} (hφ : Ext φ φ') {y : Id} {a : Nat} {r : Val} (h : LK U φ y a r) : LK U φ' y a r := by
  cases h with
  | live h => exact .live (hφ _ _ h)
  | dir hU hg h hb => exact .dir hU hg (hφ _ _ h) hb
  | cell hU hg h => exact .cell hU hg (hφ _ _ h)

theorem ER.mono {φ φ' : List Slot} (hφ : Ext φ φ') {S A : Id → Prop} {ρ ρt : Env} (h : ER P φ S A ρ ρt) : ER P φ' S A ρ ρt := by
  refine ⟨fun y r hy hl => ?_, fun y r hy hl => ?_⟩
  · obtain ⟨a, r', h1, h2, h3⟩ := h.look y r hy hl
    exact ⟨a, r', h1, h2, h3.mono hφ⟩
  · obtain ⟨a, a', h1, h2⟩ := h.live y r hy hl
    exact ⟨a, a', h1, hφ _ _ h2⟩

theorem QR.mono {φ φ' : List Slot} (hφ : Ext φ φ') {ρ : Env} {e : Exp} {w : Val} (h : QR P φ ρ e w) : QR P φ' ρ e w := by
  cases h with
  | clos h1 h2 => exact .clos h1 (h2.mono hφ)
  | rclos h1 h2 h3 => exact .rclos h1 h2 (h3.mono hφ)
  | atom h1 h => exact .atom h1 h

theorem Frz.mono {φ φ' : List Slot} (hφ : Ext φ φ') {a : Nat} {w : Val} (h : Frz φ a w) : Frz φ' a w := by
  rcases h with h | ⟨a', h⟩
  · exact Or.inl (hφ _ _ h)
  · exact Or.inr ⟨a', hφ _ _ h⟩

theorem Pend.mono {φ φ' : List Slot} (hφ : Ext φ φ') {ρ : Env} {qs : List Pair} {us : List Id} (h : Pend P φ ρ qs us) : Pend P φ' ρ qs us := by
  refine ⟨fun q hq => ?_, fun x hx => ?_⟩
  · obtain ⟨a, w, h1, h2, h3⟩ := h.val q hq
    exact ⟨a, w, h1, h2.mono hφ, h3.mono hφ⟩
  · obtain ⟨a, h1, h2⟩ := h.dead x hx
    exact ⟨a, h1, hφ _ _ h2⟩

mutual
theorem VR.mono {φ φ' : List Slot} (hφ : Ext φ φ') : {v w : Val} → VR P φ v w → VR P φ' v w
  | _, _, .atom n => .atom n
  | _, _, .pair h1 h2 => .pair (VR.mono hφ h1) (VR.mono hφ h2)
  | _, _, .box h => .box (hφ _ _ h)
  | _, _, .trap => .trap
  | _, _, .clos h1 h2 => .clos h1 (h2.mono hφ)
  | _, _, .rclos h1 h2 h3 => .rclos h1 h2 (h3.mono hφ)
  | _, _, .cont h => .cont (KR.mono hφ h)
theorem KR.mono {φ φ' : List Slot} (hφ : Ext φ φ') : {κ κ' : Kont} → KR P φ κ κ' → KR P φ' κ κ'
  | _, _, .halt => .halt
  | _, _, .trap => .trap
  | _, _, .throw h => .throw (VR.mono hφ h)
  | _, _, .set h => .set (KR.mono hφ h)
  | _, _, .ite h1 h2 h3 h4 => .ite h1 h2 (h3.mono hφ) (KR.mono hφ h4)
  | _, _, .args h1 h2 h3 h4 => .args h1 (h2.mono hφ) (fun j => VR.mono hφ (h3 j)) (KR.mono hφ h4)
  | _, _, .begf h1 h2 h3 h4 h5 h6 ha h7 h8 h9 h10 h11 => .begf h1 h2 h3 h4 h5 h6 ha (h7.mono hφ) (h8.mono hφ) h9 h10 (KR.mono hφ h11)
  | _, _, .idl h1 h2 h3 => .idl h1 h2 (KR.mono hφ h3)
  | _, _, .unused h1 h2 h3 => .unused h1 (hφ _ _ h2) (KR.mono hφ h3)
  | _, _, .withcc h1 h2 => .withcc h1 (h2.mono hφ)
end

/-! ### fewer variables -/

theorem ER.weaken {φ : List Slot} {S A S' A' : Id → Prop} {ρ ρt : Env} (h : ER P φ S A ρ ρt) (hS : ∀ y, S' y → S y) (hA : ∀ y, A' y → A y) : ER P φ S' A' ρ ρt :=
  ⟨fun y r hy => h.look y r (hS y hy), fun y r hy => h.live y r (hA y hy)⟩

end Verif.Letrec

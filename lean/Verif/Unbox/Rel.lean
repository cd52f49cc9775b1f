import Verif.Unbox.Spec
import Verif.Fold.Typing
/-
Related values, continuations and states of a program and the program with unboxed values (C63).
-/
namespace Verif.Unbox
open Verif.Core
open Verif.Fold (TEnv tlook exts ctype ctypes Good)
variable {W τ : Type} [DecidableEq τ]

/-- rename one more variable. -/
def ren (s : Id → Id) (x c : Id) : Id → Id := fun y => if y = x then c else s y

/-- formals: they keep their names, and no renamed variable is captured. -/
structure Formals (ct : Id → Option τ) (Γ : TEnv τ) (s : Id → Id) (ids : List Id) (b : Exp) : Prop where
  own : ∀ y ∈ ids, tlook y Γ = none ∧ s y = y ∧ ct y = none ∧ y.isGlobal = false
  free : ∀ y, Free y b → y ∉ ids → s y ∉ ids

/-- unboxed formals. -/
structure Entry (ct F : Id → Option τ) (Γ : TEnv τ) (s s' : Id → Id) (ids : List Id) (b : Exp) (cs xs : List Id) : Prop where
  len : cs.length = xs.length
  nodup : cs.Nodup
  sub : ∀ x ∈ xs, x ∈ ids
  own : ∀ c ∈ cs, tlook c Γ = none ∧ c.isGlobal = false
  ren : ∀ (i : Nat) (x c : Id), xs[i]? = some x → cs[i]? = some c → s' x = c ∧ ∀ T, ct c = some T → F x = some T
  other : ∀ y, y ∉ xs → s' y = s y
  free : ∀ y, Free y b → y ∉ xs → s y ∉ cs

/-- variables of `let`. -/
structure LetOk (t : CTypes τ) (ct : Id → Option τ) (s s' : Id → Id) (ids ids' : List Id) (b : Exp) (es es' : List Exp) : Prop where
  len : ids.length = es.length
  len' : ids'.length = ids.length
  nodup : ids.Nodup
  nodup' : ids'.Nodup
  loc : ∀ c ∈ ids', c.isGlobal = false
  ren : ∀ (i : Nat) (x c : Id), ids[i]? = some x → ids'[i]? = some c → s' x = c
  other : ∀ y, y ∉ ids → s' y = s y
  free : ∀ y, Free y b → y ∉ ids → s y ∉ ids'
  typed : ∀ (i : Nat) (c : Id) (T : τ) (e : Exp), ids'[i]? = some c → ct c = some T → es'[i]? = some e → ctype t.toTypes [] e = some T

/-- procedures of `fix`. -/
structure FixOk (Γ : TEnv τ) (s : Id → Id) (ids : List Id) (lams : List Exp) : Prop where
  own : ∀ y ∈ ids, tlook y Γ = none ∧ s y = y ∧ y.isGlobal = false
  free : ∀ y, (∃ l ∈ lams, Free y l) → y ∉ ids → s y ∉ ids

mutual
/-- The second expression results from the first by unboxing; `Γ` holds the types of variables of the second expression, `s` the
names of the variables there. -/
inductive U (t : CTypes τ) (ct F : Id → Option τ) : TEnv τ → (Id → Id) → Exp → Exp → Prop
  | var {Γ : TEnv τ} {s : Id → Id} {x : Id} : (x.isGlobal = true → s x = x) → (x.isGlobal = false → (s x).isGlobal = false) → U t ct F Γ s (.var x) (.var (s x))
  | set {Γ : TEnv τ} {s : Id → Id} {x : Id} {e e' : Exp} : U t ct F Γ s e e' → U t ct F Γ s (.set x e) (.set x e')
  | ite {Γ : TEnv τ} {s : Id → Id} {a b c a' b' c' : Exp} : U t ct F Γ s a a' → U t ct F Γ s b b' → U t ct F Γ s c c' →
      U t ct F Γ s (.ite a b c) (.ite a' b' c')
  | test {Γ : TEnv τ} {s : Id → Id} {x c : Id} {T : τ} {eff : Effect} {p : PrimName} {b b' d d' : Exp} : t.check p = some T → x.isGlobal = false → s x = x →
      ct c = some T → c.isGlobal = false → (∀ y, Free y b → y ≠ x → s y ≠ c) → U t ct F ((c, tlook x Γ) :: Γ) (ren s x c) b b' → U t ct F Γ s d d' →
      U t ct F Γ s (.ite (.prim eff p [.var x]) b d) (.ite (.prim eff p [.var x]) (.app (.lam [c] b') [.var x]) d')
  | prim {Γ : TEnv τ} {s : Id → Id} {eff : Effect} {p : PrimName} {es es' : List Exp} : Us t ct F Γ s es es' → U t ct F Γ s (.prim eff p es) (.prim eff p es')
  | app {Γ : TEnv τ} {s : Id → Id} {f f' : Exp} {es es' : List Exp} : isLetL (f :: es) = false → isLetL (f' :: es') = false → U t ct F Γ s f f' → Us t ct F Γ s es es' →
      U t ct F Γ s (.app f es) (.app f' es')
  | letE {Γ : TEnv τ} {s s' : Id → Id} {ids ids' : List Id} {b b' : Exp} {es es' : List Exp} : LetOk t ct s s' ids ids' b es es' → Us t ct F Γ s es es' →
      U t ct F (exts ids'.reverse (ctypes t.toTypes Γ es'.reverse) Γ) s' b b' →
      U t ct F Γ s (.app (.lam ids b) es) (.app (.lam ids'.reverse b') es'.reverse)
  | lam {Γ : TEnv τ} {s : Id → Id} {ids : List Id} {b b' : Exp} : Formals ct Γ s ids b → U t ct F Γ s b b' → U t ct F Γ s (.lam ids b) (.lam ids b')
  | lamU {Γ : TEnv τ} {s s' : Id → Id} {ids cs xs : List Id} {b b' : Exp} : Formals ct Γ s ids b → Entry ct F Γ s s' ids b cs xs → U t ct F Γ s' b b' →
      U t ct F Γ s (.lam ids b) (.lam ids (.app (.lam cs b') (xs.map .var)))
  | fix {Γ : TEnv τ} {s : Id → Id} {ids : List Id} {lams lams' : List Exp} {b b' : Exp} : FixOk Γ s ids (b :: lams) → Us t ct F Γ s lams lams' → U t ct F Γ s b b' →
      U t ct F Γ s (.fix ids lams b) (.fix ids lams' b')
  | null {Γ : TEnv τ} {s : Id → Id} {b b' : Exp} : U t ct F Γ s b b' → U t ct F Γ s (.app (.lam [] b) []) b'
  | idl {Γ : TEnv τ} {s : Id → Id} {x : Id} {e e' : Exp} : x.isGlobal = false → U t ct F Γ s e e' → U t ct F Γ s (.app (.lam [x] (.var x)) [e]) e'
/-- for lists. -/
inductive Us (t : CTypes τ) (ct F : Id → Option τ) : TEnv τ → (Id → Id) → List Exp → List Exp → Prop
  | nil (Γ : TEnv τ) (s : Id → Id) : Us t ct F Γ s [] []
  | cons {Γ : TEnv τ} {s : Id → Id} {e e' : Exp} {es es' : List Exp} : U t ct F Γ s e e' → Us t ct F Γ s es es' → Us t ct F Γ s (e :: es) (e' :: es')
end

theorem Us.length {t : CTypes τ} {ct F : Id → Option τ} {Γ : TEnv τ} {s : Id → Id} : {es es' : List Exp} → Us t ct F Γ s es es' → es.length = es'.length
  | _, _, .nil _ _ => rfl
  | _, _, .cons _ h => by simp [Us.length h]

theorem Us.get {t : CTypes τ} {ct F : Id → Option τ} {Γ : TEnv τ} {s : Id → Id} : {es es' : List Exp} → Us t ct F Γ s es es' → ∀ {i : Nat} {e : Exp}, es[i]? = some e →
    ∃ e', es'[i]? = some e' ∧ U t ct F Γ s e e'
  | _, _, .nil _ _, i, e, h => by simp at h
  | _, _, .cons (e' := e') h1 h2, i, e, h => by
    cases i with
    | zero => simp only [List.getElem?_cons_zero, Option.some.injEq] at h; subst h; exact ⟨e', rfl, h1⟩
    | succ i => simpa using Us.get h2 (by simpa using h)

/-- the types promise it. -/
def Can (t : CTypes τ) (Γ : TEnv τ) (e : Exp) (D : Option τ) : Prop := ∀ T, D = some T → ctype t.toTypes Γ e = some T

/-- the value fulfils it. -/
def Sat (has : τ → View → Bool) (v : Val) (D : Option τ) : Prop := ∀ T, D = some T → has T v.view = true

/-- for operands. -/
def OpOk (t : CTypes τ) (D : Option τ) : Op → Prop
  | .prim _ p => ∀ T, D = some T → t.ret p = some T
  | .call => D = none

/-- A `let` with one variable waits for its operand. -/
def Wait (x : Id) (b : Exp) (ρ : Env) (d : Nat → Val) (todo : List Nat) : Prop :=
  todo = [0] ∨ (todo = [] ∧ d 0 = .clos [x] b ρ)

/-- the parameters of the relation. -/
structure Ctx (W τ : Type) where
  M : Sem W
  t : CTypes τ
  has : τ → View → Bool
  Q : Op → List Exp → List Nat
  ct : Id → Option τ
  F : Id → Option τ

/-- values of variables have their types. -/
abbrev Ctx.Good (C : Ctx W τ) (Γ : TEnv τ) (ρ : Env) : Prop := Fold.Good (fun T u => C.has T u = true) Γ ρ
abbrev Ctx.U (C : Ctx W τ) : TEnv τ → (Id → Id) → Exp → Exp → Prop := Unbox.U C.t C.ct C.F
abbrev Ctx.Us (C : Ctx W τ) : TEnv τ → (Id → Id) → List Exp → List Exp → Prop := Unbox.Us C.t C.ct C.F

mutual
/-- related values. -/
inductive VR (C : Ctx W τ) : Val → Val → Prop
  | atom (n : Nat) : VR C (.atom n) (.atom n)
  | pair {a d a' d' : Val} : VR C a a' → VR C d d' → VR C (.pair a d) (.pair a' d')
  | box (a : Nat) : VR C (.box a) (.box a)
  | trap : VR C .trap .trap
  | clos {Γ : TEnv τ} {s : Id → Id} {ids ids' : List Id} {b b' : Exp} {ρ ρt : Env} : C.U Γ s (.lam ids b) (.lam ids' b') → C.Good Γ ρt →
      (∀ y v, Free y (.lam ids b) → ρ.lookup y = some v → ∃ w, ρt.lookup (s y) = some w) →
      (∀ y v w, Free y (.lam ids b) → ρ.lookup y = some v → ρt.lookup (s y) = some w → VR C v w) → VR C (.clos ids b ρ) (.clos ids' b' ρt)
  | rclos {Γ : TEnv τ} {s : Id → Id} {ids : List Id} {lams lams' : List Exp} {i : Nat} {ρ ρt : Env} : FixOk Γ s ids lams → C.Us Γ s lams lams' → C.Good Γ ρt →
      (∀ y v, (∃ l ∈ lams, Free y l) ∧ y ∉ ids → ρ.lookup y = some v → ∃ w, ρt.lookup (s y) = some w) →
      (∀ y v w, (∃ l ∈ lams, Free y l) ∧ y ∉ ids → ρ.lookup y = some v → ρt.lookup (s y) = some w → VR C v w) → VR C (.rclos ids lams i ρ) (.rclos ids lams' i ρt)
/-- related continuations, for values that have the given type. -/
inductive KR (C : Ctx W τ) : Option τ → Kont → Kont → Prop
  | halt (D : Option τ) : KR C D .halt .halt
  | set {D : Option τ} {x : Id} {κ κ' : Kont} : KR C none κ κ' → KR C D (.set x κ) (.set x κ')
  | ite {D D' : Option τ} {Γ : TEnv τ} {s : Id → Id} {b c b' c' : Exp} {ρ ρt : Env} {κ κ' : Kont} : C.U Γ s b b' → C.U Γ s c c' → Can C.t Γ b' D' → Can C.t Γ c' D' → C.Good Γ ρt →
      (∀ y v, Free y b ∨ Free y c → ρ.lookup y = some v → ∃ w, ρt.lookup (s y) = some w) →
      (∀ y v w, Free y b ∨ Free y c → ρ.lookup y = some v → ρt.lookup (s y) = some w → VR C v w) → KR C D' κ κ' → KR C D (.ite b c ρ κ) (.ite b' c' ρt κ')
  | args {D D' : Option τ} {Γ : TEnv τ} {s : Id → Id} {op : Op} {es es' : List Exp} {d d' : Nat → Val} {i : Nat} {todo : List Nat} {ρ ρt : Env} {κ κ' : Kont} :
      C.Us Γ s es es' → OpOk C.t D' op → C.Good Γ ρt →
      (∀ y v, (∃ e ∈ es, Free y e) → ρ.lookup y = some v → ∃ w, ρt.lookup (s y) = some w) →
      (∀ y v w, (∃ e ∈ es, Free y e) → ρ.lookup y = some v → ρt.lookup (s y) = some w → VR C v w) →
      (∀ j, VR C (d j) (d' j)) → KR C D' κ κ' →
      KR C D (.args op es d i todo ρ κ) (.args op es' d' i todo ρt κ')
  | letf {D : Option τ} {Γ : TEnv τ} {s s' : Id → Id} {ids ids' : List Id} {b b' : Exp} {es es' : List Exp} {e' : Exp} {d d' : Nat → Val} {i : Nat} {todo : List Nat} {ρ ρt : Env} {κ κ' : Kont} :
      LetOk C.t C.ct s s' ids ids' b es es' → C.Us Γ s es es' → C.U (exts ids'.reverse (ctypes C.t.toTypes Γ es'.reverse) Γ) s' b b' →
      Can C.t (exts ids'.reverse (ctypes C.t.toTypes Γ es'.reverse) Γ) b' D → C.Good Γ ρt →
      (∀ y v, Free y (.app (.lam ids b) es) → ρ.lookup y = some v → ∃ w, ρt.lookup (s y) = some w) →
      (∀ y v w, Free y (.app (.lam ids b) es) → ρ.lookup y = some v → ρt.lookup (s y) = some w → VR C v w) →
      (∀ j, j < es.length → VR C (d (j + 1)) (d' (es.length - j))) →
      (∀ (j : Nat) (e : Exp) (T : τ), es'[j]? = some e → j + 1 ∉ (i + 1) :: todo → ctype C.t.toTypes Γ e = some T → C.has T (d' (es.length - j)).view = true) →
      (0 ∈ todo ∨ (d 0 = .clos ids b ρ ∧ d' 0 = .clos ids'.reverse b' ρt)) → (∀ j ∈ todo, j ≤ es.length) → es'[i]? = some e' → KR C D κ κ' →
      KR C (ctype C.t.toTypes Γ e') (.args .call (.lam ids b :: es) d (i + 1) todo ρ κ)
        (.args .call (.lam ids'.reverse b' :: es'.reverse) d' (es.length - i) (todo.map (flip es.length)) ρt κ')
  | idl {D : Option τ} {x : Id} {e : Exp} {d : Nat → Val} {todo : List Nat} {ρ : Env} {κ κ' : Kont} : x.isGlobal = false → Wait x (.var x) ρ d todo → KR C D κ κ' →
      KR C D (.args .call [.lam [x] (.var x), e] d 1 todo ρ κ) κ'
end

variable {C : Ctx W τ}

/-- related values look the same. -/
theorem VR.view : {v w : Val} → VR C v w → v.view = w.view
  | _, _, .atom _ => rfl
  | _, _, .pair h1 h2 => by simp only [Val.view, VR.view h1, VR.view h2]
  | _, _, .box _ => rfl
  | _, _, .trap => rfl
  | _, _, .clos .. => rfl
  | _, _, .rclos .. => rfl

theorem VR.false {v w : Val} (h : VR C v w) : v.isFalse = w.isFalse := by
  cases h <;> rfl

/-- related environments, on the variables `S`. -/
structure ER (C : Ctx W τ) (s : Id → Id) (S : Id → Prop) (ρ ρt : Env) : Prop where
  ex : ∀ y v, S y → ρ.lookup y = some v → ∃ w, ρt.lookup (s y) = some w
  all : ∀ y v w, S y → ρ.lookup y = some v → ρt.lookup (s y) = some w → VR C v w

/-- related stores. -/
structure SR (C : Ctx W τ) (σ σt : Store W) : Prop where
  glob : ∀ x, (σ.glob x = none ∧ σt.glob x = none) ∨ ∃ v w, σ.glob x = some v ∧ σt.glob x = some w ∧ VR C v w
  heap : List.Forall₂ (VR C) σ.heap σt.heap
  world : σ.world = σt.world

/-- related states. -/
inductive Sync (C : Ctx W τ) : State W → State W → Prop
  | ev {Γ : TEnv τ} {s : Id → Id} {D : Option τ} {e e' : Exp} {ρ ρt : Env} {κ κ' : Kont} {σ σt : Store W} : C.U Γ s e e' → Can C.t Γ e' D → C.Good Γ ρt →
      ER C s (Free · e) ρ ρt → KR C D κ κ' → SR C σ σt → Sync C (.ev e ρ κ σ) (.ev e' ρt κ' σt)
  | args {D : Option τ} {Γ : TEnv τ} {s : Id → Id} {op : Op} {es es' : List Exp} {d d' : Nat → Val} {todo : List Nat} {ρ ρt : Env} {κ κ' : Kont} {σ σt : Store W} :
      C.Us Γ s es es' → OpOk C.t D op → C.Good Γ ρt → ER C s (fun y => ∃ e ∈ es, Free y e) ρ ρt →
      (∀ j, VR C (d j) (d' j)) → KR C D κ κ' → SR C σ σt →
      Sync C (.args op es d todo ρ κ σ) (.args op es' d' todo ρt κ' σt)
  | letf {D : Option τ} {Γ : TEnv τ} {s s' : Id → Id} {ids ids' : List Id} {b b' : Exp} {es es' : List Exp} {d d' : Nat → Val} {todo : List Nat} {ρ ρt : Env} {κ κ' : Kont} {σ σt : Store W} :
      LetOk C.t C.ct s s' ids ids' b es es' → C.Us Γ s es es' → C.U (exts ids'.reverse (ctypes C.t.toTypes Γ es'.reverse) Γ) s' b b' →
      Can C.t (exts ids'.reverse (ctypes C.t.toTypes Γ es'.reverse) Γ) b' D → C.Good Γ ρt → ER C s (Free · (.app (.lam ids b) es)) ρ ρt →
      (∀ j, j < es.length → VR C (d (j + 1)) (d' (es.length - j))) →
      (∀ (j : Nat) (e : Exp) (T : τ), es'[j]? = some e → j + 1 ∉ todo → ctype C.t.toTypes Γ e = some T → C.has T (d' (es.length - j)).view = true) →
      (0 ∈ todo ∨ (d 0 = .clos ids b ρ ∧ d' 0 = .clos ids'.reverse b' ρt)) → (∀ j ∈ todo, j ≤ es.length) → KR C D κ κ' → SR C σ σt →
      Sync C (.args .call (.lam ids b :: es) d todo ρ κ σ) (.args .call (.lam ids'.reverse b' :: es'.reverse) d' (todo.map (flip es.length)) ρt κ' σt)
  | ap {f g : Val} {vs ws : List Val} {κ κ' : Kont} {σ σt : Store W} : VR C f g →
      List.Forall₂ (VR C) vs ws → KR C none κ κ' → SR C σ σt → Sync C (.ap f vs κ σ) (.ap g ws κ' σt)
  | ret {D : Option τ} {v w : Val} {κ κ' : Kont} {σ σt : Store W} : VR C v w → Sat C.has w D → KR C D κ κ' → SR C σ σt →
      Sync C (.ret v κ σ) (.ret w κ' σt)
  | test {D : Option τ} {Γ : TEnv τ} {s : Id → Id} {x c : Id} {T : τ} {b b' e e' : Exp} {v w : Val} {ρ ρt : Env} {κ κ' : Kont} {σ σt : Store W} : VR C v w →
      x.isGlobal = false → s x = x → C.ct c = some T → c.isGlobal = false → (∀ y, Free y b → y ≠ x → s y ≠ c) → C.U ((c, tlook x Γ) :: Γ) (ren s x c) b b' → C.U Γ s e e' →
      Can C.t ((c, tlook x Γ) :: Γ) b' D → Can C.t Γ e' D → C.Good Γ ρt → ER C s (fun y => y = x ∨ Free y b ∨ Free y e) ρ ρt →
      (∀ u, ρ.lookup x = some u → w.isFalse = false → C.has T u.view = true) → (∃ u, ρ.lookup x = some u) → KR C D κ κ' → SR C σ σt →
      Sync C (.ret v (.ite b e ρ κ) σ) (.ret w (.ite (.app (.lam [c] b') [.var x]) e' ρt κ') σt)

end Verif.Unbox

import Verif.Boxes.Model
import Verif.Core.Free
import Verif.Core.Cells
/-
Programs with assignments and their boxed forms; related values, continuations and states (C33).
-/
namespace Verif.Boxes
open Verif.Core

/-- the variable that holds `x` or its box. -/
def tv (s : Id → Option Id) (x : Id) : Id := (s x).getD x

/-- substitutions inside of a procedure with parameters `ids`, the boxed ones being listed in `ps`. -/
def inner (s : Id → Option Id) (ids : List Id) (ps : List (Id × Id)) : Id → Option Id :=
  fun y => if y ∈ ids then assq y ps else s y

mutual
/-- `t` is the boxed form of `e`. -/
inductive Bx : (Id → Option Id) → Exp → Exp → Prop
  | var {s : Id → Option Id} {x : Id} : s x = none → Bx s (.var x) (.var x)
  | vbox {s : Id → Option Id} {x b : Id} : x.isGlobal = false → s x = some b → b.isGlobal = false →
      Bx s (.var x) (boxrefExp (.var b))
  | gset {s : Id → Option Id} {x : Id} {e t : Exp} : x.isGlobal = true → Bx s e t → Bx s (.set x e) (.set x t)
  | lset {s : Id → Option Id} {x b : Id} {e t : Exp} : x.isGlobal = false → s x = some b → b.isGlobal = false → Bx s e t →
      Bx s (.set x e) (boxsetExp (.var b) t)
  | ite {s : Id → Option Id} {a b c ta tb tc : Exp} : Bx s a ta → Bx s b tb → Bx s c tc → Bx s (.ite a b c) (.ite ta tb tc)
  | prim {s : Id → Option Id} {eff : Effect} {p : PrimName} {es ts : List Exp} : Bxs s es ts →
      Bx s (.prim eff p es) (.prim eff p ts)
  | null {s : Id → Option Id} {b t : Exp} : Bx s b t → Bx s (.app (.lam [] b) []) t
  | idlet {s : Id → Option Id} {x : Id} {e t : Exp} : x.isGlobal = false → Bx s e t → Bx s (.app (.lam [x] (.var x)) [e]) t
  | app {s : Id → Option Id} {f tf : Exp} {es ts : List Exp} : Bx s f tf → Bxs s es ts → Bx s (.app f es) (.app tf ts)
  | fix {s : Id → Option Id} {ids : List Id} {lams lams' : List Exp} {b t : Exp} : Bxs s lams lams' → Bx s b t →
      (∀ x ∈ ids, s x = none) → (∀ y, Free y (.fix ids lams b) → tv s y ∉ ids) → Bx s (.fix ids lams b) (.fix ids lams' t)
  | lam {s : Id → Option Id} {ids : List Id} {b t : Exp} : Entry s ids b t → Bx s (.lam ids b) (.lam ids t)
  | letcc0 {s : Id → Option Id} {x : Id} {b t : Exp} : s x = none → (∀ y, Free y (.letcc x b) → tv s y ≠ x) → Bx s b t →
      Bx s (.letcc x b) (.letcc x t)
  | letcc1 {s : Id → Option Id} {x : Id} {b t : Exp} : Entry s [x] b t → Bx s (.letcc x b) (.letcc x t)
  | withcc {s : Id → Option Id} {k e tk te : Exp} : Bx s k tk → Bx s e te → Bx s (.withcc k e) (.withcc tk te)
/-- for lists. -/
inductive Bxs : (Id → Option Id) → List Exp → List Exp → Prop
  | nil {s : Id → Option Id} : Bxs s [] []
  | cons {s : Id → Option Id} {e t : Exp} {es ts : List Exp} : Bx s e t → Bxs s es ts → Bxs s (e :: es) (t :: ts)
/-- bodies of procedures. -/
inductive Entry : (Id → Option Id) → List Id → Exp → Exp → Prop
  | mk {s : Id → Option Id} {ids : List Id} {b t : Exp} {ps : List (Id × Id)} : ids.Nodup → (ps.map (·.2)).Nodup →
      (ps.map (·.1)).Nodup → (∀ p ∈ ps, p.1 ∈ ids ∧ p.1.isGlobal = false ∧ p.2.isGlobal = false) →
      (∀ x ∈ ids, ∀ p ∈ ps, x ≠ p.2) → (∀ y, Free y (.lam ids b) → tv s y ∉ ids ∧ ∀ p ∈ ps, tv s y ≠ p.2) →
      Bx (inner s ids ps) b t →
      Entry s ids b (letExp (ps.map (·.2)) (ps.map (fun p => boxExp (.var p.1))) t)
end

theorem Bxs.length {s : Id → Option Id} : ∀ {es ts : List Exp}, Bxs s es ts → ts.length = es.length := by
  intro es
  induction es with
  | nil => intro ts h; cases h; rfl
  | cons e es ih => intro ts h; cases h with | cons _ h => simp [ih h]

theorem Bxs.get {s : Id → Option Id} : ∀ {es ts : List Exp} {i : Nat} {e : Exp}, Bxs s es ts → es[i]? = some e →
    ∃ t, ts[i]? = some t ∧ Bx s e t := by
  intro es
  induction es with
  | nil => intro ts i e h he; simp at he
  | cons e es ih =>
    intro ts i e' h he
    cases h with
    | cons h1 h2 =>
      cases i with
      | zero => simp at he; subst he; exact ⟨_, rfl, h1⟩
      | succ i => simp at he; obtain ⟨t, ht, hb⟩ := ih h2 he; exact ⟨t, by simpa using ht, hb⟩

/-- where the contents of a cell of the source program are kept: nowhere (the variable is bound to the value), or in
a box. -/
inductive Cell where
  | imm (w : Val)
  | box (a : Nat)

mutual
/-- related values; `μ` tells what became of the cells of the source program. -/
inductive VRel (μ : List Cell) : Val → Val → Prop
  | atom (n : Nat) : VRel μ (.atom n) (.atom n)
  | pair {a d a' d' : Val} : VRel μ a a' → VRel μ d d' → VRel μ (.pair a d) (.pair a' d')
  | box {a a' : Nat} : μ[a]? = some (.box a') → VRel μ (.box a) (.box a')
  | trap : VRel μ .trap .trap
  | clos {s : Id → Option Id} {ids : List Id} {b t : Exp} {ρ ρt : Env} : Entry s ids b t →
      (∀ x v, Free x (.lam ids b) → ρ.lookup x = some v → ∃ w, ρt.lookup (tv s x) = some w) →
      (∀ x v w, Free x (.lam ids b) → ρ.lookup x = some v → ρt.lookup (tv s x) = some w → CRel μ (s x).isSome v w) →
      VRel μ (.clos ids b ρ) (.clos ids t ρt)
  | rclos {s : Id → Option Id} {ids : List Id} {lams lams' : List Exp} {i : Nat} {ρ ρt : Env} : Bxs s lams lams' →
      (∀ x ∈ ids, s x = none) → (∀ y, (∃ l ∈ lams, Free y l) → y ∉ ids → tv s y ∉ ids) →
      (∀ x v, (∃ l ∈ lams, Free x l) → x ∉ ids → ρ.lookup x = some v → ∃ w, ρt.lookup (tv s x) = some w) →
      (∀ x v w, (∃ l ∈ lams, Free x l) → x ∉ ids → ρ.lookup x = some v → ρt.lookup (tv s x) = some w →
        CRel μ (s x).isSome v w) →
      VRel μ (.rclos ids lams i ρ) (.rclos ids lams' i ρt)
  | cont {κ κ' : Kont} : KRel μ κ κ' → VRel μ (.cont κ) (.cont κ')
/-- what variables are bound to; the flag tells whether the variable is boxed. -/
inductive CRel (μ : List Cell) : Bool → Val → Val → Prop
  | imm {a : Nat} {w : Val} : μ[a]? = some (.imm w) → CRel μ false (.box a) w
  | boxed {a a' : Nat} : μ[a]? = some (.box a') → CRel μ true (.box a) (.box a')
  | fix {ids : List Id} {lams : List Exp} {i : Nat} {ρ : Env} {w : Val} : VRel μ (.rclos ids lams i ρ) w →
      CRel μ false (.rclos ids lams i ρ) w
/-- related continuations. -/
inductive KRel (μ : List Cell) : Kont → Kont → Prop
  | halt : KRel μ .halt .halt
  | trap : KRel μ .trap .trap
  | throw {v w : Val} : VRel μ v w → KRel μ (.throw v) (.throw w)
  | set {x : Id} {κ κ' : Kont} : KRel μ κ κ' → KRel μ (.set x κ) (.set x κ')
  | ite {s : Id → Option Id} {b c tb tc : Exp} {ρ ρt : Env} {κ κ' : Kont} : Bx s b tb → Bx s c tc →
      (∀ x v, Free x b ∨ Free x c → ρ.lookup x = some v → ∃ w, ρt.lookup (tv s x) = some w) →
      (∀ x v w, Free x b ∨ Free x c → ρ.lookup x = some v → ρt.lookup (tv s x) = some w → CRel μ (s x).isSome v w) →
      KRel μ κ κ' → KRel μ (.ite b c ρ κ) (.ite tb tc ρt κ')
  | args {s : Id → Option Id} {op : Op} {es ts : List Exp} {d d' : Nat → Val} {i : Nat} {todo : List Nat} {ρ ρt : Env} {κ κ' : Kont} :
      Bxs s es ts →
      (∀ x v, (∃ e ∈ es, Free x e) → ρ.lookup x = some v → ∃ w, ρt.lookup (tv s x) = some w) →
      (∀ x v w, (∃ e ∈ es, Free x e) → ρ.lookup x = some v → ρt.lookup (tv s x) = some w → CRel μ (s x).isSome v w) →
      (∀ j, VRel μ (d j) (d' j)) → KRel μ κ κ' → KRel μ (.args op es d i todo ρ κ) (.args op ts d' i todo ρt κ')
  | lset {eff eff' : Effect} {x b : Id} {e t : Exp} {d d' : Nat → Val} {a a' : Nat} {todo : List Nat} {ρ ρt : Env} {κ κ' : Kont} :
      b.isGlobal = false → d 0 = .box a → μ[a]? = some (.box a') →
      ((todo = [] ∧ d' 0 = .box a') ∨ (todo = [0] ∧ ρt.lookup b = some (.box a'))) → KRel μ κ κ' →
      KRel μ (.args (.prim eff .boxset) [.var x, e] d 1 [] ρ κ) (.args (.prim eff' .boxset) [.var b, t] d' 1 todo ρt κ')
  | idlet {x : Id} {e : Exp} {d : Nat → Val} {todo : List Nat} {ρ ρ' : Env} {κ κ' : Kont} : x.isGlobal = false →
      ((todo = [] ∧ d 0 = .clos [x] (.var x) ρ') ∨ todo = [0]) → KRel μ κ κ' →
      KRel μ (.args .call [.lam [x] (.var x), e] d 1 todo ρ κ) κ'
  | withcc {s : Id → Option Id} {e t : Exp} {ρ ρt : Env} : Bx s e t →
      (∀ x v, Free x e → ρ.lookup x = some v → ∃ w, ρt.lookup (tv s x) = some w) →
      (∀ x v w, Free x e → ρ.lookup x = some v → ρt.lookup (tv s x) = some w → CRel μ (s x).isSome v w) →
      KRel μ (.withcc e ρ) (.withcc t ρt)
end

/-- `μ'` knows more cells than `μ`. -/
def Ext (μ μ' : List Cell) : Prop := ∀ (a : Nat) (c : Cell), μ[a]? = some c → μ'[a]? = some c

mutual
theorem VRel.mono {μ μ' : List Cell} (hμ : Ext μ μ') : {v w : Val} → VRel μ v w → VRel μ' v w
  | _, _, .atom n => .atom n
  | _, _, .pair h1 h2 => .pair (VRel.mono hμ h1) (VRel.mono hμ h2)
  | _, _, .box h => .box (hμ _ _ h)
  | _, _, .trap => .trap
  | _, _, .clos he h1 h2 => .clos he h1 (fun x v w hf hl hw => CRel.mono hμ (h2 x v w hf hl hw))
  | _, _, .rclos hl hs ht h1 h2 => .rclos hl hs ht h1 (fun x v w hf hn hl hw => CRel.mono hμ (h2 x v w hf hn hl hw))
  | _, _, .cont h => .cont (KRel.mono hμ h)
theorem CRel.mono {μ μ' : List Cell} (hμ : Ext μ μ') : {f : Bool} → {v w : Val} → CRel μ f v w → CRel μ' f v w
  | _, _, _, .imm h => .imm (hμ _ _ h)
  | _, _, _, .boxed h => .boxed (hμ _ _ h)
  | _, _, _, .fix h => .fix (VRel.mono hμ h)
theorem KRel.mono {μ μ' : List Cell} (hμ : Ext μ μ') : {κ κ' : Kont} → KRel μ κ κ' → KRel μ' κ κ'
  | _, _, .halt => .halt
  | _, _, .trap => .trap
  | _, _, .throw h => .throw (VRel.mono hμ h)
  | _, _, .set h => .set (KRel.mono hμ h)
  | _, _, .ite hb hc h1 h2 hk => .ite hb hc h1 (fun x v w hf hl hw => CRel.mono hμ (h2 x v w hf hl hw)) (KRel.mono hμ hk)
  | _, _, .args he h1 h2 hd hk => .args he h1 (fun x v w hf hl hw => CRel.mono hμ (h2 x v w hf hl hw))
      (fun j => VRel.mono hμ (hd j)) (KRel.mono hμ hk)
  | _, _, .lset hb hd ha hc hk => .lset hb hd (hμ _ _ ha) hc (KRel.mono hμ hk)
  | _, _, .idlet hx hc hk => .idlet hx hc (KRel.mono hμ hk)
  | _, _, .withcc he h1 h2 => .withcc he h1 (fun x v w hf hl hw => CRel.mono hμ (h2 x v w hf hl hw))
end

/-- related values look the same. -/
theorem VRel.view {μ : List Cell} : {v w : Val} → VRel μ v w → v.view = w.view
  | _, _, .atom _ => rfl
  | _, _, .pair h1 h2 => by simp only [Val.view, VRel.view h1, VRel.view h2]
  | _, _, .box _ => rfl
  | _, _, .trap => rfl
  | _, _, .clos .. => rfl
  | _, _, .rclos .. => rfl
  | _, _, .cont _ => rfl

/-- related environments, on the variables in `S`. -/
def ERel (μ : List Cell) (s : Id → Option Id) (S : Id → Prop) (ρ ρt : Env) : Prop :=
  ∀ x v, S x → ρ.lookup x = some v → ∃ w, ρt.lookup (tv s x) = some w ∧ CRel μ (s x).isSome v w

variable {W : Type}

/-- related heaps. -/
structure HRel (μ : List Cell) (h ht : List Val) : Prop where
  len : μ.length = h.length
  imm : ∀ (a : Nat) (v w : Val), h[a]? = some v → μ[a]? = some (.imm w) → VRel μ v w
  box : ∀ (a : Nat) (v : Val) (a' : Nat), h[a]? = some v → μ[a]? = some (.box a') → ∃ w, ht[a']? = some w ∧ VRel μ v w
  inj : ∀ (a1 a2 a' : Nat), μ[a1]? = some (.box a') → μ[a2]? = some (.box a') → a1 = a2

/-- related stores. -/
structure SRel (μ : List Cell) (σ σt : Store W) : Prop where
  glob : ∀ x, (σ.glob x = none ∧ σt.glob x = none) ∨ ∃ v w, σ.glob x = some v ∧ σt.glob x = some w ∧ VRel μ v w
  heap : HRel μ σ.heap σt.heap
  world : σ.world = σt.world

/-- related states. -/
inductive Sync : State W → State W → Prop
  | ev {μ : List Cell} {s : Id → Option Id} {e t : Exp} {ρ ρt : Env} {κ κ' : Kont} {σ σt : Store W} : Bx s e t →
      ERel μ s (fun x => Free x e) ρ ρt → KRel μ κ κ' → SRel μ σ σt → Sync (.ev e ρ κ σ) (.ev t ρt κ' σt)
  | args {μ : List Cell} {s : Id → Option Id} {op : Op} {es ts : List Exp} {d d' : Nat → Val} {todo : List Nat} {ρ ρt : Env}
      {κ κ' : Kont} {σ σt : Store W} : Bxs s es ts → ERel μ s (fun x => ∃ e ∈ es, Free x e) ρ ρt → (∀ j, VRel μ (d j) (d' j)) →
      KRel μ κ κ' → SRel μ σ σt → Sync (.args op es d todo ρ κ σ) (.args op ts d' todo ρt κ' σt)
  | ap {μ : List Cell} {f g : Val} {vs ws : List Val} {κ κ' : Kont} {σ σt : Store W} : VRel μ f g →
      List.Forall₂ (VRel μ) vs ws → KRel μ κ κ' → SRel μ σ σt → Sync (.ap f vs κ σ) (.ap g ws κ' σt)
  | ret {μ : List Cell} {v w : Val} {κ κ' : Kont} {σ σt : Store W} : VRel μ v w → KRel μ κ κ' → SRel μ σ σt →
      Sync (.ret v κ σ) (.ret w κ' σt)

end Verif.Boxes

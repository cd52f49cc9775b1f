import Verif.Beta.Model
import Verif.Core.Free
import Verif.Core.Eval
import Verif.Core.Trace
/-
Single reductions of `let` expressions (C36).

`beta-substitute` is shown to be a sequence of the following reductions of a whole program: all `(let () b)` become `b`;
one `(let ((x e)) x)` becomes `e`; in one `let`, the bindings are put into another order, and one of them may be
removed or substituted.  This file defines the reductions and the conditions under which they preserve the meaning of
the program.
-/
namespace Verif.Beta
open Verif.Core

/-- Kinds of reductions; `lets kp`: a `let` keeps the bindings at positions `kp`, in this order. -/
inductive Mode where
  | null
  | idl
  | lets (kp : List Nat)

/-- A reduction: the variables of the `let`, the position of the binding that is removed, and the expression
substituted for it. -/
structure Redex where
  mode : Mode
  ids : List Id
  gone : Option Nat
  sub : Option Exp

/-- the variable that is removed. -/
def Redex.goneId (R : Redex) : Option Id := R.gone.bind (fun i => R.ids[i]?)

/-- elements at given positions. -/
def pick {α : Type} (l : List α) (kp : List Nat) : List α := kp.filterMap (fun (i : Nat) => l[i]?)

/-- the application of `f` to `es` is to be reduced. -/
def isRedex (R : Redex) (f : Exp) (es : List Exp) : Bool :=
  match f with
  | .lam ids _ =>
    match R.mode with
    | .null => ids.isEmpty && es.isEmpty
    | _ => decide (ids = R.ids)
  | _ => false

/-- body of a procedure. -/
def lamBody : Exp → Exp
  | .lam _ b => b
  | e => e

/-- what becomes of the redex. -/
def image (R : Redex) (f : Exp) (es : List Exp) : Exp :=
  match R.mode with
  | .null => lamBody f
  | .idl => es.headD f
  | .lets kp => .app (.lam (pick R.ids kp) (lamBody f)) (pick es kp)

mutual
/-- the program after the reduction. -/
def T (R : Redex) : Exp → Exp
  | .var y => if R.goneId = some y then R.sub.getD (.var y) else .var y
  | .set y e => .set y (T R e)
  | .ite a b c => .ite (T R a) (T R b) (T R c)
  | .prim eff p es => .prim eff p (Ts R es)
  | .app f es => if isRedex R f es then image R (T R f) (Ts R es) else .app (T R f) (Ts R es)
  | .lam ids b => .lam ids (T R b)
  | .fix ids lams b => .fix ids (Ts R lams) (T R b)
  | .letcc x b => .letcc x (T R b)
  | .withcc k e => .withcc (T R k) (T R e)
/-- for lists. -/
def Ts (R : Redex) : List Exp → List Exp
  | [] => []
  | e :: es => T R e :: Ts R es
end

theorem Ts_eq (R : Redex) (es : List Exp) : Ts R es = es.map (T R) := by
  induction es with
  | nil => rfl
  | cons e es ih => simp [Ts, ih]

/-! ### meaning -/

variable {W : Type}

/-- The machine, with the additional rule that it is an error to assign a value to a constant global (one that is
assigned in a single place, 4.sf:418-649) twice. -/
def gstep (M : Sem W) (ord : Op → List Exp → List Nat) : State W → Option (State W)
  | .ret v (.set x κ) σ =>
    if x.isGlobalConst && (σ.glob x).isSome then none
    else some (.ret (.atom 1) κ { σ with glob := fun y => if y = x then some v else σ.glob y })
  | s => step M ord s

instance (M : Sem W) (ord : Op → List Exp → List Nat) : Final (gstep M ord) := ⟨fun _ _ => rfl⟩

/-- The primitive does nothing but allocate. -/
def Harmless (M : Sem W) (p : PrimName) : Prop :=
  ∀ vs σ, doPrim M p vs σ = none ∨ ∃ v xs, doPrim M p vs σ = some (.ok v { σ with heap := σ.heap ++ xs })

/-- The primitive is a partial function of its arguments. -/
def Pure (M : Sem W) (p : PrimName) : Prop :=
  ∀ vs, (∀ σ, doPrim M p vs σ = none) ∨ ∃ v, ∀ σ, doPrim M p vs σ = some (.ok v σ)

/-- Expressions whose evaluation has no effect that others can see. -/
inductive Rem (M : Sem W) : Exp → Prop
  | var (x : Id) : Rem M (.var x)
  | ite {a b c : Exp} : Rem M a → Rem M b → Rem M c → Rem M (.ite a b c)
  | prim {eff : Effect} {p : PrimName} {es : List Exp} : Harmless M p → (∀ e ∈ es, Rem M e) → Rem M (.prim eff p es)
  | lam (ids : List Id) (b : Exp) : Rem M (.lam ids b)
  | letE {ids : List Id} {b : Exp} {es : List Exp} : (∀ e ∈ es, Rem M e) → Rem M b → Rem M (.app (.lam ids b) es)
  | letcc {x : Id} {b : Exp} : Rem M b → Rem M (.letcc x b)

/-- Expressions whose value depends on the values of variables and constant globals only. -/
inductive Tr (M : Sem W) : Exp → Prop
  | var {x : Id} : (x.isGlobal = true → x.isGlobalConst = true) → Tr M (.var x)
  | ite {a b c : Exp} : Tr M a → Tr M b → Tr M c → Tr M (.ite a b c)
  | prim {eff : Effect} {p : PrimName} {es : List Exp} : Pure M p → (∀ e ∈ es, Tr M e) → Tr M (.prim eff p es)
  | lam (ids : List Id) (b : Exp) : Tr M (.lam ids b)
  | letE {ids : List Id} {b : Exp} {es : List Exp} : (∀ e ∈ es, Tr M e) → Tr M b → Tr M (.app (.lam ids b) es)

/-! ### conditions -/

/-- there is nothing to reduce. -/
inductive Clean (R : Redex) : Exp → Prop
  | var {y : Id} : R.goneId ≠ some y → Clean R (.var y)
  | set {y : Id} {e : Exp} : Clean R e → Clean R (.set y e)
  | ite {a b c : Exp} : Clean R a → Clean R b → Clean R c → Clean R (.ite a b c)
  | prim {eff : Effect} {p : PrimName} {es : List Exp} : (∀ e ∈ es, Clean R e) → Clean R (.prim eff p es)
  | app {f : Exp} {es : List Exp} : isRedex R f es = false → Clean R f → (∀ e ∈ es, Clean R e) → Clean R (.app f es)
  | lam {ids : List Id} {b : Exp} : Clean R b → Clean R (.lam ids b)
  | fix {ids : List Id} {lams : List Exp} {b : Exp} : (∀ l ∈ lams, Clean R l) → Clean R b → Clean R (.fix ids lams b)
  | letcc {x : Id} {b : Exp} : Clean R b → Clean R (.letcc x b)
  | withcc {k e : Exp} : Clean R k → Clean R e → Clean R (.withcc k e)

theorem map_id_of {α : Type} {f : α → α} : ∀ {l : List α}, (∀ a ∈ l, f a = a) → l.map f = l := by
  intro l
  induction l with
  | nil => intro _; rfl
  | cons a l ih => intro h; simp only [List.map_cons]; rw [h a (by simp), ih (fun b hb => h b (by simp [hb]))]

theorem Clean.T {R : Redex} {e : Exp} (h : Clean R e) : T R e = e := by
  induction h with
  | var h => simp [Beta.T, h]
  | set _ ih => simp [Beta.T, ih]
  | ite _ _ _ h1 h2 h3 => simp [Beta.T, h1, h2, h3]
  | prim _ ih => simp only [Beta.T, Ts_eq]; rw [map_id_of ih]
  | app h _ _ h1 h2 => simp only [Beta.T, Ts_eq, h, h1, Bool.false_eq_true, if_false]; rw [map_id_of h2]
  | lam _ ih => simp [Beta.T, ih]
  | fix _ _ h1 h2 => simp only [Beta.T, Ts_eq, h2]; rw [map_id_of h1]
  | letcc _ ih => simp [Beta.T, ih]
  | withcc _ _ h1 h2 => simp [Beta.T, h1, h2]

/-- Binding `y` does not interfere with the substitution; the flag tells that we are in the scope of the variable
that is removed. -/
def Good (R : Redex) (fl : Bool) (y : Id) : Prop :=
  y.isGlobal = false ∧ R.goneId ≠ some y ∧ (fl = true → ∀ r, R.sub = some r → ¬ Free y r)

/-- Conditions on the `let` that is reduced. -/
structure LetOk (M : Sem W) (R : Redex) (kp : List Nat) (es : List Exp) : Prop where
  len : R.ids.length = es.length
  nodup : R.ids.Nodup
  loc : ∀ y ∈ R.ids, y.isGlobal = false
  perm : (R.gone.toList ++ kp).Perm (List.range es.length)
  good : ∀ r, R.sub = some r → ∀ y ∈ R.ids, ¬ Free y r
  stay : R.gone = none → R.sub = none
  rem : ∀ (i : Nat) (r : Exp), R.gone = some i → es[i]? = some r → R.sub = none → Rem M r
  sub : ∀ (i : Nat) (r r' : Exp), R.gone = some i → es[i]? = some r → R.sub = some r' → r' = r ∧ Tr M r ∧ Clean R r

/-- The reduction can be made. -/
inductive Ok (M : Sem W) (R : Redex) : Bool → Exp → Prop
  | var {fl : Bool} {y : Id} : (R.goneId = some y → fl = true ∧ R.sub.isSome = true) → Ok M R fl (.var y)
  | set {fl : Bool} {y : Id} {e : Exp} : Ok M R fl e → Ok M R fl (.set y e)
  | ite {fl : Bool} {a b c : Exp} : Ok M R fl a → Ok M R fl b → Ok M R fl c → Ok M R fl (.ite a b c)
  | prim {fl : Bool} {eff : Effect} {p : PrimName} {es : List Exp} : (∀ e ∈ es, Ok M R fl e) → Ok M R fl (.prim eff p es)
  | app {fl : Bool} {f : Exp} {es : List Exp} : isRedex R f es = false → Ok M R fl f → (∀ e ∈ es, Ok M R fl e) → Ok M R fl (.app f es)
  | null {fl : Bool} {b : Exp} : R.mode = .null → Ok M R fl b → Ok M R fl (.app (.lam [] b) [])
  | idl {fl : Bool} {x : Id} {e : Exp} : R.mode = .idl → R.ids = [x] → x.isGlobal = false → Ok M R fl e →
      Ok M R fl (.app (.lam [x] (.var x)) [e])
  | lets {kp : List Nat} {b : Exp} {es : List Exp} {ids : List Id} {fl : Bool} : R.mode = .lets kp → ids = R.ids → fl = false → LetOk M R kp es →
      (∀ e ∈ es, Ok M R false e) → Ok M R true b → Ok M R fl (.app (.lam ids b) es)
  | lam {fl : Bool} {ids : List Id} {b : Exp} : (∀ y ∈ ids, Good R fl y) → Ok M R fl b → Ok M R fl (.lam ids b)
  | fix {fl : Bool} {ids : List Id} {lams : List Exp} {b : Exp} : (∀ y ∈ ids, Good R fl y) → (∀ l ∈ lams, Ok M R fl l) → Ok M R fl b →
      Ok M R fl (.fix ids lams b)
  | letcc {fl : Bool} {x : Id} {b : Exp} : Good R fl x → Ok M R fl b → Ok M R fl (.letcc x b)
  | withcc {fl : Bool} {k e : Exp} : Ok M R fl k → Ok M R fl e → Ok M R fl (.withcc k e)

/-! ### orders of evaluation -/

/-- position of the `j`-th operand after the reduction among the operands before it. -/
def emb (kp : List Nat) : Nat → Nat
  | 0 => 0
  | j + 1 => kp.getD j 0 + 1

/-- The order of evaluation before the reduction that corresponds to the order `Q` after it. -/
def srcOrd (R : Redex) (Q : Op → List Exp → List Nat) : Op → List Exp → List Nat
  | .call, f :: es =>
    if isRedex R f es then
      match R.mode with
      | .lets kp =>
        if (R.gone.toList ++ kp).Perm (List.range es.length) then
          R.gone.toList.map (· + 1) ++ (Q .call (.lam (pick R.ids kp) (lamBody (T R f)) :: pick (Ts R es) kp)).map (emb kp)
        else List.range (f :: es).length
      | _ => List.range (f :: es).length
    else Q .call (T R f :: Ts R es)
  | op, es => Q op (Ts R es)

theorem pick_length {α : Type} {l : List α} : ∀ {kp : List Nat}, (∀ i ∈ kp, i < l.length) → (pick l kp).length = kp.length := by
  intro kp
  induction kp with
  | nil => intro _; rfl
  | cons i kp ih =>
    intro h
    have hi := h i (by simp)
    simp only [pick, List.filterMap_cons, List.getElem?_eq_getElem hi, List.length_cons]
    rw [← ih (fun j hj => h j (by simp [hj]))]; rfl

theorem pick_get {α : Type} {l : List α} : ∀ {kp : List Nat}, (∀ i ∈ kp, i < l.length) → ∀ (j i : Nat), kp[j]? = some i →
    (pick l kp)[j]? = l[i]? := by
  intro kp
  induction kp with
  | nil => intro _ j i h; simp at h
  | cons k kp ih =>
    intro h j i hj
    have hk := h k (by simp)
    have e : pick l (k :: kp) = l[k] :: pick l kp := by simp [pick, List.getElem?_eq_getElem hk]
    rw [e]
    cases j with
    | zero => simp at hj; subst hj; simp [hk]
    | succ j => simp at hj; simpa using ih (fun a ha => h a (by simp [ha])) j i hj

theorem emb_range (kp : List Nat) : (List.range (kp.length + 1)).map (emb kp) = 0 :: kp.map (· + 1) := by
  rw [List.range_succ_eq_map]
  simp only [List.map_cons, emb, List.map_map, List.cons.injEq, true_and]
  refine List.ext_getElem (by simp) ?_
  intro j h1 h2
  simp at h1
  simp [emb, h1]

theorem Ts_length (R : Redex) (es : List Exp) : (Ts R es).length = es.length := by simp [Ts_eq]

theorem srcOrd_fair {R : Redex} {Q : Op → List Exp → List Nat} (h : FairOrder Q) : FairOrder (srcOrd R Q) := by
  intro op es
  cases op with
  | prim eff p => have := h (.prim eff p) (Ts R es); rw [Ts_length] at this; simpa [srcOrd] using this
  | call =>
    cases es with
    | nil => simpa [srcOrd, Ts] using h .call []
    | cons f es =>
      simp only [srcOrd]
      split
      · split
        · rename_i kp _
          split
          · rename_i hp
            have hlt : ∀ i ∈ kp, i < es.length := fun i hi => by
              have := (hp.mem_iff (a := i)).mp (by simp [hi])
              simpa using this
            have hlen : (Exp.lam (pick R.ids kp) (lamBody (T R f)) :: pick (Ts R es) kp).length = kp.length + 1 := by
              rw [List.length_cons, pick_length (by rw [Ts_length]; exact hlt)]
            have h1 := (h .call (.lam (pick R.ids kp) (lamBody (T R f)) :: pick (Ts R es) kp)).map (emb kp)
            rw [hlen, emb_range] at h1
            refine (h1.append_left _).trans ?_
            have h2 := hp.map (· + 1)
            rw [List.map_append] at h2
            refine List.perm_middle.trans ((h2.cons 0).trans ?_)
            rw [List.length_cons, List.range_succ_eq_map]
          · exact .refl _
        · exact .refl _
      · have := h .call (T R f :: Ts R es)
        rw [List.length_cons, Ts_length] at this
        exact this

end Verif.Beta

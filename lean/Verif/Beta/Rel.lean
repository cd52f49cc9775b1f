import Verif.Beta.Redex
/-
Related values, continuations and states of a program and the reduced program (C36).
-/
namespace Verif.Beta
open Verif.Core
variable {W : Type}

/-- What is known of a run: what became of the boxes of the program before the reduction; values of constant globals. -/
structure Kn where
  μ : List (Option Nat)
  G : Id → Option Val

/-- more is known. -/
structure Ext (k k' : Kn) : Prop where
  μ : ∀ (a : Nat) (c : Option Nat), k.μ[a]? = some c → k'.μ[a]? = some c
  G : ∀ x v, k.G x = some v → k'.G x = some v

theorem Ext.refl (k : Kn) : Ext k k := ⟨fun _ _ h => h, fun _ _ h => h⟩
theorem Ext.trans {a b c : Kn} (h1 : Ext a b) (h2 : Ext b c) : Ext a c :=
  ⟨fun i v h => h2.μ i v (h1.μ i v h), fun x v h => h2.G x v (h1.G x v h)⟩

mutual
/-- The transparent expression `e` has the value `v`, up to parts of environments that are not used. -/
inductive TE (M : Sem W) (G : Id → Option Val) : Exp → Env → Val → Prop
  | var {x : Id} {ρ : Env} {v : Val} : x.isGlobal = false → ρ.lookup x = some v → TE M G (.var x) ρ v
  | gvar {x : Id} {ρ : Env} {v : Val} : x.isGlobalConst = true → G x = some v → TE M G (.var x) ρ v
  | iteT {a b c : Exp} {ρ : Env} {u v : Val} : TE M G a ρ u → u.isFalse = false → TE M G b ρ v → TE M G (.ite a b c) ρ v
  | iteF {a b c : Exp} {ρ : Env} {u v : Val} : TE M G a ρ u → u.isFalse = true → TE M G c ρ v → TE M G (.ite a b c) ρ v
  | prim {eff : Effect} {p : PrimName} {es : List Exp} {ρ : Env} {vs : List Val} {v : Val} : TEs M G es ρ vs → Pure M p →
      (∀ σ, doPrim M p vs σ = some (.ok v σ)) → TE M G (.prim eff p es) ρ v
  | lam {ids : List Id} {b : Exp} {ρ ρ0 : Env} : (∀ y, Free y (.lam ids b) → ρ0.lookup y = ρ.lookup y) →
      TE M G (.lam ids b) ρ (.clos ids b ρ0)
  | letE {ids : List Id} {b : Exp} {es : List Exp} {ρ : Env} {vs : List Val} {v : Val} : TEs M G es ρ vs → ids.length = vs.length →
      TE M G b (bindAll ids vs ρ) v → TE M G (.app (.lam ids b) es) ρ v
/-- for lists. -/
inductive TEs (M : Sem W) (G : Id → Option Val) : List Exp → Env → List Val → Prop
  | nil {ρ : Env} : TEs M G [] ρ []
  | cons {e : Exp} {es : List Exp} {ρ : Env} {v : Val} {vs : List Val} : TE M G e ρ v → TEs M G es ρ vs → TEs M G (e :: es) ρ (v :: vs)
end

/-- What is known of the value of the variable that is substituted. -/
def SubOk (M : Sem W) (R : Redex) (G : Id → Option Val) (fl : Bool) (S : Id → Prop) (ρ : Env) : Prop :=
  fl = true → ∀ r, R.sub = some r → ((∀ y, Free y r → S y) ∧ Clean R r ∧ Ok M R false r) ∧
    ∃ x v, (R.goneId = some x ∧ x.isGlobal = false) ∧ ρ.lookup x = some v ∧ TE M G r ρ v

mutual
theorem TE.mono {M : Sem W} {G G' : Id → Option Val} (hG : ∀ x v, G x = some v → G' x = some v) : {e : Exp} → {ρ : Env} → {v : Val} →
    TE M G e ρ v → TE M G' e ρ v
  | _, _, _, .var h1 h2 => .var h1 h2
  | _, _, _, .gvar h1 h2 => .gvar h1 (hG _ _ h2)
  | _, _, _, .iteT h1 h2 h3 => .iteT (TE.mono hG h1) h2 (TE.mono hG h3)
  | _, _, _, .iteF h1 h2 h3 => .iteF (TE.mono hG h1) h2 (TE.mono hG h3)
  | _, _, _, .prim h1 h2 h3 => .prim (TEs.mono hG h1) h2 h3
  | _, _, _, .lam h => .lam h
  | _, _, _, .letE h1 h2 h3 => .letE (TEs.mono hG h1) h2 (TE.mono hG h3)
theorem TEs.mono {M : Sem W} {G G' : Id → Option Val} (hG : ∀ x v, G x = some v → G' x = some v) : {es : List Exp} → {ρ : Env} →
    {vs : List Val} → TEs M G es ρ vs → TEs M G' es ρ vs
  | _, _, _, .nil => .nil
  | _, _, _, .cons h1 h2 => .cons (TE.mono hG h1) (TEs.mono hG h2)
end

theorem lookup_bindAll_congr {ρ1 ρ2 : Env} {y : Id} : ∀ {ids : List Id} {vs : List Val}, ids.length = vs.length →
    (y ∉ ids → ρ1.lookup y = ρ2.lookup y) → (bindAll ids vs ρ1).lookup y = (bindAll ids vs ρ2).lookup y := by
  intro ids
  induction ids with
  | nil => intro vs _ h; cases vs <;> exact h (by simp)
  | cons x ids ih =>
    intro vs hl h
    cases vs with
    | nil => simp at hl
    | cons v vs =>
      simp only [bindAll, Env.lookup]
      split
      · rfl
      · rename_i hn; exact ih (by simpa using hl) (fun hm => h (by simp [hn, hm]))

mutual
/-- the value of an expression depends on its free variables only. -/
theorem TE.agree {M : Sem W} {G : Id → Option Val} : {e : Exp} → {ρ1 ρ2 : Env} → {v : Val} →
    (∀ y, Free y e → ρ1.lookup y = ρ2.lookup y) → TE M G e ρ1 v → TE M G e ρ2 v
  | _, _, _, _, ha, .var h1 h2 => .var h1 (by rw [← ha _ .var]; exact h2)
  | _, _, _, _, _, .gvar h1 h2 => .gvar h1 h2
  | _, _, _, _, ha, .iteT h1 h2 h3 => .iteT (TE.agree (fun y hy => ha y (.iteA _ _ hy)) h1) h2 (TE.agree (fun y hy => ha y (.iteB _ _ hy)) h3)
  | _, _, _, _, ha, .iteF h1 h2 h3 => .iteF (TE.agree (fun y hy => ha y (.iteA _ _ hy)) h1) h2 (TE.agree (fun y hy => ha y (.iteC _ _ hy)) h3)
  | _, _, _, _, ha, .prim h1 h2 h3 => .prim (TEs.agree (fun y ⟨e, he, hy⟩ => ha y (.prim _ _ he hy)) h1) h2 h3
  | _, _, _, _, ha, .lam h => .lam (fun y hy => by rw [h y hy, ha y hy])
  | _, _, _, _, ha, .letE h1 h2 h3 => .letE (TEs.agree (fun y ⟨e, he, hy⟩ => ha y (.appA _ he hy)) h1) h2
      (TE.agree (fun y hy => lookup_bindAll_congr h2 (fun hn => ha y (.appF _ (.lam hn hy)))) h3)
theorem TEs.agree {M : Sem W} {G : Id → Option Val} : {es : List Exp} → {ρ1 ρ2 : Env} → {vs : List Val} →
    (∀ y, (∃ e ∈ es, Free y e) → ρ1.lookup y = ρ2.lookup y) → TEs M G es ρ1 vs → TEs M G es ρ2 vs
  | _, _, _, _, _, .nil => .nil
  | _, _, _, _, ha, .cons h1 h2 => .cons (TE.agree (fun y hy => ha y ⟨_, by simp, hy⟩) h1)
      (TEs.agree (fun y ⟨r, hr, hy⟩ => ha y ⟨r, by simp [hr], hy⟩) h2)
end

/-- the parameters of the relation: meaning of primitives, the reduction, the order of evaluation after the reduction. -/
structure Ctx (W : Type) where
  M : Sem W
  R : Redex
  Q : Op → List Exp → List Nat

mutual
/-- related values. -/
inductive VR (C : Ctx W) (k : Kn) : Val → Val → Prop
  | atom (n : Nat) : VR C k (.atom n) (.atom n)
  | pair {a d a' d' : Val} : VR C k a a' → VR C k d d' → VR C k (.pair a d) (.pair a' d')
  | box {a a' : Nat} : k.μ[a]? = some (some a') → VR C k (.box a) (.box a')
  | trap : VR C k .trap .trap
  | clos {fl : Bool} {S : Id → Prop} {ids : List Id} {b : Exp} {ρ ρt : Env} : (∀ y ∈ ids, Good C.R fl y) → Ok C.M C.R fl b →
      (∀ y, Free y (.lam ids b) → S y) →
      (∀ y v, S y → C.R.goneId ≠ some y → ρ.lookup y = some v → ∃ w, ρt.lookup y = some w) →
      (∀ y v w, S y → C.R.goneId ≠ some y → ρ.lookup y = some v → ρt.lookup y = some w → VR C k v w) →
      SubOk C.M C.R k.G fl S ρ → VR C k (.clos ids b ρ) (.clos ids (T C.R b) ρt)
  | rclos {fl : Bool} {S : Id → Prop} {ids : List Id} {lams : List Exp} {i : Nat} {ρ ρt : Env} : (∀ y ∈ ids, Good C.R fl y) →
      (∀ l ∈ lams, Ok C.M C.R fl l) → (∀ y, (∃ l ∈ lams, Free y l) → y ∉ ids → S y) →
      (∀ y v, S y → C.R.goneId ≠ some y → ρ.lookup y = some v → ∃ w, ρt.lookup y = some w) →
      (∀ y v w, S y → C.R.goneId ≠ some y → ρ.lookup y = some v → ρt.lookup y = some w → VR C k v w) →
      SubOk C.M C.R k.G fl S ρ → VR C k (.rclos ids lams i ρ) (.rclos ids (Ts C.R lams) i ρt)
  | cont {κ κ' : Kont} : KR C k κ κ' → VR C k (.cont κ) (.cont κ')
/-- related continuations. -/
inductive KR (C : Ctx W) (k : Kn) : Kont → Kont → Prop
  | halt : KR C k .halt .halt
  | trap : KR C k .trap .trap
  | throw {v w : Val} : VR C k v w → KR C k (.throw v) (.throw w)
  | set {x : Id} {κ κ' : Kont} : KR C k κ κ' → KR C k (.set x κ) (.set x κ')
  | ite {fl : Bool} {S : Id → Prop} {b c : Exp} {ρ ρt : Env} {κ κ' : Kont} : Ok C.M C.R fl b → Ok C.M C.R fl c →
      (∀ y, Free y b ∨ Free y c → S y) →
      (∀ y v, S y → C.R.goneId ≠ some y → ρ.lookup y = some v → ∃ w, ρt.lookup y = some w) →
      (∀ y v w, S y → C.R.goneId ≠ some y → ρ.lookup y = some v → ρt.lookup y = some w → VR C k v w) →
      SubOk C.M C.R k.G fl S ρ → KR C k κ κ' → KR C k (.ite b c ρ κ) (.ite (T C.R b) (T C.R c) ρt κ')
  | args {fl : Bool} {S : Id → Prop} {op : Op} {es : List Exp} {d d' : Nat → Val} {i : Nat} {todo : List Nat} {ρ ρt : Env} {κ κ' : Kont} :
      (∀ e ∈ es, Ok C.M C.R fl e) → (∀ y, (∃ e ∈ es, Free y e) → S y) →
      (∀ y v, S y → C.R.goneId ≠ some y → ρ.lookup y = some v → ∃ w, ρt.lookup y = some w) →
      (∀ y v w, S y → C.R.goneId ≠ some y → ρ.lookup y = some v → ρt.lookup y = some w → VR C k v w) →
      SubOk C.M C.R k.G fl S ρ →
      (∀ j, VR C k (d j) (d' j)) → KR C k κ κ' → KR C k (.args op es d i todo ρ κ) (.args op (Ts C.R es) d' i todo ρt κ')
  | letf {S : Id → Prop} {kp : List Nat} {b : Exp} {es : List Exp} {d d' : Nat → Val} {j : Nat} {todo : List Nat} {ρ ρt : Env} {κ κ' : Kont} :
      C.R.mode = .lets kp → LetOk C.M C.R kp es → (∀ e ∈ es, Ok C.M C.R false e) → Ok C.M C.R true b →
      (∀ y, Free y (.app (.lam C.R.ids b) es) → S y) →
      (∀ y v, S y → C.R.goneId ≠ some y → ρ.lookup y = some v → ∃ w, ρt.lookup y = some w) →
      (∀ y v w, S y → C.R.goneId ≠ some y → ρ.lookup y = some v → ρt.lookup y = some w → VR C k v w) →
      (∀ (i : Nat) (r : Exp), C.R.gone = some i → C.R.sub = some r → TE C.M k.G r ρ (d (i + 1))) →
      (∀ (l i : Nat), kp[l]? = some i → (l + 1 ∉ (j + 1) :: todo → VR C k (d (i + 1)) (d' (l + 1)))) →
      (0 ∈ todo ∨ (d 0 = .clos C.R.ids b ρ ∧ d' 0 = .clos (pick C.R.ids kp) (T C.R b) ρt)) →
      (∀ l ∈ (j + 1) :: todo, l < kp.length + 1) → ((j + 1) :: todo).Nodup → KR C k κ κ' →
      KR C k (.args .call (.lam C.R.ids b :: es) d (emb kp (j + 1)) (todo.map (emb kp)) ρ κ)
        (.args .call (.lam (pick C.R.ids kp) (T C.R b) :: pick (Ts C.R es) kp) d' (j + 1) todo ρt κ')
  | idlet {x : Id} {e : Exp} {d : Nat → Val} {ρ ρ' : Env} {κ κ' : Kont} : x.isGlobal = false → d 0 = .clos [x] (.var x) ρ' → KR C k κ κ' →
      KR C k (.args .call [.lam [x] (.var x), e] d 1 [] ρ κ) κ'
  | withcc {fl : Bool} {S : Id → Prop} {e : Exp} {ρ ρt : Env} : Ok C.M C.R fl e → (∀ y, Free y e → S y) →
      (∀ y v, S y → C.R.goneId ≠ some y → ρ.lookup y = some v → ∃ w, ρt.lookup y = some w) →
      (∀ y v w, S y → C.R.goneId ≠ some y → ρ.lookup y = some v → ρt.lookup y = some w → VR C k v w) →
      SubOk C.M C.R k.G fl S ρ → KR C k (.withcc e ρ) (.withcc (T C.R e) ρt)
end

variable {C : Ctx W} {k k' : Kn}

theorem SubOk.mono {M : Sem W} {R : Redex} {G G' : Id → Option Val} {fl : Bool} {S : Id → Prop} {ρ : Env}
    (hG : ∀ x v, G x = some v → G' x = some v) (h : SubOk M R G fl S ρ) : SubOk M R G' fl S ρ := by
  intro hf r hr
  obtain ⟨h1, x, v, h2, h3, h4⟩ := h hf r hr
  exact ⟨h1, x, v, h2, h3, h4.mono hG⟩

mutual
theorem VR.mono (hk : Ext k k') : {v w : Val} → VR C k v w → VR C k' v w
  | _, _, .atom n => .atom n
  | _, _, .pair h1 h2 => .pair (VR.mono hk h1) (VR.mono hk h2)
  | _, _, .box h => .box (hk.μ _ _ h)
  | _, _, .trap => .trap
  | _, _, .clos a b c d e f => .clos a b c d (fun y v w h1 h2 h3 h4 => VR.mono hk (e y v w h1 h2 h3 h4)) (f.mono hk.G)
  | _, _, .rclos a b c d e f => .rclos a b c d (fun y v w h1 h2 h3 h4 => VR.mono hk (e y v w h1 h2 h3 h4)) (f.mono hk.G)
  | _, _, .cont h => .cont (KR.mono hk h)
theorem KR.mono (hk : Ext k k') : {κ κ' : Kont} → KR C k κ κ' → KR C k' κ κ'
  | _, _, .halt => .halt
  | _, _, .trap => .trap
  | _, _, .throw h => .throw (VR.mono hk h)
  | _, _, .set h => .set (KR.mono hk h)
  | _, _, .ite a b c d e f g => .ite a b c d (fun y v w h1 h2 h3 h4 => VR.mono hk (e y v w h1 h2 h3 h4)) (f.mono hk.G) (KR.mono hk g)
  | _, _, .args a c d e f g h => .args a c d (fun y v w h1 h2 h3 h4 => VR.mono hk (e y v w h1 h2 h3 h4)) (f.mono hk.G)
      (fun j => VR.mono hk (g j)) (KR.mono hk h)
  | _, _, .letf a b c d e f g h i j l m n => .letf a b c d e f (fun y v w h1 h2 h3 h4 => VR.mono hk (g y v w h1 h2 h3 h4))
      (fun i r h1 h2 => (h i r h1 h2).mono hk.G) (fun l m h1 h2 => VR.mono hk (i l m h1 h2)) j l m (KR.mono hk n)
  | _, _, .idlet a b c => .idlet a b (KR.mono hk c)
  | _, _, .withcc a c d e f => .withcc a c d (fun y v w h1 h2 h3 h4 => VR.mono hk (e y v w h1 h2 h3 h4)) (f.mono hk.G)
end

/-- related values look the same. -/
theorem VR.view : {v w : Val} → VR C k v w → v.view = w.view
  | _, _, .atom _ => rfl
  | _, _, .pair h1 h2 => by simp only [Val.view, VR.view h1, VR.view h2]
  | _, _, .box _ => rfl
  | _, _, .trap => rfl
  | _, _, .clos .. => rfl
  | _, _, .rclos .. => rfl
  | _, _, .cont _ => rfl

theorem VR.false {v w : Val} (h : VR C k v w) : v.isFalse = w.isFalse := by
  cases h <;> rfl

/-! ### environments, stores, states -/

/-- related environments, on the variables `S`. -/
structure ER (C : Ctx W) (k : Kn) (fl : Bool) (S : Id → Prop) (ρ ρt : Env) : Prop where
  ex : ∀ y v, S y → C.R.goneId ≠ some y → ρ.lookup y = some v → ∃ w, ρt.lookup y = some w
  all : ∀ y v w, S y → C.R.goneId ≠ some y → ρ.lookup y = some v → ρt.lookup y = some w → VR C k v w
  sub : SubOk C.M C.R k.G fl S ρ

theorem ER.mono {fl : Bool} {S : Id → Prop} {ρ ρt : Env} (h : ER C k fl S ρ ρt) (hk : Ext k k') : ER C k' fl S ρ ρt :=
  ⟨h.ex, fun y v w a1 a2 a3 a4 => (h.all y v w a1 a2 a3 a4).mono hk, h.sub.mono hk.G⟩

/-- related heaps. -/
structure HR (C : Ctx W) (k : Kn) (h ht : List Val) : Prop where
  len : k.μ.length = h.length
  box : ∀ (a : Nat) (v : Val) (a' : Nat), h[a]? = some v → k.μ[a]? = some (some a') → ∃ w, ht[a']? = some w ∧ VR C k v w
  inj : ∀ (a1 a2 a' : Nat), k.μ[a1]? = some (some a') → k.μ[a2]? = some (some a') → a1 = a2

/-- related stores. -/
structure SR (C : Ctx W) (k : Kn) (σ σt : Store W) : Prop where
  glob : ∀ x, (σ.glob x = none ∧ σt.glob x = none) ∨ ∃ v w, σ.glob x = some v ∧ σt.glob x = some w ∧ VR C k v w
  const : ∀ x, x.isGlobalConst = true → k.G x = σ.glob x
  heap : HR C k σ.heap σt.heap
  world : σ.world = σt.world

/-- related states. -/
inductive Sync (C : Ctx W) : State W → State W → Prop
  | ev {k : Kn} {fl : Bool} {S : Id → Prop} {e : Exp} {ρ ρt : Env} {κ κ' : Kont} {σ σt : Store W} : Ok C.M C.R fl e →
      (∀ y, Free y e → S y) → ER C k fl S ρ ρt → KR C k κ κ' → SR C k σ σt → Sync C (.ev e ρ κ σ) (.ev (T C.R e) ρt κ' σt)
  | args {k : Kn} {fl : Bool} {S : Id → Prop} {op : Op} {es : List Exp} {d d' : Nat → Val} {todo : List Nat} {ρ ρt : Env} {κ κ' : Kont}
      {σ σt : Store W} : (∀ e ∈ es, Ok C.M C.R fl e) → (∀ y, (∃ e ∈ es, Free y e) → S y) → ER C k fl S ρ ρt → (∀ j, VR C k (d j) (d' j)) →
      KR C k κ κ' → SR C k σ σt → Sync C (.args op es d todo ρ κ σ) (.args op (Ts C.R es) d' todo ρt κ' σt)
  | letf {k : Kn} {S : Id → Prop} {kp : List Nat} {b : Exp} {es : List Exp} {d d' : Nat → Val} {todo : List Nat} {ρ ρt : Env} {κ κ' : Kont}
      {σ σt : Store W} :
      C.R.mode = .lets kp → LetOk C.M C.R kp es → (∀ e ∈ es, Ok C.M C.R false e) → Ok C.M C.R true b →
      (∀ y, Free y (.app (.lam C.R.ids b) es) → S y) → ER C k false S ρ ρt →
      (∀ (i : Nat) (r : Exp), C.R.gone = some i → C.R.sub = some r → TE C.M k.G r ρ (d (i + 1))) →
      (∀ (l i : Nat), kp[l]? = some i → (l + 1 ∉ todo → VR C k (d (i + 1)) (d' (l + 1)))) →
      (0 ∈ todo ∨ (d 0 = .clos C.R.ids b ρ ∧ d' 0 = .clos (pick C.R.ids kp) (T C.R b) ρt)) →
      (∀ l ∈ todo, l < kp.length + 1) → todo.Nodup → KR C k κ κ' → SR C k σ σt →
      Sync C (.args .call (.lam C.R.ids b :: es) d (todo.map (emb kp)) ρ κ σ)
        (.args .call (.lam (pick C.R.ids kp) (T C.R b) :: pick (Ts C.R es) kp) d' todo ρt κ' σt)
  | ap {k : Kn} {f g : Val} {vs ws : List Val} {κ κ' : Kont} {σ σt : Store W} : VR C k f g →
      List.Forall₂ (VR C k) vs ws → KR C k κ κ' → SR C k σ σt → Sync C (.ap f vs κ σ) (.ap g ws κ' σt)
  | ret {k : Kn} {v w : Val} {κ κ' : Kont} {σ σt : Store W} : VR C k v w → KR C k κ κ' → SR C k σ σt →
      Sync C (.ret v κ σ) (.ret w κ' σt)

end Verif.Beta

import Verif.Cps.Rel
import Mathlib.Data.List.Forall2
/-
Related values, continuations and states (C34).
-/
namespace Verif.Cps
open Verif.Core

/-- the environments agree on `V`. -/
def Agree (V : Id → Prop) (ρ ρ' : Env) : Prop := ∀ x, V x → ρ.lookup x = ρ'.lookup x

/-- a continuation expression has a value. -/
def KEx : Exp → Env → Prop
  | .var k, ρ => k.isGlobal = false ∧ ∃ w, ρ.lookup k = some w
  | .lam _ _, _ => True
  | .app (.lam [] (.prim _ .ktrap [])) [], _ => True
  | _, _ => False

/-- the value of a continuation expression. -/
def kv : Exp → Env → Val
  | .var k, ρ => (ρ.lookup k).getD .trap
  | .lam ids b, ρ => .clos ids b ρ
  | _, _ => .trap

mutual
/-- related values. -/
inductive VRel : Val → Val → Prop
  | atom (n : Nat) : VRel (.atom n) (.atom n)
  | pair {a d a' d' : Val} : VRel a a' → VRel d d' → VRel (.pair a d) (.pair a' d')
  | box (a : Nat) : VRel (.box a) (.box a)
  | trap : VRel .trap .trap
  | clos {k : Id} {ids : List Id} {b t : Exp} {ρ ρt : Env} : k.isGlobal = false → ¬ Free k b →
      Cps (fun x => x = k) b (.var k) t →
      (∀ x v, Free x (.lam ids b) → ρ.lookup x = some v → ∃ w, ρt.lookup x = some w) →
      (∀ x v w, Free x (.lam ids b) → ρ.lookup x = some v → ρt.lookup x = some w → VRel v w) →
      VRel (.clos ids b ρ) (.clos (k :: ids) t ρt)
  | rclos {ids : List Id} {lams lams' : List Exp} {i : Nat} {ρ ρt : Env} : CpsSs lams lams' →
      (∀ x v, (∃ l ∈ lams, Free x l) → x ∉ ids → ρ.lookup x = some v → ∃ w, ρt.lookup x = some w) →
      (∀ x v w, (∃ l ∈ lams, Free x l) → x ∉ ids → ρ.lookup x = some v → ρt.lookup x = some w → VRel v w) →
      VRel (.rclos ids lams i ρ) (.rclos ids lams' i ρt)
  | cont {κ : Kont} {w : Val} : KVal κ w → VRel (.cont κ) w
/-- a continuation and the procedure that represents it. -/
inductive KVal : Kont → Val → Prop
  | halt {ek r : Id} {ρt : Env} : ek ≠ r → r.isGlobal = false → KVal .halt (.clos [ek, r] (haltExp (.var r)) ρt)
  | trap (w : Val) : w.view = .proc → KVal .trap w
  | throw {p w : Val} : p.view = .proc → VRel p w → KVal (.throw p) w
  | set {V : Id → Prop} {x ek r : Id} {k : Exp} {κ : Kont} {ρt : Env} : x.isGlobal = true → ek ≠ r → r.isGlobal = false →
      ¬ V ek → ¬ V r → (∀ ρ', Agree V ρt ρ' → KEx k ρ') → (∀ ρ', Agree V ρt ρ' → KVal κ (kv k ρ')) →
      KVal (.set x κ) (.clos [ek, r] (.app k [ktrapExp, .set x (.var r)]) ρt)
  | ite {V : Id → Prop} {b c k tb tc : Exp} {ek r : Id} {ρ ρt : Env} {κ : Kont} : ek ≠ r → r.isGlobal = false → ¬ V ek → ¬ V r →
      ¬ Free ek b → ¬ Free r b → ¬ Free ek c → ¬ Free r c → Cps V b k tb → Cps V c k tc →
      (∀ x v, Free x b ∨ Free x c → ρ.lookup x = some v → ∃ w, ρt.lookup x = some w) →
      (∀ x v w, Free x b ∨ Free x c → ρ.lookup x = some v → ρt.lookup x = some w → VRel v w) →
      (∀ ρ', Agree V ρt ρ' → KEx k ρ') → (∀ ρ', Agree V ρt ρ' → KVal κ (kv k ρ')) →
      KVal (.ite b c ρ κ) (.clos [ek, r] (.ite (.var r) tb tc) ρt)
  | begin {V : Id → Prop} {x y ek : Id} {e b k tb : Exp} {d : Nat → Val} {ρ ρt : Env} {κ : Kont} : ¬ Free x b → ek ≠ y →
      ¬ V ek → ¬ V y → ¬ Free ek b → ¬ Free y b → Cps V b k tb →
      (∀ x v, Free x b → ρ.lookup x = some v → ∃ w, ρt.lookup x = some w) →
      (∀ x v w, Free x b → ρ.lookup x = some v → ρt.lookup x = some w → VRel v w) →
      (∀ ρ', Agree V ρt ρ' → KEx k ρ') → (∀ ρ', Agree V ρt ρ' → KVal κ (kv k ρ')) →
      KVal (.args .call [.lam [x] b, e] d 1 [0] ρ κ) (.clos [ek, y] tb ρt)
  | idlet {x : Id} {e : Exp} {d : Nat → Val} {ρ : Env} {κ : Kont} {w : Val} : x.isGlobal = false → KVal κ w →
      KVal (.args .call [.lam [x] (.var x), e] d 1 [0] ρ κ) w
  | list {V : Id → Prop} {op : Op} {es args : List Exp} {k fin t : Exp} {d : Nat → Val} {i : Nat} {is : List Nat}
      {ek r : Id} {ρ ρt : Env} {κ : Kont} : ArgsOk V es args → Fin V op es args k fin → Code V es args fin is t →
      Cx es args i r → ¬ VL V es args ek → (i :: is).Nodup →
      (∀ x v, (∃ e ∈ es, Free x e) → ρ.lookup x = some v → ∃ w, ρt.lookup x = some w) →
      (∀ x v w, (∃ e ∈ es, Free x e) → ρ.lookup x = some v → ρt.lookup x = some w → VRel v w) →
      (∀ j x, Cx es args j x → j ≠ i → j ∉ is → ∃ w, ρt.lookup x = some w) →
      (∀ j x w, Cx es args j x → j ≠ i → j ∉ is → ρt.lookup x = some w → VRel (d j) w) →
      (∀ ρ', Agree V ρt ρ' → KEx k ρ') → (∀ ρ', Agree V ρt ρ' → KVal κ (kv k ρ')) →
      KVal (.args op es d i (is ++ posFrom simple 0 es) ρ κ) (.clos [ek, r] t ρt)
  | withcc {ek r : Id} {e t : Exp} {ρ ρt : Env} : ek ≠ r → r.isGlobal = false → ¬ Free ek e → ¬ Free r e →
      Cps (fun y => y = r) e (.var r) t →
      (∀ x v, Free x e → ρ.lookup x = some v → ∃ w, ρt.lookup x = some w) →
      (∀ x v w, Free x e → ρ.lookup x = some v → ρt.lookup x = some w → VRel v w) →
      KVal (.withcc e ρ) (.clos [ek, r] t ρt)
end

/-- related environments, on the variables in `S`. -/
def ERel (S : Id → Prop) (ρ ρt : Env) : Prop :=
  ∀ x v, S x → ρ.lookup x = some v → ∃ w, ρt.lookup x = some w ∧ VRel v w

/-- the continuation expression `k` stands for `κ` in `ρt`, whatever variables outside of `V` are rebound. -/
structure KRel (V : Id → Prop) (κ : Kont) (k : Exp) (ρt : Env) : Prop where
  ex : ∀ ρ', Agree V ρt ρ' → KEx k ρ'
  val : ∀ ρ', Agree V ρt ρ' → KVal κ (kv k ρ')

variable {W : Type}

/-- related stores. -/
structure SRel (σ σt : Store W) : Prop where
  glob : ∀ x, (σ.glob x = none ∧ σt.glob x = none) ∨ ∃ v w, σ.glob x = some v ∧ σt.glob x = some w ∧ VRel v w
  heap : List.Forall₂ VRel σ.heap σt.heap
  world : σ.world = σt.world

/-- related states. -/
inductive Sync : State W → State W → Prop
  | ev {V : Id → Prop} {e k t : Exp} {ρ ρt : Env} {κ : Kont} {σ σt : Store W} : Cps V e k t → ERel (fun x => Free x e) ρ ρt →
      KRel V κ k ρt → SRel σ σt → Sync (.ev e ρ κ σ) (.ev t ρt .halt σt)
  | ap {f g w : Val} {vs ws : List Val} {κ : Kont} {σ σt : Store W} : VRel f g → List.Forall₂ VRel vs ws → KVal κ w →
      SRel σ σt → Sync (.ap f vs κ σ) (.ap g (w :: ws) .halt σt)
  | ret {v u w a : Val} {κ : Kont} {σ σt : Store W} : a.view = .proc → VRel v u → KVal κ w → SRel σ σt →
      Sync (.ret v κ σ) (.ap w [a, u] .halt σt)

/-! ### lemmas -/

theorem Agree.refl (V : Id → Prop) (ρ : Env) : Agree V ρ ρ := fun _ _ => rfl
theorem Agree.trans {V : Id → Prop} {a b c : Env} (h1 : Agree V a b) (h2 : Agree V b c) : Agree V a c :=
  fun x hx => (h1 x hx).trans (h2 x hx)
theorem Agree.mono {V V' : Id → Prop} {a b : Env} (h : Agree V a b) (hv : ∀ x, V' x → V x) : Agree V' a b :=
  fun x hx => h x (hv x hx)
theorem Agree.bind {V : Id → Prop} {ρ : Env} {x : Id} {v : Val} (h : ¬ V x) : Agree V ρ (.bind x v ρ) := by
  intro y hy
  simp only [Env.lookup]
  rw [if_neg (fun e => h (by rw [← e]; exact hy))]

theorem idxOf_none {x : Id} : ∀ {ids : List Id}, x ∉ ids → idxOf x ids = none := by
  intro ids
  induction ids with
  | nil => intro _; rfl
  | cons y ids ih =>
    intro h
    simp only [List.mem_cons, not_or] at h
    simp only [idxOf, if_neg h.1, ih h.2, Option.map_none]

theorem Agree.fix {V : Id → Prop} {ρ : Env} {ids : List Id} {lams : List Exp} (h : ∀ x ∈ ids, ¬ V x) :
    Agree V ρ (.fix ids lams ρ) := by
  intro y hy
  simp only [Env.lookup]
  rw [idxOf_none (fun hm => h y hm hy)]

theorem bindAll_lookup_out {x : Id} : ∀ {ids : List Id} (vs : List Val) {ρ : Env}, x ∉ ids →
    (bindAll ids vs ρ).lookup x = ρ.lookup x := by
  intro ids
  induction ids with
  | nil => intro vs ρ _; simp [bindAll]
  | cons y ids ih =>
    intro vs ρ h
    simp only [List.mem_cons, not_or] at h
    cases vs with
    | nil => rfl
    | cons v vs => simp only [bindAll, Env.lookup, if_neg h.1]; exact ih vs h.2

theorem Agree.bindAll {V : Id → Prop} {ρ : Env} {ids : List Id} (vs : List Val) (h : ∀ x ∈ ids, ¬ V x) :
    Agree V ρ (bindAll ids vs ρ) := fun x hx => (bindAll_lookup_out vs (fun hm => h x hm hx)).symm

theorem KRel.mono {V : Id → Prop} {κ : Kont} {k : Exp} {ρ ρ' : Env} (h : KRel V κ k ρ) (ha : Agree V ρ ρ') :
    KRel V κ k ρ' :=
  ⟨fun ρ'' h' => h.ex ρ'' (ha.trans h'), fun ρ'' h' => h.val ρ'' (ha.trans h')⟩

theorem KRel.weaken {V V' : Id → Prop} {κ : Kont} {k : Exp} {ρ : Env} (h : KRel V κ k ρ) (hv : ∀ x, V x → V' x) :
    KRel V' κ k ρ :=
  ⟨fun ρ' h' => h.ex ρ' (h'.mono hv), fun ρ' h' => h.val ρ' (h'.mono hv)⟩

/-- a variable as continuation. -/
theorem KRel.var {κ : Kont} {x : Id} {w : Val} {ρ : Env} (hx : x.isGlobal = false) (hl : ρ.lookup x = some w)
    (hk : KVal κ w) : KRel (fun y => y = x) κ (.var x) ρ := by
  constructor
  · intro ρ' ha
    exact ⟨hx, w, by rw [← ha x rfl]; exact hl⟩
  · intro ρ' ha
    simp only [kv]
    rw [← ha x rfl, hl]
    exact hk

theorem ERel.mono {S S' : Id → Prop} {ρ ρt : Env} (h : ERel S ρ ρt) (hs : ∀ x, S' x → S x) : ERel S' ρ ρt :=
  fun x v hx hl => h x v (hs x hx) hl

theorem ERel.agree {S : Id → Prop} {ρ ρt ρt' : Env} (h : ERel S ρ ρt) (ha : Agree S ρt ρt') : ERel S ρ ρt' := by
  intro x v hx hl
  obtain ⟨w, hw, hr⟩ := h x v hx hl
  exact ⟨w, by rw [← ha x hx]; exact hw, hr⟩

theorem ERel.of {S : Id → Prop} {ρ ρt : Env} (h1 : ∀ x v, S x → ρ.lookup x = some v → ∃ w, ρt.lookup x = some w)
    (h2 : ∀ x v w, S x → ρ.lookup x = some v → ρt.lookup x = some w → VRel v w) : ERel S ρ ρt := by
  intro x v hx hl
  obtain ⟨w, hw⟩ := h1 x v hx hl
  exact ⟨w, hw, h2 x v w hx hl hw⟩

theorem ERel.ex {S : Id → Prop} {ρ ρt : Env} (h : ERel S ρ ρt) :
    ∀ x v, S x → ρ.lookup x = some v → ∃ w, ρt.lookup x = some w := fun x v hx hl => by
  obtain ⟨w, hw, _⟩ := h x v hx hl; exact ⟨w, hw⟩
theorem ERel.val {S : Id → Prop} {ρ ρt : Env} (h : ERel S ρ ρt) :
    ∀ x v w, S x → ρ.lookup x = some v → ρt.lookup x = some w → VRel v w := fun x v w hx hl hw => by
  obtain ⟨w', hw', hr⟩ := h x v hx hl
  rw [hw] at hw'; injection hw' with e; rw [e]; exact hr

/-- the same parameters on both sides. -/
theorem ERel.bindAll {ρ ρt : Env} : ∀ {ids : List Id} {S : Id → Prop} {vs ws : List Val}, ERel (fun x => x ∉ ids ∧ S x) ρ ρt →
    List.Forall₂ VRel vs ws → ids.length = vs.length → ERel S (bindAll ids vs ρ) (bindAll ids ws ρt) := by
  intro ids
  induction ids with
  | nil =>
    intro S vs ws h _ _
    simp only [Verif.Core.bindAll]
    exact h.mono (fun x hx => ⟨by simp, hx⟩)
  | cons y ids ih =>
    intro S vs ws h hf hl
    cases hf with
    | nil => simp at hl
    | cons hvw hf =>
      simp only [Verif.Core.bindAll]
      intro x v hx hlk
      simp only [Env.lookup] at hlk ⊢
      by_cases hxy : x = y
      · rw [if_pos hxy] at hlk ⊢
        injection hlk with e
        subst e
        exact ⟨_, rfl, hvw⟩
      · rw [if_neg hxy] at hlk ⊢
        have := ih (vs := _) (ws := _) (S := fun z => z ≠ y ∧ S z)
          (h.mono (fun z hz => ⟨by simp only [List.mem_cons, not_or]; exact ⟨hz.2.1, hz.1⟩, hz.2.2⟩)) hf (by simpa using hl)
        exact this x v ⟨hxy, hx⟩ hlk

/-- the same group of procedures on both sides. -/
theorem ERel.fix {S : Id → Prop} {ρ ρt : Env} {ids : List Id} {lams lams' : List Exp} (hc : CpsSs lams lams')
    (h : ERel (fun x => x ∉ ids ∧ (S x ∨ ∃ l ∈ lams, Free x l)) ρ ρt) :
    ERel S (.fix ids lams ρ) (.fix ids lams' ρt) := by
  intro x v hx hl
  simp only [Env.lookup] at hl ⊢
  cases hi : idxOf x ids with
  | some i =>
    rw [hi] at hl
    injection hl with e
    subst e
    exact ⟨_, rfl, .rclos hc (fun y v hy hn hl => (h.mono (fun z (hz : z ∉ ids ∧ ∃ l ∈ lams, Free z l) => ⟨hz.1, Or.inr hz.2⟩)).ex y v ⟨hn, hy⟩ hl)
      (fun y v w hy hn hl hw => (h.mono (fun z (hz : z ∉ ids ∧ ∃ l ∈ lams, Free z l) => ⟨hz.1, Or.inr hz.2⟩)).val y v w ⟨hn, hy⟩ hl hw)⟩
  | none =>
    rw [hi] at hl
    have hn : x ∉ ids := by
      intro hm
      clear hl h
      induction ids with
      | nil => cases hm
      | cons y ids ih =>
        simp only [idxOf] at hi
        by_cases hxy : x = y
        · rw [if_pos hxy] at hi; cases hi
        · rw [if_neg hxy] at hi
          rcases List.mem_cons.mp hm with e | hm
          · exact hxy e
          · exact ih (by cases h : idxOf x ids with
              | none => rfl
              | some j => rw [h] at hi; cases hi) hm
    exact h x v ⟨hn, Or.inl hx⟩ hl

mutual
/-- related values look the same. -/
theorem VRel.view : {v w : Val} → VRel v w → v.view = w.view
  | _, _, .atom _ => rfl
  | _, _, .pair h1 h2 => by simp only [Val.view, VRel.view h1, VRel.view h2]
  | _, _, .box _ => rfl
  | _, _, .trap => rfl
  | _, _, .clos .. => rfl
  | _, _, .rclos .. => rfl
  | _, _, .cont h => by rw [KVal.view h]; rfl
/-- continuations are represented by procedures. -/
theorem KVal.view : {κ : Kont} → {w : Val} → KVal κ w → w.view = .proc
  | _, _, .halt .. => rfl
  | _, _, .trap _ h => h
  | _, _, .throw hp h => by rw [← VRel.view h]; exact hp
  | _, _, .set .. => rfl
  | _, _, .ite .. => rfl
  | _, _, .begin .. => rfl
  | _, _, .idlet _ h => KVal.view h
  | _, _, .list .. => rfl
  | _, _, .withcc .. => rfl
end

theorem VRel.isFalse {v w : Val} (h : VRel v w) : v.isFalse = w.isFalse := by
  have := h.view
  cases v <;> cases w <;> simp_all [Val.view, Val.isFalse]

theorem forall₂_view {vs ws : List Val} (h : List.Forall₂ VRel vs ws) : vs.map Val.view = ws.map Val.view := by
  induction h with
  | nil => rfl
  | cons h _ ih => simp only [List.map_cons, h.view, ih]

end Verif.Cps

import Verif.Beta.Stores
/-
Environments, and the value of an expression that has been substituted (C36).
-/
namespace Verif.Beta
open Verif.Core
variable {W : Type} {C : Ctx W} {k k' : Kn}

theorem lookup_skip {ρ : Env} {y : Id} : ∀ {ids : List Id} {vs : List Val}, y ∉ ids → (bindAll ids vs ρ).lookup y = ρ.lookup y := by
  intro ids
  induction ids with
  | nil => intro vs _; cases vs <;> rfl
  | cons x ids ih =>
    intro vs h
    cases vs with
    | nil => rfl
    | cons v vs =>
      simp only [List.mem_cons, not_or] at h
      simp only [bindAll, Env.lookup, if_neg h.1]
      exact ih h.2

/-- parameters are bound to related values. -/
theorem lookup_rel {P : Val → Val → Prop} {ρ ρt : Env} {y : Id} : ∀ {ids : List Id} {vs ws : List Val}, List.Forall₂ P vs ws → ids.length = vs.length → y ∈ ids →
    ∃ v w, (bindAll ids vs ρ).lookup y = some v ∧ (bindAll ids ws ρt).lookup y = some w ∧ P v w := by
  intro ids
  induction ids with
  | nil => intro vs ws _ _ h; simp at h
  | cons x ids ih =>
    intro vs ws h hl hy
    cases h with
    | nil => simp at hl
    | cons h1 h2 =>
      rename_i v w vs ws
      by_cases e : y = x
      · exact ⟨v, w, by simp [bindAll, Env.lookup, e], by simp [bindAll, Env.lookup, e], h1⟩
      · simp only [bindAll, Env.lookup, if_neg e]
        exact ih h2 (by simpa using hl) (by simpa [e] using hy)

theorem SubOk.agree {M : Sem W} {R : Redex} {G : Id → Option Val} {fl : Bool} {S S' : Id → Prop} {ρ ρ' : Env} (h : SubOk M R G fl S ρ)
    (hS : ∀ y, S y → S' y) (hg : ∀ x, R.goneId = some x → fl = true → ρ'.lookup x = ρ.lookup x)
    (hf : ∀ r y, fl = true → R.sub = some r → Free y r → ρ'.lookup y = ρ.lookup y) : SubOk M R G fl S' ρ' := by
  intro hfl r hr
  obtain ⟨⟨h1, h2, h3⟩, x, v, ⟨h4, h5⟩, h6, h7⟩ := h hfl r hr
  exact ⟨⟨fun y hy => hS y (h1 y hy), h2, h3⟩, x, v, ⟨h4, h5⟩, by rw [hg x h4 hfl]; exact h6, TE.agree (fun y hy => (hf r y hfl hr hy).symm) h7⟩

theorem ER.bind {fl : Bool} {S : Id → Prop} {ρ ρt : Env} {ids : List Id} {vs ws : List Val} (h : ER C k fl S ρ ρt)
    (hg : ∀ y ∈ ids, Good C.R fl y) (hv : List.Forall₂ (VR C k) vs ws) (hl : ids.length = vs.length) :
    ER C k fl (fun y => S y ∨ y ∈ ids) (bindAll ids vs ρ) (bindAll ids ws ρt) := by
  refine ⟨?_, ?_, ?_⟩
  · intro y v hy hn h1
    by_cases hm : y ∈ ids
    · obtain ⟨_, w, _, h2, _⟩ := lookup_rel (ρ := ρ) (ρt := ρt) hv hl hm
      exact ⟨w, h2⟩
    · rw [lookup_skip hm] at h1 ⊢
      exact h.ex y v (by simpa [hm] using hy) hn h1
  · intro y v w hy hn h1 h2
    by_cases hm : y ∈ ids
    · obtain ⟨v', w', h1', h2', h3⟩ := lookup_rel (ρ := ρ) (ρt := ρt) hv hl hm
      rw [h1'] at h1; rw [h2'] at h2
      injection h1 with h1; injection h2 with h2; subst h1; subst h2
      exact h3
    · rw [lookup_skip hm] at h1 h2
      exact h.all y v w (by simpa [hm] using hy) hn h1 h2
  · refine h.sub.agree (fun y hy => Or.inl hy) (fun x hx _ => lookup_skip (fun hm => (hg x hm).2.1 hx)) (fun r y hfl hr hy => ?_)
    exact lookup_skip (fun hm => (hg y hm).2.2 hfl r hr hy)

theorem ER.fix {fl : Bool} {S : Id → Prop} {ρ ρt : Env} {ids : List Id} {lams : List Exp} (h : ER C k fl S ρ ρt)
    (hg : ∀ y ∈ ids, Good C.R fl y) (hl : ∀ l ∈ lams, Ok C.M C.R fl l) (hS : ∀ y, (∃ l ∈ lams, Free y l) → y ∉ ids → S y) :
    ER C k fl (fun y => S y ∨ y ∈ ids) (.fix ids lams ρ) (.fix ids (Ts C.R lams) ρt) := by
  refine ⟨?_, ?_, ?_⟩
  · intro y v hy hn h1
    rw [Env.lookup] at h1 ⊢
    cases hi : idxOf y ids with
    | some i => exact ⟨_, rfl⟩
    | none =>
      rw [hi] at h1
      exact h.ex y v (by simpa [idxOf_none.mp hi] using hy) hn h1
  · intro y v w hy hn h1 h2
    rw [Env.lookup] at h1 h2
    cases hi : idxOf y ids with
    | some i =>
      rw [hi] at h1 h2
      injection h1 with h1; injection h2 with h2; subst h1; subst h2
      exact .rclos hg hl hS h.ex h.all h.sub
    | none =>
      rw [hi] at h1 h2
      exact h.all y v w (by simpa [idxOf_none.mp hi] using hy) hn h1 h2
  · have skip : ∀ y, y ∉ ids → (Env.fix ids lams ρ).lookup y = ρ.lookup y := fun y hy => by rw [Env.lookup, idxOf_none.mpr hy]
    refine h.sub.agree (fun y hy => Or.inl hy) (fun x hx _ => skip x (fun hm => (hg x hm).2.1 hx)) (fun r y hfl hr hy => ?_)
    exact skip y (fun hm => (hg y hm).2.2 hfl r hr hy)

theorem ER.flag {fl : Bool} {S : Id → Prop} {ρ ρt : Env} (h : ER C k fl S ρ ρt) : ER C k false S ρ ρt :=
  ⟨h.ex, h.all, fun hf => by cases hf⟩

theorem ER.weaken {fl : Bool} {S S' : Id → Prop} {ρ ρt : Env} (h : ER C k false S ρ ρt) (hS : ∀ y, S' y → S y) (hfl : fl = false) : ER C k fl S' ρ ρt :=
  ⟨fun y v h1 => h.ex y v (hS y h1), fun y v w h1 => h.all y v w (hS y h1), fun hf => by rw [hfl] at hf; cases hf⟩

/-! ### operands whose values are known -/

theorem args_known {M : Sem W} {ord : Op → List Exp → List Nat} {op : Op} {es : List Exp} {ρ : Env} {σ : Store W} {f : Nat → Val}
    (h : ∀ (i : Nat) (e : Exp), es[i]? = some e → ∀ κ, Quiet (gstep M ord) (.ev e ρ κ σ) (.ret (f i) κ σ)) (κ : Kont) :
    ∀ (todo : List Nat) (d : Nat → Val), (∀ i ∈ todo, i < es.length) → (∀ i, i ∉ todo → i < es.length → d i = f i) →
      ∃ d', (∀ i, i < es.length → d' i = f i) ∧ Quiet (gstep M ord) (.args op es d todo ρ κ σ) (.args op es d' [] ρ κ σ) := by
  intro todo
  induction todo with
  | nil => intro d _ hd; exact ⟨d, fun i hi => hd i (by simp) hi, .refl _⟩
  | cons i todo ih =>
    intro d hi hd
    have hlt := hi i (by simp)
    have h1 : gstep M ord (.args op es d (i :: todo) ρ κ σ) = some (.ev es[i] ρ (.args op es d i todo ρ κ) σ) := by
      cases op <;> simp [gstep, step, List.getElem?_eq_getElem hlt]
    obtain ⟨d', h2, h3⟩ := ih (upd d i (f i)) (fun j hj => hi j (by simp [hj])) (fun j hj hjl => by
      by_cases e : j = i
      · simp [upd, e]
      · simp only [upd, if_neg e]; exact hd j (by simp [e, hj]) hjl)
    exact ⟨d', h2, (Quiet.step h1 rfl (h i _ (List.getElem?_eq_getElem hlt) _)).trans (.step rfl rfl h3)⟩

theorem vals_known {d f : Nat → Val} {n : Nat} (h : ∀ i, i < n → d i = f i) : vals d n = (List.range n).map f := by
  simp only [vals]
  exact List.map_congr_left (fun i hi => h i (by simpa using hi))

theorem range_getD (ws : List Val) : (List.range ws.length).map (fun i => ws.getD i .trap) = ws := by
  refine List.ext_getElem (by simp) ?_
  intro i h1 h2
  simp at h1
  simp [h1]

mutual
/-- the value of a transparent expression after the reduction. -/
theorem te_target (hQ : FairOrder C.Q) {σ σt : Store W} (hs : SR C k σ σt) : {e : Exp} → {ρ : Env} → {v : Val} → TE C.M k.G e ρ v →
    Clean C.R e → Ok C.M C.R false e → ∀ {S : Id → Prop} {ρt : Env}, (∀ y, Free y e → S y) → ER C k false S ρ ρt →
    ∃ w, VR C k v w ∧ ∀ κ', Move (gstep C.M C.Q) (.ev e ρt κ' σt) (.ret w κ' σt)
  | .var x, ρ, v, .var hg hl, hc, _, S, ρt, hS, he => by
    cases hc with
    | var hn =>
      obtain ⟨w, hw⟩ := he.ex x v (hS x .var) hn hl
      exact ⟨w, he.all x v w (hS x .var) hn hl hw, fun κ' => .one (by simp [gstep, step, hg, hw])⟩
  | .var x, ρ, v, .gvar hg hl, _, _, S, ρt, _, _ => by
    have hg' : x.isGlobal = true := by simp only [Id.isGlobalConst, Bool.and_eq_true] at hg; exact hg.1
    rw [hs.const x hg] at hl
    rcases hs.glob x with ⟨h1, _⟩ | ⟨v', w, h1, h2, h3⟩
    · rw [h1] at hl; cases hl
    · rw [h1] at hl; injection hl with hl; subst hl
      exact ⟨w, h3, fun κ' => .one (by simp [gstep, step, hg', h2])⟩
  | .ite a b c, ρ, v, .iteT h1 h2 h3, hc, ho, S, ρt, hS, he => by
    cases hc with | ite c1 c2 c3 => cases ho with | ite o1 o2 o3 =>
    obtain ⟨u, hu, mu⟩ := te_target hQ hs h1 c1 o1 (fun y hy => hS y (.iteA _ _ hy)) he
    obtain ⟨w, hw, mw⟩ := te_target hQ hs h3 c2 o2 (fun y hy => hS y (.iteB _ _ hy)) he
    refine ⟨w, hw, fun κ' => ?_⟩
    rw [hu.false] at h2
    have q1 : Quiet (gstep C.M C.Q) (.ev (.ite a b c) ρt κ' σt) (.ret u (.ite b c ρt κ') σt) := .step rfl rfl ((mu (.ite b c ρt κ')).quiet rfl)
    exact Move.before (q1.trans (.one (b := .ev b ρt κ' σt) (by simp [gstep, step, h2]) rfl)) (mw κ')
  | .ite a b c, ρ, v, .iteF h1 h2 h3, hc, ho, S, ρt, hS, he => by
    cases hc with | ite c1 c2 c3 => cases ho with | ite o1 o2 o3 =>
    obtain ⟨u, hu, mu⟩ := te_target hQ hs h1 c1 o1 (fun y hy => hS y (.iteA _ _ hy)) he
    obtain ⟨w, hw, mw⟩ := te_target hQ hs h3 c3 o3 (fun y hy => hS y (.iteC _ _ hy)) he
    refine ⟨w, hw, fun κ' => ?_⟩
    rw [hu.false] at h2
    have q1 : Quiet (gstep C.M C.Q) (.ev (.ite a b c) ρt κ' σt) (.ret u (.ite b c ρt κ') σt) := .step rfl rfl ((mu (.ite b c ρt κ')).quiet rfl)
    exact Move.before (q1.trans (.one (b := .ev c ρt κ' σt) (by simp [gstep, step, h2]) rfl)) (mw κ')
  | .prim eff p es, ρ, v, .prim h1 h2 h3, hc, ho, S, ρt, hS, he => by
    cases hc with | prim c1 => cases ho with | prim o1 =>
    obtain ⟨ws, hws, hl, mv⟩ := tes_target hQ hs h1 c1 o1 (fun y ⟨e, h, hy⟩ => hS y (.prim _ _ h hy)) he
    obtain ⟨w, hw, hp⟩ := pure_rel h2 hws hs h3
    refine ⟨w, hw, fun κ' => ?_⟩
    obtain ⟨d, hd, q⟩ := args_known (op := .prim eff p) (f := fun i => ws.getD i .trap) (fun i e hi κ => mv i e hi κ) κ' (C.Q (.prim eff p) es)
      (fun _ => .trap) (fair_lt hQ _ _) (fun i hi hil => absurd (((hQ (.prim eff p) es).mem_iff (a := i)).mpr (by simpa using hil)) hi)
    refine Move.before (Quiet.step rfl rfl q) (.one ?_)
    have hv : vals d es.length = ws := by rw [vals_known hd, ← hl]; exact range_getD ws
    simp only [gstep, step, hv, hp]
  | .lam ids b, ρ, _, .lam (ρ0 := ρ0) h, hc, ho, S, ρt, hS, he => by
    cases hc with | lam c1 => cases ho with | lam o1 o2 =>
    refine ⟨.clos ids b ρt, ?_, fun κ' => .one rfl⟩
    have := VR.clos (C := C) (k := k) (fl := false) (S := fun y => Free y (.lam ids b)) (ρ := ρ0) (ρt := ρt) o1 o2 (fun y hy => hy)
      (fun y v hy hn hl => he.ex y v (hS y hy) hn (by rw [← h y hy]; exact hl))
      (fun y v w hy hn hl hw => he.all y v w (hS y hy) hn (by rw [← h y hy]; exact hl) hw) (fun hf => by cases hf)
    rw [c1.T] at this
    exact this
  | .app (.lam ids b) es, ρ, v, .letE (vs := vs) h1 h2 h3, hc, ho, S, ρt, hS, he => by
    cases hc with | app c0 c1 c2 => cases c1 with | lam c1 =>
    have hgo : (∀ y ∈ ids, Good C.R false y) ∧ Ok C.M C.R false b ∧ ∀ e ∈ es, Ok C.M C.R false e := by
      cases ho with
      | app _ o1 o2 => cases o1 with | lam o1 o3 => exact ⟨o1, o3, o2⟩
      | null hm _ => simp [isRedex, hm] at c0
      | idl hm hi => simp [isRedex, hm, hi] at c0
      | lets hm hi => simp [isRedex, hm, hi] at c0
    obtain ⟨o1, o3, o2⟩ := hgo
    obtain ⟨ws, hws, hl, mv⟩ := tes_target hQ hs h1 c2 o2 (fun y ⟨e, h, hy⟩ => hS y (.appA _ h hy)) he
    have hb := he.bind o1 hws h2
    obtain ⟨w, hw, mw⟩ := te_target hQ hs h3 c1 o3 (fun y hy => by
      by_cases hm : y ∈ ids
      · exact Or.inr hm
      · exact Or.inl (hS y (.appF _ (.lam hm hy)))) hb
    refine ⟨w, hw, fun κ' => ?_⟩
    obtain ⟨d, hd, q⟩ := args_known (M := C.M) (ord := C.Q) (ρ := ρt) (σ := σt) (op := .call) (es := .lam ids b :: es)
      (f := fun i => match i with | 0 => .clos ids b ρt | i + 1 => ws.getD i .trap)
      (fun i e hi κ => by
        cases i with
        | zero => simp only [List.getElem?_cons_zero, Option.some.injEq] at hi; subst hi; exact .one rfl rfl
        | succ i => exact mv i e (by simpa using hi) κ) κ' (C.Q .call (.lam ids b :: es))
      (fun _ => .trap) (fair_lt hQ _ _) (fun i hi hil => absurd (((hQ .call (.lam ids b :: es)).mem_iff (a := i)).mpr (by simpa using hil)) hi)
    have hv : vals d (es.length + 1) = .clos ids b ρt :: ws := by
      rw [show es.length + 1 = (Exp.lam ids b :: es).length from rfl, vals_known hd, List.length_cons, List.range_succ_eq_map, List.map_cons, List.map_map, ← hl]
      exact congrArg _ (range_getD ws)
    have hl2 : ids.length = ws.length := by rw [h2]; exact hws.length_eq
    have q1 : Quiet (gstep C.M C.Q) (.ev (.app (.lam ids b) es) ρt κ' σt) (.args .call (.lam ids b :: es) d [] ρt κ' σt) := .step rfl rfl q
    exact Move.before (q1.trans (.step (b := .ap (.clos ids b ρt) ws κ' σt) (by simp only [gstep, step, List.length_cons, hv]) rfl
      (.one (b := .ev b (bindAll ids ws ρt) κ' σt) (by simp only [gstep, step]; rw [if_pos hl2]) rfl))) (mw κ')
theorem tes_target (hQ : FairOrder C.Q) {σ σt : Store W} (hs : SR C k σ σt) : {es : List Exp} → {ρ : Env} → {vs : List Val} → TEs C.M k.G es ρ vs →
    (∀ e ∈ es, Clean C.R e) → (∀ e ∈ es, Ok C.M C.R false e) → ∀ {S : Id → Prop} {ρt : Env}, (∀ y, (∃ e ∈ es, Free y e) → S y) → ER C k false S ρ ρt →
    ∃ ws, List.Forall₂ (VR C k) vs ws ∧ ws.length = es.length ∧
      ∀ (i : Nat) (e : Exp), es[i]? = some e → ∀ κ', Quiet (gstep C.M C.Q) (.ev e ρt κ' σt) (.ret (ws.getD i .trap) κ' σt)
  | _, _, _, .nil, _, _, _, _, _, _ => ⟨[], .nil, rfl, fun i e h => by simp at h⟩
  | _, _, _, .cons h1 h2, hc, ho, S, ρt, hS, he => by
    obtain ⟨w, hw, mw⟩ := te_target hQ hs h1 (hc _ (by simp)) (ho _ (by simp)) (fun y hy => hS y ⟨_, by simp, hy⟩) he
    obtain ⟨ws, hws, hl, mv⟩ := tes_target hQ hs h2 (fun e h => hc e (by simp [h])) (fun e h => ho e (by simp [h])) (fun y ⟨e, h, hy⟩ => hS y ⟨e, by simp [h], hy⟩) he
    refine ⟨w :: ws, .cons hw hws, by simp [hl], fun i e hi κ' => ?_⟩
    cases i with
    | zero => simp only [List.getElem?_cons_zero, Option.some.injEq] at hi; subst hi; exact (mw κ').quiet rfl
    | succ i => simpa using mv i e (by simpa using hi) κ'
end

end Verif.Beta

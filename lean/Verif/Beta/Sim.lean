import Verif.Beta.Envs
/-
A program and the reduced program run in step (C36).
-/
namespace Verif.Beta
open Verif.Core
variable {W : Type} {C : Ctx W} {k k' : Kn}

/-- the machine before the reduction. -/
abbrev Ctx.F (C : Ctx W) : State W → Option (State W) := gstep C.M (srcOrd C.R C.Q)
/-- the machine after the reduction. -/
abbrev Ctx.H (C : Ctx W) : State W → Option (State W) := gstep C.M C.Q

/-- `s` fails, both finish alike, or both get to related states. -/
def Out (C : Ctx W) (s t : State W) : Prop :=
  Fails C.F s ∨ (∃ v v' w, Quiet C.F s (.done v w) ∧ Quiet C.H t (.done v' w) ∧ v.view = v'.view) ∨
  (∃ s' t', Move C.F s s' ∧ Move C.H t t' ∧ Sync C s' t')

theorem Out.src {s s' t : State W} (h : Quiet C.F s s') (ho : Out C s' t) : Out C s t := by
  rcases ho with hf | ⟨v, v', w, h1, h2, hv⟩ | ⟨a, b, h1, h2, hs⟩
  · exact Or.inl (hf.of_reach h.reach)
  · exact Or.inr (Or.inl ⟨v, v', w, h.trans h1, h2, hv⟩)
  · exact Or.inr (Or.inr ⟨a, b, h1.before h, h2, hs⟩)

theorem Out.sync {s s' t t' : State W} (h1 : C.F s = some s') (h2 : C.H t = some t') (hs : Sync C s' t') : Out C s t :=
  Or.inr (Or.inr ⟨s', t', .one h1, .one h2, hs⟩)

theorem Out.moves {s s' t t' : State W} (h1 : Move C.F s s') (h2 : Move C.H t t') (hs : Sync C s' t') : Out C s t :=
  Or.inr (Or.inr ⟨s', t', h1, h2, hs⟩)

theorem Out.fail {s t : State W} (h : C.F s = none) (hd : ∀ v w, s ≠ .done v w) : Out C s t := Or.inl (Fails.now h hd)

theorem Ts_get {R : Redex} {es : List Exp} {i : Nat} : (Ts R es)[i]? = es[i]?.map (T R) := by rw [Ts_eq, List.getElem?_map]

theorem kp_lt {α : Type} {kp : List Nat} {g : Option Nat} {es : List α} (hp : (g.toList ++ kp).Perm (List.range es.length)) :
    (∀ i ∈ kp, i < es.length) ∧ kp.Nodup ∧ (∀ i, g = some i → i < es.length ∧ i ∉ kp) := by
  have hn := hp.nodup_iff.mpr List.nodup_range
  refine ⟨fun i hi => ?_, ?_, fun i hg => ?_⟩
  · have := (hp.mem_iff (a := i)).mp (by simp [hi]); simpa using this
  · exact (List.nodup_append.mp hn).2.1
  · subst hg
    refine ⟨?_, ?_⟩
    · have := (hp.mem_iff (a := i)).mp (by simp); simpa using this
    · simp at hn; exact hn.1

/-- bindings put into another order. -/
theorem lookup_pick {d : Nat → Val} {y : Id} {ids : List Id} {kp : List Nat} {ρ : Env} (hn : ids.Nodup) (hk : ∀ i ∈ kp, i < ids.length) (hkn : kp.Nodup) {l i : Nat}
    (hl : kp[l]? = some i) (hy : ids[i]? = some y) : (bindAll (pick ids kp) ((List.range kp.length).map (fun j => d j)) ρ).lookup y = some (d l) := by
  induction kp generalizing l d with
  | nil => simp at hl
  | cons i0 kp ih =>
    have hi0 := hk i0 (by simp)
    have e : pick ids (i0 :: kp) = ids[i0] :: pick ids kp := by simp [pick, List.getElem?_eq_getElem hi0]
    rw [e, List.length_cons, List.range_succ_eq_map, List.map_cons, List.map_map]
    simp only [bindAll, Env.lookup]
    cases l with
    | zero =>
      simp at hl; subst hl
      rw [List.getElem?_eq_getElem hi0] at hy; injection hy with hy
      rw [if_pos hy.symm]
    | succ l =>
      simp only [List.getElem?_cons_succ] at hl
      have hne : y ≠ ids[i0] := by
        intro e
        have hi := lt_of_get hy
        rw [List.getElem?_eq_getElem hi] at hy; injection hy with hy
        have : i = i0 := (List.Nodup.getElem_inj_iff hn).mp (by rw [hy, e])
        subst this
        exact (List.nodup_cons.mp hkn).1 (List.mem_of_getElem? hl)
      rw [if_neg hne]
      exact ih (d := fun j => d (j + 1)) (fun j hj => hk j (by simp [hj])) (List.nodup_cons.mp hkn).2 hl

theorem pick_mem {α : Type} {ids : List α} {kp : List Nat} {y : α} (h : y ∈ pick ids kp) : y ∈ ids := by
  simp only [pick, List.mem_filterMap] at h
  obtain ⟨i, _, hi⟩ := h
  exact List.mem_of_getElem? hi

theorem lookup_all {d : Nat → Val} {y : Id} {ρ : Env} : ∀ {ids : List Id} {i : Nat}, ids.Nodup → ids[i]? = some y →
    ∀ {d : Nat → Val}, (bindAll ids ((List.range ids.length).map (fun j => d j)) ρ).lookup y = some (d i) := by
  intro ids
  induction ids with
  | nil => intro i _ h; simp at h
  | cons x ids ih =>
    intro i hn hy d
    rw [List.length_cons, List.range_succ_eq_map, List.map_cons, List.map_map]
    simp only [bindAll, Env.lookup]
    cases i with
    | zero => simp at hy; rw [if_pos hy.symm]
    | succ i =>
      simp only [List.getElem?_cons_succ] at hy
      have hne : y ≠ x := fun e => (List.nodup_cons.mp hn).1 (e ▸ List.mem_of_getElem? hy)
      rw [if_neg hne]
      exact ih (List.nodup_cons.mp hn).2 hy (d := fun j => d (j + 1))

/-! ### evaluation -/

theorem ev_ok (hQ : FairOrder C.Q) : (e : Exp) → ∀ {k : Kn} {fl : Bool} {S : Id → Prop} {ρ ρt : Env} {κ κ' : Kont} {σ σt : Store W},
    Ok C.M C.R fl e → (∀ y, Free y e → S y) → ER C k fl S ρ ρt → KR C k κ κ' → SR C k σ σt →
    Out C (.ev e ρ κ σ) (.ev (T C.R e) ρt κ' σt)
  | .var x, k, fl, S, ρ, ρt, κ, κ', σ, σt, ho, hS, he, hk, hs => by
    cases ho with
    | var ho =>
      by_cases hg : C.R.goneId = some x
      · obtain ⟨hfl, hsub⟩ := ho hg
        obtain ⟨r, hr⟩ := Option.isSome_iff_exists.mp hsub
        obtain ⟨⟨h1, h2, h3⟩, y, v, ⟨h4, h5⟩, h6, h7⟩ := he.sub hfl r hr
        rw [hg] at h4; injection h4 with h4; subst h4
        obtain ⟨w, hw, mw⟩ := te_target hQ hs h7 h2 h3 h1 he.flag
        have e1 : T C.R (.var x) = r := by simp [T, hg, hr]
        rw [e1]
        exact .moves (.one (b := .ret v κ σ) (by simp [gstep, step, h5, h6])) (mw κ') (.ret hw hk hs)
      · have e1 : T C.R (.var x) = .var x := by simp [T, hg]
        rw [e1]
        cases hgl : x.isGlobal with
        | true =>
          rcases hs.glob x with ⟨h1, _⟩ | ⟨v, w, h1, h2, h3⟩
          · exact .fail (by simp [gstep, step, hgl, h1]) (fun _ _ => by simp)
          · exact .sync (s' := .ret v κ σ) (t' := .ret w κ' σt) (by simp [gstep, step, hgl, h1]) (by simp [gstep, step, hgl, h2]) (.ret h3 hk hs)
        | false =>
          cases hl : ρ.lookup x with
          | none => exact .fail (by simp [gstep, step, hgl, hl]) (fun _ _ => by simp)
          | some v =>
            obtain ⟨w, hw⟩ := he.ex x v (hS x .var) hg hl
            exact .sync (s' := .ret v κ σ) (t' := .ret w κ' σt) (by simp [gstep, step, hgl, hl]) (by simp [gstep, step, hgl, hw])
              (.ret (he.all x v w (hS x .var) hg hl hw) hk hs)
  | .set x e, k, fl, S, ρ, ρt, κ, κ', σ, σt, ho, hS, he, hk, hs => by
    cases ho with
    | set ho =>
      rw [T]
      cases hg : x.isGlobal with
      | true =>
        exact .sync (s' := .ev e ρ (.set x κ) σ) (t' := .ev (T C.R e) ρt (.set x κ') σt) (by simp [gstep, step, hg]) (by simp [gstep, step, hg])
          (.ev ho (fun y hy => hS y (.set x hy)) he (.set hk) hs)
      | false => exact .fail (by simp [gstep, step, hg]) (fun _ _ => by simp)
  | .ite a b c, k, fl, S, ρ, ρt, κ, κ', σ, σt, ho, hS, he, hk, hs => by
    cases ho with
    | ite o1 o2 o3 =>
      rw [T]
      exact .sync (s' := .ev a ρ (.ite b c ρ κ) σ) (t' := .ev (T C.R a) ρt (.ite (T C.R b) (T C.R c) ρt κ') σt) rfl rfl
        (.ev o1 (fun y hy => hS y (.iteA _ _ hy)) he
          (.ite o2 o3 (fun y hy => hS y (hy.elim (fun h => .iteB _ _ h) (fun h => .iteC _ _ h))) he.ex he.all he.sub hk) hs)
  | .prim eff p es, k, fl, S, ρ, ρt, κ, κ', σ, σt, ho, hS, he, hk, hs => by
    cases ho with
    | prim o1 =>
      rw [T]
      exact .sync (s' := .args (.prim eff p) es (fun _ => .trap) (C.Q (.prim eff p) (Ts C.R es)) ρ κ σ)
        (t' := .args (.prim eff p) (Ts C.R es) (fun _ => .trap) (C.Q (.prim eff p) (Ts C.R es)) ρt κ' σt) rfl rfl
        (.args o1 (fun y ⟨e, h, hy⟩ => hS y (.prim _ _ h hy)) he (fun _ => .trap) hk hs)
  | .lam ids b, k, fl, S, ρ, ρt, κ, κ', σ, σt, ho, hS, he, hk, hs => by
    cases ho with
    | lam o1 o2 =>
      rw [T]
      exact .sync (s' := .ret (.clos ids b ρ) κ σ) (t' := .ret (.clos ids (T C.R b) ρt) κ' σt) rfl rfl (.ret (.clos o1 o2 hS he.ex he.all he.sub) hk hs)
  | .fix ids lams b, k, fl, S, ρ, ρt, κ, κ', σ, σt, ho, hS, he, hk, hs => by
    cases ho with
    | fix o1 o2 o3 =>
      rw [T]
      refine .sync (s' := .ev b (.fix ids lams ρ) κ σ) (t' := .ev (T C.R b) (.fix ids (Ts C.R lams) ρt) κ' σt) rfl rfl
        (.ev o3 ?_ (he.fix o1 o2 (fun y ⟨l, h, hy⟩ hn => hS y (.fixL _ hn h hy))) hk hs)
      intro y hy
      by_cases hm : y ∈ ids
      · exact Or.inr hm
      · exact Or.inl (hS y (.fixB _ hm hy))
  | .letcc x b, k, fl, S, ρ, ρt, κ, κ', σ, σt, ho, hS, he, hk, hs => by
    cases ho with
    | letcc o1 o2 =>
      rw [T]
      refine .sync (s' := .ev b (bindAll [x] [.cont κ] ρ) κ σ) (t' := .ev (T C.R b) (bindAll [x] [.cont κ'] ρt) κ' σt) rfl rfl
        (.ev o2 ?_ (he.bind (ids := [x]) (by simpa using o1) (.cons (.cont hk) .nil) rfl) hk hs)
      intro y hy
      by_cases hm : y = x
      · exact Or.inr (by simp [hm])
      · exact Or.inl (hS y (.letcc hm hy))
  | .withcc c e, k, fl, S, ρ, ρt, κ, κ', σ, σt, ho, hS, he, hk, hs => by
    cases ho with
    | withcc o1 o2 =>
      rw [T]
      exact .sync (s' := .ev c ρ (.withcc e ρ) σ) (t' := .ev (T C.R c) ρt (.withcc (T C.R e) ρt) σt) rfl rfl
        (.ev o1 (fun y hy => hS y (.withccK _ hy)) he (.withcc o2 (fun y hy => hS y (.withccE _ hy)) he.ex he.all he.sub) hs)
  | .app f es, k, fl, S, ρ, ρt, κ, κ', σ, σt, ho, hS, he, hk, hs => by
    cases ho with
    | app hr o1 o2 =>
      have e1 : T C.R (.app f es) = .app (T C.R f) (Ts C.R es) := by simp [T, hr]
      rw [e1]
      refine .sync (s' := .args .call (f :: es) (fun _ => .trap) (C.Q .call (T C.R f :: Ts C.R es)) ρ κ σ)
        (t' := .args .call (Ts C.R (f :: es)) (fun _ => .trap) (C.Q .call (T C.R f :: Ts C.R es)) ρt κ' σt) ?_ rfl ?_
      · simp only [gstep, step, srcOrd, hr]; rfl
      · refine .args (fun e h => ?_) (fun y ⟨e, h, hy⟩ => ?_) he (fun _ => .trap) hk hs
        · rcases List.mem_cons.mp h with h | h
          · rw [h]; exact o1
          · exact o2 e h
        · rcases List.mem_cons.mp h with h | h
          · subst h; exact hS y (.appF _ hy)
          · exact hS y (.appA _ h hy)
    | null hm o1 =>
      rename_i b
      have hr : isRedex C.R (.lam [] b) [] = true := by simp [isRedex, hm]
      have e1 : T C.R (.app (.lam [] b) []) = T C.R b := by simp [T, Ts, hr, image, hm, lamBody]
      rw [e1]
      have q : Quiet C.F (.ev (.app (.lam [] b) []) ρ κ σ) (.ev b ρ κ σ) := by
        refine .step (b := .args .call [.lam [] b] (fun _ => .trap) [0] ρ κ σ) ?_ rfl (.step rfl rfl (.step rfl rfl (.step rfl rfl (.step rfl rfl (.one rfl rfl)))))
        simp only [gstep, step, srcOrd, hr, hm]; rfl
      exact .src q (ev_ok hQ b o1 (fun y hy => hS y (.appF _ (.lam (by simp) hy))) he hk hs)
    | idl hm hi hx o1 =>
      rename_i x e
      have hr : isRedex C.R (.lam [x] (.var x)) [e] = true := by simp [isRedex, hm, hi]
      have e1 : T C.R (.app (.lam [x] (.var x)) [e]) = T C.R e := by simp [T, Ts, hr, image, hm]
      rw [e1]
      have q : Quiet C.F (.ev (.app (.lam [x] (.var x)) [e]) ρ κ σ)
          (.ev e ρ (.args .call [.lam [x] (.var x), e] (upd (fun _ => .trap) 0 (.clos [x] (.var x) ρ)) 1 [] ρ κ) σ) := by
        refine .step (b := .args .call [.lam [x] (.var x), e] (fun _ => .trap) [0, 1] ρ κ σ) ?_ rfl (.step rfl rfl (.step rfl rfl (.step rfl rfl (.one rfl rfl))))
        simp only [gstep, step, srcOrd, hr, hm]; rfl
      exact .src q (ev_ok hQ e o1 (fun y hy => hS y (.appA _ (by simp) hy)) he (.idlet hx rfl hk) hs)
    | lets hm hi hfl hlet o1 o2 =>
      rename_i kp b ids
      subst hi; subst hfl
      have hr : isRedex C.R (.lam C.R.ids b) es = true := by simp [isRedex, hm]
      have e1 : T C.R (.app (.lam C.R.ids b) es) = .app (.lam (pick C.R.ids kp) (T C.R b)) (pick (Ts C.R es) kp) := by simp [T, hr, image, hm, lamBody]
      rw [e1]
      have ⟨hlt, hkn, hgone⟩ := kp_lt hlet.perm
      have hlen : (pick (Ts C.R es) kp).length = kp.length := pick_length (by rw [Ts_length]; exact hlt)
      -- the order
      generalize hq : C.Q .call (.lam (pick C.R.ids kp) (T C.R b) :: pick (Ts C.R es) kp) = todo
      have hperm := hQ .call (.lam (pick C.R.ids kp) (T C.R b) :: pick (Ts C.R es) kp)
      rw [hq, List.length_cons, hlen] at hperm
      have ht1 : ∀ l ∈ todo, l < kp.length + 1 := fun l hl => by simpa using (hperm.mem_iff (a := l)).mp hl
      have ht2 : todo.Nodup := hperm.nodup_iff.mpr List.nodup_range
      have ht3 : 0 ∈ todo := (hperm.mem_iff (a := 0)).mpr (by simp)
      have ht4 : ∀ l, l < kp.length → l + 1 ∈ todo := fun l hl => (hperm.mem_iff (a := l + 1)).mpr (by simp [hl])
      have s1 : C.F (.ev (.app (.lam C.R.ids b) es) ρ κ σ) =
          some (.args .call (.lam C.R.ids b :: es) (fun _ => .trap) (C.R.gone.toList.map (· + 1) ++ todo.map (emb kp)) ρ κ σ) := by
        simp only [gstep, step, srcOrd, hr, hm, if_true, if_pos hlet.perm, T, lamBody, hq]
      have t1 : C.H (.ev (.app (.lam (pick C.R.ids kp) (T C.R b)) (pick (Ts C.R es) kp)) ρt κ' σt) =
          some (.args .call (.lam (pick C.R.ids kp) (T C.R b) :: pick (Ts C.R es) kp) (fun _ => .trap) todo ρt κ' σt) := by
        simp only [gstep, step, hq]
      have hkeep : ∀ {k : Kn} {d : Nat → Val} (l i : Nat), kp[l]? = some i → l + 1 ∉ todo → VR C k (d (i + 1)) ((fun _ => Val.trap) (l + 1)) :=
        fun l i h1 h2 => absurd (ht4 l (lt_of_get h1)) h2
      cases hg : C.R.gone with
      | none =>
        rw [hg] at s1
        exact .sync s1 t1 (.letf (S := S) hm hlet o1 o2 hS he (fun i r h => by rw [hg] at h; cases h) (fun l i => hkeep (d := fun _ => .trap) l i) (Or.inl ht3) ht1 ht2 hk hs)
      | some i =>
        rw [hg] at s1
        obtain ⟨hi, hik⟩ := hgone i hg
        have s2 : C.F (.args .call (.lam C.R.ids b :: es) (fun _ => .trap) ((i + 1) :: todo.map (emb kp)) ρ κ σ) =
            some (.ev es[i] ρ (.args .call (.lam C.R.ids b :: es) (fun _ => .trap) (i + 1) (todo.map (emb kp)) ρ κ) σ) := by
          simp only [gstep, step, List.getElem?_cons_succ, List.getElem?_eq_getElem hi]
        have q0 : Quiet C.F (.ev (.app (.lam C.R.ids b) es) ρ κ σ)
            (.ev es[i] ρ (.args .call (.lam C.R.ids b :: es) (fun _ => .trap) (i + 1) (todo.map (emb kp)) ρ κ) σ) :=
          .step s1 rfl (.one s2 rfl)
        cases hsb : C.R.sub with
        | none =>
          rcases rem_eval (srcOrd_fair hQ) (hlet.rem i _ hg (List.getElem?_eq_getElem hi) hsb) ρ _ σ with hf | ⟨v, xs, q⟩
          · exact Or.inl (hf.of_reach q0.reach)
          · have hx := Ext.append k (List.replicate xs.length none)
            refine .moves (s' := .args .call (.lam C.R.ids b :: es) (upd (fun _ => .trap) (i + 1) v) (todo.map (emb kp)) ρ κ (grow σ xs))
              (Move.before (q0.trans q) (.one rfl)) (.one t1)
              (.letf (S := S) hm hlet o1 o2 hS (he.mono hx) (fun i r _ h => by rw [hsb] at h; cases h) (fun l i => hkeep l i) (Or.inl ht3) ht1 ht2 (hk.mono hx) (hs.grow xs))
        | some r =>
          obtain ⟨hr1, hr2, hr3⟩ := hlet.sub i _ r hg (List.getElem?_eq_getElem hi) hsb
          rcases tr_eval (srcOrd_fair hQ) (G := k.G) hr2 ρ (.args .call (.lam C.R.ids b :: es) (fun _ => .trap) (i + 1) (todo.map (emb kp)) ρ κ) σ hs.const with hf | ⟨v, hv, q⟩
          · exact Or.inl (hf.of_reach q0.reach)
          · refine .moves (s' := .args .call (.lam C.R.ids b :: es) (upd (fun _ => .trap) (i + 1) v) (todo.map (emb kp)) ρ κ σ)
              (Move.before (q0.trans q) (.one rfl)) (.one t1)
              (.letf (S := S) hm hlet o1 o2 hS he (fun i' r' h1 h2 => ?_) (fun l i => hkeep l i) (Or.inl ht3) ht1 ht2 hk hs)
            rw [hg] at h1; injection h1 with h1; subst h1
            rw [hsb] at h2; injection h2 with h2; subst h2
            simp only [upd, if_true]; rw [hr1]; exact hv

theorem args_ok {fl : Bool} {S : Id → Prop} {op : Op} {es : List Exp} {d d' : Nat → Val} {todo : List Nat} {ρ ρt : Env} {κ κ' : Kont}
    {σ σt : Store W} (ho : ∀ e ∈ es, Ok C.M C.R fl e) (hS : ∀ y, (∃ e ∈ es, Free y e) → S y) (he : ER C k fl S ρ ρt) (hd : ∀ j, VR C k (d j) (d' j))
    (hk : KR C k κ κ') (hs : SR C k σ σt) : Out C (.args op es d todo ρ κ σ) (.args op (Ts C.R es) d' todo ρt κ' σt) := by
  cases todo with
  | cons i todo =>
    cases hi : es[i]? with
    | none => exact .fail (by cases op <;> simp [gstep, step, hi]) (fun _ _ => by simp)
    | some e =>
      have hm := List.mem_of_getElem? hi
      exact .sync (s' := .ev e ρ (.args op es d i todo ρ κ) σ) (t' := .ev (T C.R e) ρt (.args op (Ts C.R es) d' i todo ρt κ') σt)
        (by cases op <;> simp [gstep, step, hi]) (by cases op <;> simp [gstep, step, Ts_get, hi])
        (.ev (ho e hm) (fun y hy => hS y ⟨e, hm, hy⟩) he (.args ho hS he.ex he.all he.sub hd hk) hs)
  | nil =>
    cases op with
    | prim eff p =>
      rcases doPrim_rel (M := C.M) (p := p) (forall₂_vals hd es.length) hs with h1 | ⟨u, w, h1, h2, h3⟩ | ⟨k', u, w, σ', σt', h1, h2, h3, h4, h5⟩
      · exact .fail (by simp [gstep, step, h1]) (fun _ _ => by simp)
      · exact Or.inr (Or.inl ⟨u, w, σ.world, .one (by simp [gstep, step, h1]) rfl, .one (by simp [gstep, step, Ts_length, h2, hs.world]) hs.world, h3.view⟩)
      · exact .sync (s' := .ret u κ σ') (t' := .ret w κ' σt') (by simp [gstep, step, h1]) (by simp [gstep, step, Ts_length, h2]) (.ret h4 (hk.mono h3.1) h5)
    | call =>
      have hv := forall₂_vals hd es.length
      generalize h1 : vals d es.length = vs at hv
      generalize h2 : vals d' es.length = ws at hv
      cases hv with
      | nil => exact .fail (by simp [gstep, step, h1]) (fun _ _ => by simp)
      | cons hf hv =>
        rename_i f g vs ws
        exact .sync (s' := .ap f vs κ σ) (t' := .ap g ws κ' σt) (by simp [gstep, step, h1]) (by simp [gstep, step, Ts_length, h2]) (.ap hf hv hk hs)

theorem emb_inj {kp : List Nat} (hn : kp.Nodup) {a b : Nat} (ha : a < kp.length + 1) (hb : b < kp.length + 1) (h : emb kp a = emb kp b) : a = b := by
  cases a with
  | zero => cases b with
    | zero => rfl
    | succ b => simp [emb] at h
  | succ a => cases b with
    | zero => simp [emb] at h
    | succ b =>
      have ha : a < kp.length := by omega
      have hb : b < kp.length := by omega
      simp only [emb, Nat.add_right_cancel_iff, List.getD_eq_getElem?_getD, List.getElem?_eq_getElem ha, List.getElem?_eq_getElem hb, Option.getD_some] at h
      rw [(List.Nodup.getElem_inj_iff hn).mp h]

theorem letf_ok {S : Id → Prop} {kp : List Nat} {b : Exp} {es : List Exp} {d d' : Nat → Val} {todo : List Nat} {ρ ρt : Env} {κ κ' : Kont}
    {σ σt : Store W} (hm : C.R.mode = .lets kp) (hlet : LetOk C.M C.R kp es) (o1 : ∀ e ∈ es, Ok C.M C.R false e) (o2 : Ok C.M C.R true b)
    (hS : ∀ y, Free y (.app (.lam C.R.ids b) es) → S y) (he : ER C k false S ρ ρt)
    (hte : ∀ (i : Nat) (r : Exp), C.R.gone = some i → C.R.sub = some r → TE C.M k.G r ρ (d (i + 1)))
    (hd : ∀ (l i : Nat), kp[l]? = some i → (l + 1 ∉ todo → VR C k (d (i + 1)) (d' (l + 1))))
    (h0 : 0 ∈ todo ∨ (d 0 = .clos C.R.ids b ρ ∧ d' 0 = .clos (pick C.R.ids kp) (T C.R b) ρt))
    (ht1 : ∀ l ∈ todo, l < kp.length + 1) (ht2 : todo.Nodup) (hk : KR C k κ κ') (hs : SR C k σ σt) :
    Out C (.args .call (.lam C.R.ids b :: es) d (todo.map (emb kp)) ρ κ σ)
        (.args .call (.lam (pick C.R.ids kp) (T C.R b) :: pick (Ts C.R es) kp) d' todo ρt κ' σt) := by
  have ⟨hlt, hkn, hgone⟩ := kp_lt hlet.perm
  have hlen : (pick (Ts C.R es) kp).length = kp.length := pick_length (by rw [Ts_length]; exact hlt)
  cases todo with
  | cons j todo =>
    have hj := ht1 j (by simp)
    have hnd := List.nodup_cons.mp ht2
    cases j with
    | zero =>
      refine .moves (s' := .args .call (.lam C.R.ids b :: es) (upd d 0 (.clos C.R.ids b ρ)) (todo.map (emb kp)) ρ κ σ)
        (t' := .args .call (.lam (pick C.R.ids kp) (T C.R b) :: pick (Ts C.R es) kp) (upd d' 0 (.clos (pick C.R.ids kp) (T C.R b) ρt)) todo ρt κ' σt)
        ⟨_, .step rfl rfl (.step rfl rfl (.refl _)), rfl⟩ ⟨_, .step rfl rfl (.step rfl rfl (.refl _)), rfl⟩
        (.letf (S := S) hm hlet o1 o2 hS he (fun i r h1 h2 => by simpa [upd] using hte i r h1 h2) (fun l i h1 h2 => ?_) (Or.inr ⟨by simp [upd], by simp [upd]⟩)
          (fun l hl => ht1 l (by simp [hl])) hnd.2 hk hs)
      simp only [upd, Nat.add_one_ne_zero, if_false]
      exact hd l i h1 (by simpa using h2)
    | succ j =>
      have hjl : j < kp.length := by omega
      have hki : kp[j]? = some kp[j] := List.getElem?_eq_getElem hjl
      have hil := hlt kp[j] (List.getElem_mem hjl)
      have e1 : emb kp (j + 1) = kp[j] + 1 := by simp [emb, hjl]
      have g2 : (pick (Ts C.R es) kp)[j]? = some (T C.R es[kp[j]]) := by
        rw [pick_get (by rw [Ts_length]; exact hlt) j _ hki, Ts_get, List.getElem?_eq_getElem hil]; rfl
      refine .sync (s' := .ev es[kp[j]] ρ (.args .call (.lam C.R.ids b :: es) d (emb kp (j + 1)) (todo.map (emb kp)) ρ κ) σ)
        (t' := .ev (T C.R es[kp[j]]) ρt (.args .call (.lam (pick C.R.ids kp) (T C.R b) :: pick (Ts C.R es) kp) d' (j + 1) todo ρt κ') σt) ?_ ?_ ?_
      · simp only [List.map_cons, gstep, step, e1, List.getElem?_cons_succ, List.getElem?_eq_getElem hil]
      · simp only [gstep, step, List.getElem?_cons_succ, g2]
      · exact .ev (o1 _ (List.getElem_mem hil)) (fun y hy => hS y (.appA _ (List.getElem_mem hil) hy)) he
          (.letf hm hlet o1 o2 hS he.ex he.all hte hd (by simpa using h0) ht1 ht2 hk) hs
  | nil =>
    simp only [List.not_mem_nil, false_or] at h0
    obtain ⟨h1, h2⟩ := h0
    have v1 : vals d (es.length + 1) = .clos C.R.ids b ρ :: (List.range C.R.ids.length).map (fun j => d (j + 1)) := by
      simp only [vals, List.range_succ_eq_map, List.map_cons, h1, List.map_map, hlet.len]; rfl
    have v2 : vals d' (kp.length + 1) = .clos (pick C.R.ids kp) (T C.R b) ρt :: (List.range kp.length).map (fun j => d' (j + 1)) := by
      simp only [vals, List.range_succ_eq_map, List.map_cons, h2, List.map_map]; rfl
    have pos : ∀ y, y ∈ C.R.ids → C.R.goneId ≠ some y → ∃ (l i : Nat), kp[l]? = some i ∧ C.R.ids[i]? = some y := by
      intro y hy hn
      obtain ⟨i, hi, hiy⟩ := List.getElem_of_mem hy
      have hmem : i ∈ C.R.gone.toList ++ kp := (hlet.perm.mem_iff (a := i)).mpr (by rw [← hlet.len]; simpa using hi)
      rw [List.mem_append] at hmem
      rcases hmem with h | h
      · exfalso; apply hn
        cases hg : C.R.gone with
        | none => simp [hg] at h
        | some j => simp [hg] at h; subst h; simp [Redex.goneId, hg, hi, hiy]
      · obtain ⟨l, hl, hli⟩ := List.getElem_of_mem h
        exact ⟨l, i, by rw [List.getElem?_eq_getElem hl, hli], by rw [List.getElem?_eq_getElem hi, hiy]⟩
    have hpl : (pick C.R.ids kp).length = kp.length := pick_length (by rw [hlet.len]; exact hlt)
    refine .moves (s' := .ev b (bindAll C.R.ids ((List.range C.R.ids.length).map (fun j => d (j + 1))) ρ) κ σ)
      (t' := .ev (T C.R b) (bindAll (pick C.R.ids kp) ((List.range kp.length).map (fun j => d' (j + 1))) ρt) κ' σt)
      (Move.before (.one (b := .ap (.clos C.R.ids b ρ) ((List.range C.R.ids.length).map (fun j => d (j + 1))) κ σ)
          (by simp only [List.map_nil, gstep, step, List.length_cons, v1]) rfl) (.one (by simp [gstep, step])))
      (Move.before (.one (b := .ap (.clos (pick C.R.ids kp) (T C.R b) ρt) ((List.range kp.length).map (fun j => d' (j + 1))) κ' σt)
          (by simp only [gstep, step, List.length_cons, hlen, v2]) rfl) (.one (by simp [gstep, step, hpl])))
      (.ev (S := fun y => S y ∨ y ∈ C.R.ids) o2 ?_ ⟨?_, ?_, ?_⟩ hk hs)
    · intro y hy
      by_cases hmem : y ∈ C.R.ids
      · exact Or.inr hmem
      · exact Or.inl (hS y (.appF _ (.lam hmem hy)))
    · intro y v hy hn hv
      by_cases hmem : y ∈ C.R.ids
      · obtain ⟨l, i, hl, hi⟩ := pos y hmem hn
        exact ⟨_, lookup_pick (d := fun j => d' (j + 1)) hlet.nodup (by rw [hlet.len]; exact hlt) hkn hl hi⟩
      · rw [lookup_skip hmem] at hv
        rw [lookup_skip (fun h => hmem (pick_mem h))]
        exact he.ex y v (by simpa [hmem] using hy) hn hv
    · intro y v w hy hn hv hw
      by_cases hmem : y ∈ C.R.ids
      · obtain ⟨l, i, hl, hi⟩ := pos y hmem hn
        rw [lookup_pick (d := fun j => d' (j + 1)) hlet.nodup (by rw [hlet.len]; exact hlt) hkn hl hi] at hw
        rw [lookup_all hlet.nodup hi (d := fun j => d (j + 1))] at hv
        injection hv with hv; injection hw with hw; subst hv; subst hw
        exact hd l i hl (by simp)
      · rw [lookup_skip hmem] at hv
        rw [lookup_skip (fun h => hmem (pick_mem h))] at hw
        exact he.all y v w (by simpa [hmem] using hy) hn hv hw
    · intro _ r hr
      cases hg : C.R.gone with
      | none => rw [hlet.stay hg] at hr; cases hr
      | some i =>
        have hi := (hgone i hg).1
        have hii : i < C.R.ids.length := by rw [hlet.len]; exact hi
        obtain ⟨h3, h4, h5⟩ := hlet.sub i _ r hg (List.getElem?_eq_getElem hi) hr
        have hmem : r ∈ es := by rw [h3]; exact List.getElem_mem hi
        refine ⟨⟨fun y hy => Or.inl (hS y (.appA _ hmem hy)), h3 ▸ h5, o1 r hmem⟩, C.R.ids[i], d (i + 1),
          ⟨by simp [Redex.goneId, hg, hii], hlet.loc _ (List.getElem_mem hii)⟩, lookup_all hlet.nodup (List.getElem?_eq_getElem hii) (d := fun j => d (j + 1)), ?_⟩
        exact TE.agree (fun y hy => (lookup_skip (fun hm => hlet.good r hr y hm hy)).symm) (hte i r hg hr)


theorem ap_ok {f g : Val} {vs ws : List Val} {κ κ' : Kont} {σ σt : Store W} (hf : VR C k f g) (hv : List.Forall₂ (VR C k) vs ws)
    (hk : KR C k κ κ') (hs : SR C k σ σt) : Out C (.ap f vs κ σ) (.ap g ws κ' σt) := by
  cases hf with
  | atom | pair | box | trap => exact .fail (by simp [gstep, step]) (fun _ _ => by simp)
  | clos a1 a2 a3 a4 a5 a6 =>
    rename_i fl S ids b ρ ρt
    by_cases hl : ids.length = vs.length
    · have hl' : ids.length = ws.length := by rw [hl]; exact hv.length_eq
      refine .sync (s' := .ev b (bindAll ids vs ρ) κ σ) (t' := .ev (T C.R b) (bindAll ids ws ρt) κ' σt) (by simp only [gstep, step]; rw [if_pos hl])
        (by simp only [gstep, step]; rw [if_pos hl']) (.ev a2 ?_ (ER.bind ⟨a4, a5, a6⟩ a1 hv hl) hk hs)
      intro y hy
      by_cases hm : y ∈ ids
      · exact Or.inr hm
      · exact Or.inl (a3 y (.lam hm hy))
    · exact .fail (by simp only [gstep, step]; rw [if_neg hl]) (fun _ _ => by simp)
  | rclos a1 a2 a3 a4 a5 a6 =>
    rename_i fl S ids lams i ρ ρt
    have he : ER C k fl (fun y => S y ∨ y ∈ ids) (.fix ids lams ρ) (.fix ids (Ts C.R lams) ρt) := ER.fix ⟨a4, a5, a6⟩ a1 a2 a3
    cases hi : lams[i]? with
    | none => exact .fail (by simp [gstep, step, hi]) (fun _ _ => by simp)
    | some l =>
      have hmem := List.mem_of_getElem? hi
      have hol := a2 l hmem
      cases l with
      | lam ps b =>
        cases hol with
        | lam o1 o2 =>
          have hi' : (Ts C.R lams)[i]? = some (.lam ps (T C.R b)) := by rw [Ts_get, hi]; simp [T]
          by_cases hl : ps.length = vs.length
          · have hl' : ps.length = ws.length := by rw [hl]; exact hv.length_eq
            refine .sync (s' := .ev b (bindAll ps vs (.fix ids lams ρ)) κ σ) (t' := .ev (T C.R b) (bindAll ps ws (.fix ids (Ts C.R lams) ρt)) κ' σt)
              (by simp only [gstep, step, hi]; rw [if_pos hl]) (by simp only [gstep, step, hi']; rw [if_pos hl']) (.ev o2 ?_ (he.bind o1 hv hl) hk hs)
            intro y hy
            by_cases hm : y ∈ ps
            · exact Or.inr hm
            · by_cases hm2 : y ∈ ids
              · exact Or.inl (Or.inr hm2)
              · exact Or.inl (Or.inl (a3 y ⟨_, hmem, .lam hm hy⟩ hm2))
          · exact .fail (by simp only [gstep, step, hi]; rw [if_neg hl]) (fun _ _ => by simp)
      | _ => exact .fail (by simp [gstep, step, hi]) (fun _ _ => by simp)
  | cont hk' =>
    cases hv with
    | nil => exact .fail (by simp [gstep, step]) (fun _ _ => by simp)
    | cons h1 h2 =>
      cases h2 with
      | nil => exact .sync rfl rfl (.ret h1 hk' hs)
      | cons => exact .fail (by simp [gstep, step]) (fun _ _ => by simp)

theorem ret_ok : (κ : Kont) → ∀ {κ' : Kont} {v w : Val} {σ σt : Store W}, VR C k v w → KR C k κ κ' → SR C k σ σt → Out C (.ret v κ σ) (.ret w κ' σt)
  | .halt, _, v, w, σ, σt, hv, .halt, hs => Or.inr (Or.inl ⟨v, w, σ.world, .one rfl rfl, .one (by simp [gstep, step, hs.world]) hs.world, hv.view⟩)
  | .trap, _, _, _, _, _, _, .trap, _ => .fail rfl (fun _ _ => by simp)
  | .throw _, _, _, _, _, _, hv, .throw h, hs => .sync rfl rfl (.ap h (.cons hv .nil) .trap hs)
  | .set x _, _, v, w, σ, σt, hv, .set (κ := κ) (κ' := κ') hk, hs => by
    cases hc : (x.isGlobalConst && (σ.glob x).isSome) with
    | true => exact .fail (by simp only [gstep, hc]; rfl) (fun _ _ => by simp)
    | false =>
      have hc' : (x.isGlobalConst && (σt.glob x).isSome) = false := by
        rcases hs.glob x with ⟨h1, h2⟩ | ⟨a, b, h1, h2, _⟩
        · simp [h2]
        · rw [h1] at hc; rw [h2]; exact hc
      obtain ⟨k', hx, hs'⟩ := hs.set_glob x hc hv
      exact .sync (s' := .ret (.atom 1) κ _) (t' := .ret (.atom 1) κ' _) (by simp only [gstep, hc]; rfl) (by simp only [gstep, hc']; rfl) (.ret (.atom 1) (hk.mono hx) hs')
  | .ite _ _ _ _, _, v, w, σ, σt, hv, .ite (b := b) (c := c) (ρ := ρ) (ρt := ρt) (κ := κ) (κ' := κ') o1 o2 hS a1 a2 a3 hk, hs => by
    cases hf : v.isFalse with
    | true =>
      exact .sync (s' := .ev c ρ κ σ) (t' := .ev (T C.R c) ρt κ' σt) (by simp [gstep, step, hf]) (by simp [gstep, step, ← hv.false, hf])
        (.ev o2 (fun y hy => hS y (Or.inr hy)) ⟨a1, a2, a3⟩ hk hs)
    | false =>
      exact .sync (s' := .ev b ρ κ σ) (t' := .ev (T C.R b) ρt κ' σt) (by simp [gstep, step, hf]) (by simp [gstep, step, ← hv.false, hf])
        (.ev o1 (fun y hy => hS y (Or.inl hy)) ⟨a1, a2, a3⟩ hk hs)
  | .withcc _ _, _, v, w, σ, σt, hv, .withcc (e := e) (ρ := ρ) (ρt := ρt) o1 hS a1 a2 a3, hs => by
    by_cases hp : v.view = .proc
    · exact .sync (s' := .ev e ρ (.throw v) σ) (t' := .ev (T C.R e) ρt (.throw w) σt) (by simp only [gstep, step]; rw [if_pos hp])
        (by simp only [gstep, step]; rw [if_pos (by rw [← hv.view]; exact hp)]) (.ev o1 hS ⟨a1, a2, a3⟩ (.throw hv) hs)
    · exact .fail (by simp only [gstep, step]; rw [if_neg hp]) (fun _ _ => by simp)
  | .args op _ _ _ _ _ κ, κ0, v, w, σ, σt, hv, hk, hs => by
    cases hk with
    | args o1 hS a1 a2 a3 hd hk =>
      refine .sync rfl rfl (.args o1 hS ⟨a1, a2, a3⟩ (fun j => ?_) hk hs)
      simp only [upd]; split
      · exact hv
      · exact hd j
    | letf hm hlet o1 o2 hS a1 a2 hte hd h0 ht1 ht2 hk =>
      rename_i d ρ S kp b es d' j todo ρt κ'
      have ⟨hlt, hkn, hgone⟩ := kp_lt hlet.perm
      have hj := ht1 (j + 1) (by simp)
      have hjl : j < kp.length := by omega
      have e1 : emb kp (j + 1) = kp[j] + 1 := by simp [emb, hjl]
      refine .sync rfl rfl (.letf (S := S) hm hlet o1 o2 hS ⟨a1, a2, fun h => by cases h⟩ (fun i r h1 h2 => ?_) (fun l i h1 h2 => ?_) ?_
        (fun l hl => ht1 l (by simp [hl])) (List.nodup_cons.mp ht2).2 hk hs)
      · have hne : i + 1 ≠ emb kp (j + 1) := fun e => by
          rw [e1] at e
          have : i = kp[j] := by omega
          exact (hgone i h1).2 (this ▸ List.getElem_mem hjl)
        simp only [upd, if_neg hne]; exact hte i r h1 h2
      · by_cases e : l = j
        · subst e
          rw [List.getElem?_eq_getElem hjl] at h1; injection h1 with h1
          simp only [upd, e1, h1, if_true]; exact hv
        · have hne : i + 1 ≠ emb kp (j + 1) := fun e' => by
            have hll := lt_of_get h1
            have : emb kp (l + 1) = i + 1 := by simp [emb, h1]
            have := emb_inj hkn (by omega) hj (this.trans e')
            omega
          have hne' : l + 1 ≠ j + 1 := by omega
          simp only [upd, if_neg hne, if_neg hne']
          exact hd l i h1 (by simp [e, h2])
      · rcases h0 with h0 | ⟨h1, h2⟩
        · exact Or.inl h0
        · exact Or.inr ⟨by simp [upd, e1, h1], by simp [upd, h2]⟩
    | idlet hx hd hk =>
      rename_i d ρ x e ρ'
      have q : Quiet C.F (.ret v (.args .call [.lam [x] (.var x), e] d 1 [] ρ κ) σ) (.ret v κ σ) := by
        refine .step rfl rfl (.step (b := .ap (.clos [x] (.var x) ρ') [v] κ σ) ?_ rfl (.step (b := .ev (.var x) (.bind x v ρ') κ σ) rfl rfl (.one ?_ rfl)))
        · simp [gstep, step, vals, List.range_succ, upd, hd]
        · simp [gstep, step, hx, Env.lookup]
      exact .src q (ret_ok κ hv hk hs)

theorem sync_world {s t : State W} (h : Sync C s t) : s.world = t.world := by
  cases h with
  | ev _ _ _ _ hs => exact hs.world
  | args _ _ _ _ _ hs => exact hs.world
  | letf _ _ _ _ _ _ _ _ _ _ _ _ hs => exact hs.world
  | ap _ _ _ hs => exact hs.world
  | ret _ _ hs => exact hs.world

theorem sync_sim (hQ : FairOrder C.Q) : SimQ C.F C.H (Sync C) := by
  refine ⟨fun s t h => ?_, fun s t h => sync_world h⟩
  cases h with
  | ev ho hS he hk hs => exact ev_ok hQ _ ho hS he hk hs
  | args ho hS he hd hk hs => exact args_ok ho hS he hd hk hs
  | letf hm hl o1 o2 hS he hte hd h0 ht1 ht2 hk hs => exact letf_ok hm hl o1 o2 hS he hte hd h0 ht1 ht2 hk hs
  | ap hf hv hk hs => exact ap_ok hf hv hk hs
  | ret hv hk hs => exact ret_ok _ hv hk hs

/-- A reduction preserves the behaviour of a program: for every order of evaluation after the reduction, there is one
before it that gives the same result. -/
theorem reduce_behaves {M : Sem W} {R : Redex} {Q : Op → List Exp → List Nat} (hQ : FairOrder Q) {e : Exp} (ho : Ok M R false e) (w : W) (g : Id → Option Val)
    (hg : ∀ x v, g x = some v → ∃ n, v = .atom n) :
    Behaves (gstep M (srcOrd R Q)) (gstep M Q) (.ev e .nil .halt ⟨g, [], w⟩) (.ev (T R e) .nil .halt ⟨g, [], w⟩) := by
  refine SimQ.behaves (sync_sim (C := ⟨M, R, Q⟩) hQ) ?_
  refine .ev (C := ⟨M, R, Q⟩) (k := ⟨[], g⟩) (S := fun y => Free y e) ho (fun y hy => hy) ⟨?_, ?_, fun h => by cases h⟩ .halt ⟨?_, fun _ _ => rfl, ⟨rfl, ?_, ?_⟩, rfl⟩
  · intro y v _ _ h; simp [Env.lookup] at h
  · intro y v w _ _ h; simp [Env.lookup] at h
  · intro x
    cases h : g x with
    | none => exact Or.inl ⟨h, h⟩
    | some v =>
      obtain ⟨n, rfl⟩ := hg x v h
      exact Or.inr ⟨_, _, h, h, .atom n⟩
  · intro a v a' h; simp at h
  · intro a1 a2 a' h; simp at h

end Verif.Beta

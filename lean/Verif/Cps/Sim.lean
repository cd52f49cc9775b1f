import Verif.Cps.Simple
/-
A program and its CPS form run in step (C34).
-/
namespace Verif.Cps
open Verif.Core
variable {W : Type} {M : Sem W}

/-- `s` fails, both finish alike, or both get to related states. -/
def Out (M : Sem W) (s t : State W) : Prop :=
  Fails (step M cpsOrder) s ∨
  (∃ v v' w, Reach (step M cpsOrder) s (.done v w) ∧ Reach (step M leftToRight) t (.done v' w) ∧ v.view = v'.view) ∨
  (∃ s' t', Reach1 (step M cpsOrder) s s' ∧ Reach1 (step M leftToRight) t t' ∧ Sync s' t')

theorem Out.src {s s' t : State W} (h : Reach (step M cpsOrder) s s') (ho : Out M s' t) : Out M s t := by
  rcases ho with hf | ⟨v, v', w, h1, h2, hv⟩ | ⟨a, b, h1, h2, hs⟩
  · exact Or.inl (hf.of_reach h)
  · exact Or.inr (Or.inl ⟨v, v', w, h.trans h1, h2, hv⟩)
  · exact Or.inr (Or.inr ⟨a, b, h.trans1 h1, h2, hs⟩)

theorem Out.tgt {s t t' : State W} (h : Reach (step M leftToRight) t t') (ho : Out M s t') : Out M s t := by
  rcases ho with hf | ⟨v, v', w, h1, h2, hv⟩ | ⟨a, b, h1, h2, hs⟩
  · exact Or.inl hf
  · exact Or.inr (Or.inl ⟨v, v', w, h1, h.trans h2, hv⟩)
  · exact Or.inr (Or.inr ⟨a, b, h1, h.trans1 h2, hs⟩)

theorem Out.sync {s s' t t' : State W} (h1 : Reach1 (step M cpsOrder) s s') (h2 : Reach1 (step M leftToRight) t t') (hs : Sync s' t') :
    Out M s t := Or.inr (Or.inr ⟨s', t', h1, h2, hs⟩)

theorem Out.fail {s t : State W} (h : Fails (step M cpsOrder) s) : Out M s t := Or.inl h

/-! ### continuation expressions -/

theorem kexp_evals {k : Exp} {ρ : Env} {σ : Store W} (h : KEx k ρ) : Evals M leftToRight k ρ σ (kv k ρ) σ := by
  unfold KEx at h
  split at h
  · rename_i x
    obtain ⟨hx, w, hw⟩ := h
    have := Evals.local (M := M) (ord := leftToRight) hx hw σ
    simpa [kv, hw] using this
  · exact Evals.lam _ _ _ _
  · intro κ
    exact (EvalL.letE (leftToRight_eq _ _) (.nil σ) rfl).trans
      (EvalL.prim (v := .trap) (leftToRight_eq _ _) (.nil σ) rfl κ).reach
  · exact False.elim h

theorem ktrap_evals {ρ : Env} {σ : Store W} : Evals M leftToRight ktrapExp ρ σ .trap σ :=
  EvalL.prim (leftToRight_eq _ _) (.nil σ) rfl

/-- pass a value to the continuation. -/
theorem call_k {k t : Exp} {ρ : Env} {σ σ' : Store W} {w : Val} {κ : Kont} (hk : KEx k ρ) (ht : Evals M leftToRight t ρ σ w σ') :
    Reach1 (step M leftToRight) (.ev (.app k [ktrapExp, t]) ρ κ σ) (.ap (kv k ρ) [.trap, w] κ σ') :=
  EvalL.app (leftToRight_eq _ _) (.cons (kexp_evals hk) (.cons ktrap_evals (.cons ht (.nil _))))

theorem KRel.now {V : Id → Prop} {κ : Kont} {k : Exp} {ρt : Env} (h : KRel V κ k ρt) : KEx k ρt ∧ KVal κ (kv k ρt) :=
  ⟨h.ex ρt (Agree.refl _ _), h.val ρt (Agree.refl _ _)⟩

/-- a lambda as continuation. -/
theorem KRel.lam {V : Id → Prop} {κ : Kont} {ids : List Id} {b : Exp} {ρt : Env}
    (h : ∀ ρ', Agree V ρt ρ' → KVal κ (.clos ids b ρ')) : KRel V κ (.lam ids b) ρt :=
  ⟨fun _ _ => trivial, h⟩

/-! ### the last step of a combination -/

/-- arguments: simple ones still to be evaluated, others in variables. -/
inductive FR (d : Nat → Val) (ρt : Env) : Nat → List Exp → List Exp → Prop
  | nil (k : Nat) : FR d ρt k [] []
  | s {k : Nat} {e t : Exp} {es ts : List Exp} : simple e = true → CpsS e t → FR d ρt (k + 1) es ts → FR d ρt k (e :: es) (t :: ts)
  | c {k : Nat} {e : Exp} {x : Id} {w : Val} {es ts : List Exp} : simple e = false → x.isGlobal = false →
      ρt.lookup x = some w → VRel (d k) w → FR d ρt (k + 1) es ts → FR d ρt k (e :: es) (.var x :: ts)

theorem FR.congr {d d' : Nat → Val} {ρt : Env} {k : Nat} {es ts : List Exp} (h : FR d ρt k es ts) (hd : ∀ j, k ≤ j → d' j = d j) :
    FR d' ρt k es ts := by
  induction h with
  | nil => exact .nil _
  | s h1 h2 _ ih => exact .s h1 h2 (ih (fun j hj => hd j (by omega)))
  | c h1 h2 h3 h4 _ ih => exact .c h1 h2 h3 (by rw [hd _ (Nat.le_refl _)]; exact h4) (ih (fun j hj => hd j (by omega)))

theorem FR.of {d : Nat → Val} {ρt : Env} : ∀ {es ts : List Exp} {k : Nat}, ts.length = es.length →
    (∀ (j : Nat) (e t : Exp), es[j]? = some e → ts[j]? = some t → simple e = true → CpsS e t) →
    (∀ (j : Nat) (e t : Exp), es[j]? = some e → ts[j]? = some t → simple e = false →
      ∃ x w, t = .var x ∧ x.isGlobal = false ∧ ρt.lookup x = some w ∧ VRel (d (k + j)) w) → FR d ρt k es ts := by
  intro es
  induction es with
  | nil =>
    intro ts k hl _ _
    cases ts with
    | nil => exact .nil _
    | cons _ _ => simp at hl
  | cons e es ih =>
    intro ts k hl h1 h2
    cases ts with
    | nil => simp at hl
    | cons t ts =>
      have hr : FR d ρt (k + 1) es ts := ih (by simpa using hl)
        (fun j e t he ht => h1 (j + 1) e t (by simpa using he) (by simpa using ht))
        (fun j e t he ht hs => by
          have := h2 (j + 1) e t (by simpa using he) (by simpa using ht) hs
          rw [show k + 1 + j = k + (j + 1) by omega]; exact this)
      cases hs : simple e with
      | true => exact .s hs (h1 0 e t rfl rfl hs) hr
      | false =>
        obtain ⟨x, w, rfl, hx, hw, hv⟩ := h2 0 e t rfl rfl hs
        exact .c hs hx hw hv hr

theorem phase3 {op : Op} {E : List Exp} {ρ ρt : Env} : ∀ {es ts : List Exp} {k : Nat}
    {d : Nat → Val} {σ σt : Store W}, FR d ρt k es ts → (∀ j < es.length, E[k + j]? = es[j]?) →
    ERel (fun x => ∃ e ∈ es, Free x e) ρ ρt → SRel σ σt →
    (∀ κ, Fails (step M cpsOrder) (.args op E d (posFrom simple k es) ρ κ σ)) ∨
    ∃ us d' σ' σt', (∀ κ, Reach (step M cpsOrder) (.args op E d (posFrom simple k es) ρ κ σ) (.args op E d' [] ρ κ σ')) ∧
      EvalL M leftToRight ρt ts σt us σt' ∧ SRel σ' σt' ∧ List.Forall₂ VRel ((List.range' k es.length).map d') us ∧
      ∀ j < k, d' j = d j := by
  intro es
  induction es with
  | nil =>
    intro ts k d σ σt hf _ _ hs
    cases hf
    exact Or.inr ⟨[], d, σ, σt, fun κ => Reach.refl _, .nil _, hs, .nil, fun _ _ => rfl⟩
  | cons e es ih =>
    intro ts k d σ σt hf hE he hs
    have hE' : ∀ j < es.length, E[k + 1 + j]? = es[j]? := fun j hj => by
      have := hE (j + 1) (by simp; omega)
      rw [List.getElem?_cons_succ] at this
      rw [← this]; congr 1; omega
    have he' : ERel (fun x => ∃ e ∈ es, Free x e) ρ ρt := he.mono (fun x ⟨e', he', hx⟩ => ⟨e', by simp [he'], hx⟩)
    simp only [List.length_cons, List.range'_succ, List.map_cons]
    cases hf with
    | s hv hc hf =>
      have e1 : posFrom simple k (e :: es) = k :: posFrom simple (k + 1) es := by simp [posFrom, hv]
      rw [e1]
      have hk : E[k]? = some e := by simpa using hE 0 (by simp)
      rcases simple_ok e _ ρ ρt σ σt hc (he.mono (fun x hx => ⟨e, by simp, hx⟩)) hs with hf' | ⟨v, σ1, w, σt1, g1, g2, hvw, hs1⟩
      · exact Or.inl (fun κ => args_fail hk hf')
      · have hf' := hf.congr (d' := upd d k v) (fun j hj => by simp only [upd]; rw [if_neg (by omega)])
        rcases ih hf' hE' he' hs1 with hf' | ⟨us, d', σ', σt', h1, h2, h3, h4, h5⟩
        · exact Or.inl (fun κ => Fails.of_reach (args_step hk g1).reach (hf' κ))
        · refine Or.inr ⟨w :: us, d', σ', σt', fun κ => (args_step hk g1).reach.trans (h1 κ), .cons g2 h2, h3, .cons ?_ h4, ?_⟩
          · rw [h5 k (by omega)]; simpa [upd] using hvw
          · intro j hj; rw [h5 j (by omega)]; simp only [upd]; rw [if_neg (by omega)]
    | c hv hx hw hr hf =>
      have e1 : posFrom simple k (e :: es) = posFrom simple (k + 1) es := by simp [posFrom, hv]
      rw [e1]
      rcases ih hf hE' he' hs with hf' | ⟨us, d', σ', σt', h1, h2, h3, h4, h5⟩
      · exact Or.inl hf'
      · refine Or.inr ⟨_ :: us, d', σ', σt', h1, .cons (Evals.local hx hw _) h2, h3, .cons ?_ h4, ?_⟩
        · rw [h5 k (by omega)]; exact hr
        · intro j hj; exact h5 j (by omega)

theorem getElem?_self (es : List Exp) : ∀ j < es.length, es[0 + j]? = es[j]? := fun j _ => by rw [Nat.zero_add]

/-- the complex arguments are in variables. -/
def Ready (d : Nat → Val) (ρt : Env) (es args : List Exp) : Prop :=
  ∀ (j : Nat) (x : Id), Cx es args j x → ∃ w, ρt.lookup x = some w ∧ VRel (d j) w

theorem FR.ready {V : Id → Prop} {d : Nat → Val} {ρt : Env} {es args : List Exp} (ha : ArgsOk V es args) (hr : Ready d ρt es args)
    (hc : ∀ (j : Nat) (e t : Exp), es[j]? = some e → args[j]? = some t → simple e = true → CpsS e t) : FR d ρt 0 es args := by
  refine FR.of ha.len hc (fun j e t he ht hs => ?_)
  obtain ⟨x, hx⟩ := ha.cx j e he hs
  rw [ht] at hx
  injection hx with hx
  subst hx
  have hcx : Cx es args j x := ⟨e, he, hs, ht⟩
  obtain ⟨w, hw, hv⟩ := hr j x hcx
  exact ⟨x, w, rfl, (ha.fresh j x hcx).1, hw, by rw [Nat.zero_add]; exact hv⟩

theorem fin_ok {V : Id → Prop} {op : Op} {es args : List Exp} {k fin : Exp} {d : Nat → Val} {ρ ρt : Env} {κ : Kont} {σ σt : Store W}
    (ha : ArgsOk V es args) (hf : Fin V op es args k fin) (hr : Ready d ρt es args)
    (he : ERel (fun x => ∃ e ∈ es, Free x e) ρ ρt) (hk : KRel V κ k ρt) (hs : SRel σ σt) :
    Out M (.args op es d (posFrom simple 0 es) ρ κ σ) (.ev fin ρt .halt σt) := by
  cases hf with
  | call hc =>
    rename_i as a
    rcases phase3 (M := M) (op := .call) (FR.ready ha hr hc) (getElem?_self es) he hs with hf | ⟨us, d', σ', σt', h1, h2, h3, h4, _⟩
    · exact .fail (hf κ)
    · have hlen := ha.len
      cases es with
      | nil => simp at hlen
      | cons f rs =>
        cases h2 with
        | cons g1 g2 =>
        rename_i σ1 g gs
        simp only [List.length_cons, List.range'_succ, List.map_cons] at h4
        cases h4 with
        | cons hv hvs =>
        have r1 : Reach1 (step M cpsOrder) (.args .call (f :: rs) d (posFrom simple 0 (f :: rs)) ρ κ σ)
            (.ap (d' 0) ((List.range' (0 + 1) rs.length).map d') κ σ') := by
          refine (h1 κ).trans1 (Reach1.one ?_)
          simp only [step, vals, List.range_eq_range', List.length_cons, List.range'_succ, List.map_cons]
        have r2 : Reach1 (step M leftToRight) (.ev (.app a (k :: as)) ρt .halt σt) (.ap g (kv k ρt :: gs) .halt σt') :=
          EvalL.app (leftToRight_eq _ _) (.cons g1 (.cons (kexp_evals hk.now.1) g2))
        exact .sync r1 r2 (.ap hv hvs hk.now.2 h3)
  | prim hp hc =>
    rename_i eff p
    rcases phase3 (M := M) (op := .prim eff p) (FR.ready ha hr hc) (getElem?_self es) he hs with hf | ⟨us, d', σ', σt', h1, h2, h3, h4, _⟩
    · exact .fail (hf κ)
    · have hvals : vals d' es.length = (List.range' 0 es.length).map d' := by rw [vals, List.range_eq_range']
      rcases doPrim_rel (M := M) (p := p) h4 h3 hp with hn | ⟨v, σ2, w, σt2, p1, p2, hvw, hs2⟩
      · refine .fail (Fails.of_reach (h1 κ) (Fails.now ?_ (fun _ _ => by simp)))
        simp only [step, hvals, hn]
      · have r1 : Reach1 (step M cpsOrder) (.args (.prim eff p) es d (posFrom simple 0 es) ρ κ σ) (.ret v κ σ2) :=
          (h1 κ).trans1 (Reach1.one (by simp only [step, hvals, p1]))
        exact .sync r1 (call_k hk.now.1 (h2.prim (leftToRight_eq _ _) p2)) (.ret rfl hvw hk.now.2 hs2)
  | letE hl hV hc hb =>
    rename_i ids b tb es as
    have hrd : FR (upd d 0 (.clos ids b ρ)) ρt 1 es as := by
      refine FR.of (by simpa using ha.len) hc (fun j e t he ht hsi => ?_)
      obtain ⟨x, hx⟩ := ha.cx (j + 1) e (by simpa using he) hsi
      have hx' : as[j]? = some (.var x) := by simpa using hx
      rw [ht] at hx'
      injection hx' with hx'
      subst hx'
      have hcx : Cx (.lam ids b :: es) (.lam ids tb :: as) (j + 1) x := ⟨e, by simpa using he, hsi, by simpa using ht⟩
      obtain ⟨w, hw, hv⟩ := hr (j + 1) x hcx
      refine ⟨x, w, rfl, (ha.fresh _ x hcx).1, hw, ?_⟩
      simp only [upd]
      rw [if_neg (by omega), show 1 + j = j + 1 by omega]
      exact hv
    have hpos : posFrom simple 0 (.lam ids b :: es) = 0 :: posFrom simple 1 es := by simp [posFrom, Verif.Cps.simple]
    rw [hpos]
    have r0 : Reach (step M cpsOrder) (.args .call (.lam ids b :: es) d (0 :: posFrom simple 1 es) ρ κ σ)
        (.args .call (.lam ids b :: es) (upd d 0 (.clos ids b ρ)) (posFrom simple 1 es) ρ κ σ) :=
      (args_step (e := .lam ids b) rfl (Evals.lam _ _ _ _)).reach
    refine .src r0 ?_
    rcases phase3 (M := M) (op := .call) (E := .lam ids b :: es) hrd
      (fun j _ => by rw [show 1 + j = j + 1 by omega, List.getElem?_cons_succ])
      (he.mono (fun x ⟨e, hm, hx⟩ => ⟨e, by simp [hm], hx⟩)) hs with hf | ⟨us, d', σ', σt', h1, h2, h3, h4, h5⟩
    · exact .fail (hf κ)
    · have hd0 : d' 0 = .clos ids b ρ := by rw [h5 0 (by omega)]; simp [upd]
      have hlv : ids.length = ((List.range' 1 es.length).map d').length := by simp [hl]
      have r1 : Reach1 (step M cpsOrder) (.args .call (.lam ids b :: es) (upd d 0 (.clos ids b ρ)) (posFrom simple 1 es) ρ κ σ)
          (.ev b (bindAll ids ((List.range' 1 es.length).map d') ρ) κ σ') := by
        refine (h1 κ).trans1 (Reach1.cons (b := .ap (.clos ids b ρ) ((List.range' 1 es.length).map d') κ σ') ?_ (Reach.one ?_))
        · simp only [step, vals, List.range_eq_range', List.length_cons, List.range'_succ, List.map_cons, hd0]
        · simp only [step]
          rw [if_pos hlv]
      have r2 : Reach1 (step M leftToRight) (.ev (.app (.lam ids tb) as) ρt .halt σt) (.ev tb (bindAll ids us ρt) .halt σt') :=
        EvalL.letE (leftToRight_eq _ _) h2 (by have := ha.len; simp only [List.length_cons] at this; omega)
      refine .sync r1 r2 (.ev hb ?_ (hk.mono (Agree.bindAll us hV)) h3)
      exact ERel.bindAll (he.mono (fun x ⟨hn, hx⟩ => ⟨.lam ids b, by simp, .lam hn hx⟩)) h4 hlv

/-- `e` and its CPS form go in step. -/
def EOk (M : Sem W) (e : Exp) : Prop :=
  ∀ (V : Id → Prop) (k t : Exp) (ρ ρt : Env) (κ : Kont) (σ σt : Store W), Cps V e k t → ERel (fun x => Free x e) ρ ρt →
    KRel V κ k ρt → SRel σ σt → Out M (.ev e ρ κ σ) (.ev t ρt .halt σt)

theorem mem_posFrom {p : Exp → Bool} : ∀ {es : List Exp} {k j : Nat} {e : Exp}, es[j]? = some e → p e = true →
    k + j ∈ posFrom p k es := by
  intro es
  induction es with
  | nil => intro k j e h; simp at h
  | cons a es ih =>
    intro k j e h hp
    cases j with
    | zero =>
      simp only [List.getElem?_cons_zero, Option.some.injEq] at h
      subst h
      simp [posFrom, hp]
    | succ j =>
      have := ih (k := k + 1) (j := j) (e := e) (by simpa using h) hp
      rw [show k + (j + 1) = k + 1 + j by omega]
      simp only [posFrom]
      split
      · exact List.mem_cons_of_mem _ this
      · exact this

theorem posFrom_ge {p : Exp → Bool} : ∀ {es : List Exp} {k j : Nat}, j ∈ posFrom p k es → k ≤ j := by
  intro es
  induction es with
  | nil => intro k j h; simp [posFrom] at h
  | cons a es ih =>
    intro k j h
    simp only [posFrom] at h
    split at h
    · rcases List.mem_cons.mp h with h | h
      · omega
      · have := ih h; omega
    · have := ih h; omega

theorem posFrom_nodup {p : Exp → Bool} : ∀ {es : List Exp} {k : Nat}, (posFrom p k es).Nodup := by
  intro es
  induction es with
  | nil => intro k; simp [posFrom]
  | cons a es ih =>
    intro k
    simp only [posFrom]
    split
    · refine List.nodup_cons.mpr ⟨fun h => ?_, ih⟩
      have := posFrom_ge h
      omega
    · exact ih

theorem mem_posFrom_iff {p : Exp → Bool} : ∀ {es : List Exp} {k j : Nat}, j ∈ posFrom p k es →
    ∃ i e, j = k + i ∧ es[i]? = some e ∧ p e = true := by
  intro es
  induction es with
  | nil => intro k j h; simp [posFrom] at h
  | cons a es ih =>
    intro k j h
    simp only [posFrom] at h
    split at h
    · rename_i hp
      rcases List.mem_cons.mp h with h | h
      · exact ⟨0, a, by omega, rfl, hp⟩
      · obtain ⟨i, e, h1, h2, h3⟩ := ih h
        exact ⟨i + 1, e, by omega, by simpa using h2, h3⟩
    · obtain ⟨i, e, h1, h2, h3⟩ := ih h
      exact ⟨i + 1, e, by omega, by simpa using h2, h3⟩

theorem code_ok {V : Id → Prop} {op : Op} {es args : List Exp} {k fin t : Exp} {d : Nat → Val} {is : List Nat} {ρ ρt : Env}
    {κ : Kont} {σ σt : Store W} (hok : ∀ e ∈ es, EOk M e)
    (ha : ArgsOk V es args) (hf : Fin V op es args k fin) (hc : Code V es args fin is t) (hn : is.Nodup)
    (hd : ∀ j x, Cx es args j x → j ∉ is → ∃ w, ρt.lookup x = some w ∧ VRel (d j) w)
    (he : ERel (fun x => ∃ e ∈ es, Free x e) ρ ρt) (hk : KRel V κ k ρt) (hs : SRel σ σt) :
    Out M (.args op es d (is ++ posFrom simple 0 es) ρ κ σ) (.ev t ρt .halt σt) := by
  cases hc with
  | nil => exact fin_ok ha hf (fun j x hx => hd j x hx (by simp)) he hk hs
  | cons h1 hsi h2 hek hcps hcode =>
    rename_i e t1 i is ek r
    have hm : e ∈ es := List.mem_of_getElem? h1
    have hcx : Cx es args i r := ⟨e, h1, hsi, h2⟩
    have hstep : step M cpsOrder (.args op es d (i :: is ++ posFrom simple 0 es) ρ κ σ) =
        some (.ev e ρ (.args op es d i (is ++ posFrom simple 0 es) ρ κ) σ) := by
      cases op <;> simp [step, h1]
    refine .src (Reach.one hstep) (hok e hm _ _ _ _ _ _ _ _ hcps (he.mono (fun x hx => ⟨e, hm, hx⟩)) ?_ hs)
    refine KRel.lam (fun ρ' hag => ?_)
    have hag1 : Agree (fun x => ∃ e ∈ es, Free x e) ρt ρ' := hag.mono (fun x hx => Or.inr (Or.inl hx))
    have hk' : KRel V κ k ρ' := hk.mono (hag.mono (fun x hx => Or.inl hx))
    have he' := he.agree hag1
    refine .list ha hf hcode hcx hek hn he'.ex he'.val (fun j x hx hji hjis => ?_) (fun j x w hx hji hjis hw => ?_)
      (fun ρ'' h'' => hk'.ex ρ'' h'') (fun ρ'' h'' => hk'.val ρ'' h'')
    · obtain ⟨w, hw, _⟩ := hd j x hx (by simp [hji, hjis])
      exact ⟨w, by rw [← hag x (Or.inr (Or.inr ⟨j, hx⟩))]; exact hw⟩
    · obtain ⟨w', hw', hv⟩ := hd j x hx (by simp [hji, hjis])
      rw [hag x (Or.inr (Or.inr ⟨j, hx⟩)), hw] at hw'
      injection hw' with e
      rw [e]; exact hv

/-- a combination. -/
theorem comb_ok {V : Id → Prop} {op : Op} {es args : List Exp} {k fin t : Exp} {ρ ρt : Env}
    {κ : Kont} {σ σt : Store W} (hok : ∀ e ∈ es, EOk M e)
    (ha : ArgsOk V es args) (hf : Fin V op es args k fin)
    (hc : Code V es args fin (posFrom (fun e => !simple e) 0 es) t)
    (he : ERel (fun x => ∃ e ∈ es, Free x e) ρ ρt) (hk : KRel V κ k ρt) (hs : SRel σ σt) :
    Out M (.args op es (fun _ => .trap) (posFrom (fun e => !simple e) 0 es ++ posFrom simple 0 es) ρ κ σ) (.ev t ρt .halt σt) := by
  refine code_ok hok ha hf hc posFrom_nodup (fun j x hx hj => ?_) he hk hs
  obtain ⟨e, h1, h2, h3⟩ := hx
  exact absurd (by simpa using mem_posFrom (p := fun e => !simple e) (k := 0) h1 (by rw [h2]; rfl)) hj

theorem smp_ok {V : Id → Prop} {e k t : Exp} {ρ ρt : Env} {κ : Kont} {σ σt : Store W} (h : CpsS e t)
    (he : ERel (fun x => Free x e) ρ ρt) (hk : KRel V κ k ρt) (hs : SRel σ σt) :
    Out M (.ev e ρ κ σ) (.ev (.app k [ktrapExp, t]) ρt .halt σt) := by
  rcases simple_ok (M := M) e t ρ ρt σ σt h he hs with hf | ⟨v, σ', w, σt', h1, h2, hvw, hs'⟩
  · exact .fail (hf κ)
  · exact .sync (h1 κ) (call_k hk.now.1 h2) (.ret rfl hvw hk.now.2 hs')

theorem ite_ok {V : Id → Prop} {a b c k t : Exp} {ρ ρt : Env} {κ : Kont} {σ σt : Store W} (hok : EOk M a)
    (h : CpsIte V a b c k t) (he : ERel (fun x => Free x (.ite a b c)) ρ ρt) (hk : KRel V κ k ρt) (hs : SRel σ σt) :
    Out M (.ev (.ite a b c) ρ κ σ) (.ev t ρt .halt σt) := by
  have hea : ERel (fun x => Free x a) ρ ρt := he.mono (fun x hx => .iteA _ _ hx)
  have heb : ERel (fun x => Free x b) ρ ρt := he.mono (fun x hx => .iteB _ _ hx)
  have hec : ERel (fun x => Free x c) ρ ρt := he.mono (fun x hx => .iteC _ _ hx)
  cases h with
  | s h1 h2 h3 =>
    rename_i ta tb tc
    rcases simple_ok (M := M) a ta ρ ρt σ σt h1 hea hs with hf | ⟨v, σ', w, σt', g1, g2, hvw, hs'⟩
    · exact .fail (Fails.of_step rfl (hf _))
    · have r1 : Reach1 (step M cpsOrder) (.ev (.ite a b c) ρ κ σ) (.ev (if v.isFalse then c else b) ρ κ σ') :=
        Reach1.cons rfl ((g1 _).reach.trans (Reach.one rfl))
      have r2 : Reach1 (step M leftToRight) (.ev (.ite ta tb tc) ρt .halt σt) (.ev (if v.isFalse then tc else tb) ρt .halt σt') :=
        Reach1.cons rfl ((g2 _).reach.trans (Reach.one (by simp only [step]; rw [hvw.isFalse])))
      by_cases hvf : v.isFalse = true
      · simp only [hvf, if_true] at r1 r2
        exact .sync r1 r2 (.ev h3 hec hk hs')
      · simp only [hvf, if_false, Bool.false_eq_true] at r1 r2
        exact .sync r1 r2 (.ev h2 heb hk hs')
  | c h1 h2 h3 h4 h5 h6 h7 h8 ha hb hc =>
    refine .src (Reach.one rfl) (hok _ _ _ _ _ _ _ _ ha hea (KRel.lam (fun ρ' hag => ?_)) hs)
    have hk' : KRel V κ k ρ' := hk.mono (hag.mono (fun x hx => Or.inl hx))
    have he' : ERel (fun x => Free x b ∨ Free x c) ρ ρ' :=
      ERel.agree (he.mono (fun x hx => hx.elim (fun h => .iteB _ _ h) (fun h => .iteC _ _ h))) (hag.mono (fun x hx => Or.inr hx))
    exact .ite h1 h2 h3 h4 h5 h6 h7 h8 hb hc he'.ex he'.val (fun ρ'' h'' => hk'.ex ρ'' h'') (fun ρ'' h'' => hk'.val ρ'' h'')

theorem bind_k {x : Id} {k t : Exp} {ρt : Env} {σt : Store W} (hk : KEx k ρt) :
    Reach1 (step M leftToRight) (.ev (letExp [x] [k] t) ρt .halt σt) (.ev t (.bind x (kv k ρt) ρt) .halt σt) :=
  EvalL.letE (leftToRight_eq _ _) (.cons (kexp_evals hk) (.nil _)) rfl

/-- calls of procedures that are not lambda expressions. -/
theorem app_list {V : Id → Prop} {f : Exp} {rs args : List Exp} {k fin t : Exp} {ρ ρt : Env}
    {κ : Kont} {σ σt : Store W} (hok : ∀ e ∈ f :: rs, EOk M e)
    (ha : ArgsOk V (f :: rs) args) (hf : Fin V .call (f :: rs) args k fin)
    (hc : Code V (f :: rs) args fin (posFrom (fun e => !simple e) 0 (f :: rs)) t)
    (he : ERel (fun x => Free x (.app f rs)) ρ ρt) (hk : KRel V κ k ρt) (hs : SRel σ σt) :
    Out M (.ev (.app f rs) ρ κ σ) (.ev t ρt .halt σt) := by
  refine .src (Reach.one (b := .args .call (f :: rs) (fun _ => .trap) (cpsOrder .call (f :: rs)) ρ κ σ) rfl) ?_
  refine comb_ok hok ha hf hc (he.mono (fun x ⟨e, hm, hx⟩ => ?_)) hk hs
  rcases List.mem_cons.mp hm with rfl | hm
  · exact .appF _ hx
  · exact .appA _ hm hx

theorem lam_ok (ids : List Id) (b : Exp) : EOk M (.lam ids b) := by
  intro V k t ρ ρt κ σ σt h he hk hs
  cases h with
  | simple h => exact smp_ok h he hk hs
  | list ho _ _ _ =>
    rcases ho with ⟨h, _⟩ | ⟨_, _, h, _⟩ <;> cases h

theorem cpsOrder_idlet {x : Id} {b e : Exp} (h : simple e = false) : cpsOrder .call [.lam [x] b, e] = [1, 0] := by
  simp [cpsOrder, posFrom, Verif.Cps.simple, h]

/-- `let` with a lambda expression in operator position. -/
theorem applam_ok {ids : List Id} {b : Exp} {es : List Exp} (hb : EOk M b) (hes : ∀ e ∈ es, EOk M e) : EOk M (.app (.lam ids b) es) := by
  intro V k t ρ ρt κ σ σt h he hk hs
  cases h with
  | simple h => exact smp_ok h he hk hs
  | list ho ha hf hc =>
    rcases ho with ⟨h, rfl, rfl⟩ | ⟨_, _, h, _⟩
    · injection h with h1 h2
      subst h1; subst h2
      exact app_list (fun e hm => by
        rcases List.mem_cons.mp hm with rfl | hm
        · exact lam_ok _ _
        · exact hes e hm) ha hf hc he hk hs
    · cases h
  | null h =>
    have ho : cpsOrder .call [Exp.lam [] b] = List.range [Exp.lam [] b].length := cpsOrder_call (by simp [simpleAll, Verif.Cps.simple])
    have r1 : Reach1 (step M cpsOrder) (.ev (.app (.lam [] b) []) ρ κ σ) (.ev b ρ κ σ) := EvalL.letE ho (.nil σ) rfl
    exact .src r1.reach (hb _ _ _ _ _ _ _ _ h (he.mono (fun x hx => .appF _ (.lam (by simp) hx))) hk hs)
  | idlet hx hse h =>
    rename_i x e
    have r1 : Reach (step M cpsOrder) (.ev (.app (.lam [x] (.var x)) [e]) ρ κ σ)
        (.ev e ρ (.args .call [.lam [x] (.var x), e] (fun _ => .trap) 1 [0] ρ κ) σ) := by
      refine Reach.cons (b := .args .call [.lam [x] (.var x), e] (fun _ => .trap) [1, 0] ρ κ σ) ?_ (Reach.one rfl)
      simp only [step]; rw [cpsOrder_idlet hse]
    refine .src r1 (hes e (by simp) _ _ _ _ _ _ _ _ h (he.mono (fun y hy => .appA _ (by simp) hy)) ⟨hk.ex, fun ρ' ha => ?_⟩ hs)
    exact .idlet hx (hk.val ρ' ha)
  | beginS hfx hVe hVy hfe hfy h1 h2 =>
    rename_i x y ek e t tb
    have ho : cpsOrder .call [Exp.lam [x] b, e] = List.range [Exp.lam [x] b, e].length :=
      cpsOrder_call (by simp [simpleAll, Verif.Cps.simple, h1.simple])
    rcases simple_ok (M := M) e t ρ ρt σ σt h1 (he.mono (fun y hy => .appA _ (by simp) hy)) hs with hf | ⟨v, σ', w, σt', g1, g2, hvw, hs'⟩
    · exact .fail (FailL.app ho (.there (Evals.lam _ _ _ _) (.here hf)) κ)
    · have r1 : Reach1 (step M cpsOrder) (.ev (.app (.lam [x] b) [e]) ρ κ σ) (.ev b (.bind x v ρ) κ σ') :=
        EvalL.letE ho (.cons g1 (.nil _)) rfl
      have r2 : Reach1 (step M leftToRight) (.ev (.app (.lam [ek, y] tb) [ktrapExp, t]) ρt .halt σt)
          (.ev tb (.bind ek .trap (.bind y w ρt)) .halt σt') :=
        EvalL.letE (leftToRight_eq _ _) (.cons ktrap_evals (.cons g2 (.nil _))) rfl
      refine .sync r1 r2 (.ev h2 (fun z u hz hl => ?_) (hk.mono ((Agree.bind hVy).trans (Agree.bind hVe))) hs')
      have n1 : z ≠ x := fun e => hfx (by rw [← e]; exact hz)
      have n2 : z ≠ ek := fun e => hfe (by rw [← e]; exact hz)
      have n3 : z ≠ y := fun e => hfy (by rw [← e]; exact hz)
      simp only [Env.lookup, if_neg n1] at hl
      simp only [Env.lookup, if_neg n2, if_neg n3]
      exact he z u (.appF _ (.lam (by simpa using n1) hz)) hl
  | begin hse hfx hne hVe hVy hfe hfy h1 h2 =>
    rename_i x y ek e tb
    have r1 : Reach (step M cpsOrder) (.ev (.app (.lam [x] b) [e]) ρ κ σ)
        (.ev e ρ (.args .call [.lam [x] b, e] (fun _ => .trap) 1 [0] ρ κ) σ) := by
      refine Reach.cons (b := .args .call [.lam [x] b, e] (fun _ => .trap) [1, 0] ρ κ σ) ?_ (Reach.one rfl)
      simp only [step]; rw [cpsOrder_idlet hse]
    refine .src r1 (hes e (by simp) _ _ _ _ _ _ _ _ h1 (he.mono (fun y hy => .appA _ (by simp) hy)) (KRel.lam (fun ρ' hag => ?_)) hs)
    have hk' : KRel V κ k ρ' := hk.mono (hag.mono (fun x hx => Or.inl hx))
    have he' : ERel (fun x => Free x b) ρ ρ' := ERel.agree (he.mono (fun z hz => .appF _ (.lam (by
      simp only [List.mem_singleton]
      exact fun e => hfx (by rw [← e]; exact hz)) hz))) (hag.mono (fun x hx => Or.inr hx))
    exact .begin hfx hne hVe hVy hfe hfy h2 he'.ex he'.val (fun ρ'' h'' => hk'.ex ρ'' h'') (fun ρ'' h'' => hk'.val ρ'' h'')

/-- other calls. -/
theorem app_ok' {f : Exp} {es : List Exp} (hl : ∀ ids b, f ≠ .lam ids b) (hf : EOk M f) (hes : ∀ e ∈ es, EOk M e) : EOk M (.app f es) := by
  intro V k t ρ ρt κ σ σt h he hk hs
  cases h with
  | simple h => exact smp_ok h he hk hs
  | list ho ha hfi hc =>
    rcases ho with ⟨h, rfl, rfl⟩ | ⟨_, _, h, _⟩
    · injection h with h1 h2
      subst h1; subst h2
      exact app_list (fun e hm => by
        rcases List.mem_cons.mp hm with rfl | hm
        · exact hf
        · exact hes e hm) ha hfi hc he hk hs
    · cases h
  | _ => exact absurd rfl (hl _ _)

mutual
/-- Every expression and its CPS form go in step. -/
theorem ev_ok : ∀ e : Exp, EOk M e
  | .var x => by
    intro V k t ρ ρt κ σ σt h he hk hs
    cases h with
    | simple h => exact smp_ok h he hk hs
    | list ho _ _ _ => rcases ho with ⟨h, _⟩ | ⟨_, _, h, _⟩ <;> cases h
  | .set x e => by
    intro V k t ρ ρt κ σ σt h he hk hs
    cases h with
    | simple h => exact smp_ok h he hk hs
    | list ho _ _ _ => rcases ho with ⟨h, _⟩ | ⟨_, _, h, _⟩ <;> cases h
    | set hx hne hr hVe hVr h =>
      have hst : step M cpsOrder (.ev (.set x e) ρ κ σ) = some (.ev e ρ (.set x κ) σ) := by simp [step, hx]
      refine .src (Reach.one hst) (ev_ok e _ _ _ _ _ _ _ _ h (he.mono (fun y hy => .set _ hy)) (KRel.lam (fun ρ' hag => ?_)) hs)
      have hk' : KRel V κ k ρ' := hk.mono hag
      exact .set hx hne hr hVe hVr (fun ρ'' h'' => hk'.ex ρ'' h'') (fun ρ'' h'' => hk'.val ρ'' h'')
  | .ite a b c => by
    intro V k t ρ ρt κ σ σt h he hk hs
    cases h with
    | simple h => exact smp_ok h he hk hs
    | list ho _ _ _ => rcases ho with ⟨h, _⟩ | ⟨_, _, h, _⟩ <;> cases h
    | iteV h => exact ite_ok (ev_ok a) h he hk hs
    | iteK hV hx hf h =>
      rename_i t x
      refine .tgt (bind_k hk.now.1).reach (ite_ok (ev_ok a) h (he.agree (Agree.bind hf)) ?_ hs)
      exact KRel.var hx (by simp [Env.lookup]) hk.now.2
  | .prim eff p es => by
    intro V k t ρ ρt κ σ σt h he hk hs
    cases h with
    | simple h => exact smp_ok h he hk hs
    | list ho ha hf hc =>
      rcases ho with ⟨h, _⟩ | ⟨eff', p', h, rfl, hsa⟩
      · cases h
      · injection h with h1 h2 h3
        subst h1; subst h2; subst h3
        refine .src (Reach.one (b := .args (.prim eff p) es (fun _ => .trap)
          (posFrom (fun e => !simple e) 0 es ++ posFrom simple 0 es) ρ κ σ) ?_) ?_
        · simp only [step, cpsOrder, hsa, Bool.false_eq_true, if_false]
        · exact comb_ok (ev_oks es) ha hf hc (he.mono (fun x ⟨e, hm, hx⟩ => .prim _ _ hm hx)) hk hs
  | .lam ids b => lam_ok ids b
  | .fix ids lams b => by
    intro V k t ρ ρt κ σ σt h he hk hs
    cases h with
    | simple h => exact smp_ok h he hk hs
    | list ho _ _ _ => rcases ho with ⟨h, _⟩ | ⟨_, _, h, _⟩ <;> cases h
    | fix hl hV h =>
      have he' : ERel (fun x => Free x b) (.fix ids lams ρ) (.fix ids _ ρt) := ERel.fix hl (he.mono (fun x ⟨hn, hx⟩ => by
        rcases hx with hx | ⟨l, hl, hx⟩
        · exact .fixB _ hn hx
        · exact .fixL _ hn hl hx))
      exact .sync (Reach1.one rfl) (Reach1.one rfl) (.ev h he' (hk.mono (Agree.fix hV)) hs)
  | .app (.lam ids b) es => applam_ok (ev_ok b) (ev_oks es)
  | .app (.var x) es => app_ok' (by simp) (ev_ok (.var x)) (ev_oks es)
  | .app (.set x e) es => app_ok' (by simp) (ev_ok (.set x e)) (ev_oks es)
  | .app (.ite a b c) es => app_ok' (by simp) (ev_ok (.ite a b c)) (ev_oks es)
  | .app (.prim eff p as) es => app_ok' (by simp) (ev_ok (.prim eff p as)) (ev_oks es)
  | .app (.app f as) es => app_ok' (by simp) (ev_ok (.app f as)) (ev_oks es)
  | .app (.fix ids lams b) es => app_ok' (by simp) (ev_ok (.fix ids lams b)) (ev_oks es)
  | .app (.letcc x b) es => app_ok' (by simp) (ev_ok (.letcc x b)) (ev_oks es)
  | .app (.withcc c e) es => app_ok' (by simp) (ev_ok (.withcc c e)) (ev_oks es)
  | .letcc x b => by
    intro V k t ρ ρt κ σ σt h he hk hs
    cases h with
    | simple h => cases h
    | list ho _ _ _ => rcases ho with ⟨h, _⟩ | ⟨_, _, h, _⟩ <;> cases h
    | letcc hx h =>
      refine .sync (Reach1.one rfl) (bind_k hk.now.1) (.ev h (fun y v hy hl => ?_) (KRel.var hx (by simp [Env.lookup]) hk.now.2) hs)
      simp only [Env.lookup] at hl ⊢
      by_cases hyx : y = x
      · rw [if_pos hyx] at hl ⊢
        injection hl with hl
        subst hl
        exact ⟨_, rfl, .cont hk.now.2⟩
      · rw [if_neg hyx] at hl ⊢
        exact he y v (.letcc hyx hy) hl
  | .withcc c e => by
    intro V k t ρ ρt κ σ σt h he hk hs
    cases h with
    | simple h => cases h
    | list ho _ _ _ => rcases ho with ⟨h, _⟩ | ⟨_, _, h, _⟩ <;> cases h
    | withccV hx h =>
      rename_i x
      refine .src (Reach.one (b := .ev (.var x) ρ (.withcc e ρ) σ) rfl) ?_
      rcases hl : ρ.lookup x with _ | v
      · exact .fail (Fails.now (by simp [step, hx, hl]) (fun _ _ => by simp))
      · obtain ⟨w, hw, hvw⟩ := he x v (.withccK _ .var) hl
        refine .src ((Evals.local hx hl σ) _).reach ?_
        by_cases hp : v.view = .proc
        · refine .src (Reach.one (b := .ev e ρ (.throw v) σ) (by simp [step, hp])) ?_
          exact ev_ok e _ _ _ _ _ _ _ _ h (he.mono (fun y hy => .withccE _ hy)) (KRel.var hx hw (.throw hp hvw)) hs
        · exact .fail (Fails.now (by simp [step, hp]) (fun _ _ => by simp))
    | withccT h =>
      rename_i eff
      have he' : Evals M cpsOrder (.prim eff .ktrap []) ρ σ .trap σ :=
        EvalL.prim (by simp [cpsOrder, simpleAll, posFrom]) (.nil σ) rfl
      refine .src ((Reach.one (f := step M cpsOrder) (b := .ev (.prim eff .ktrap []) ρ (.withcc e ρ) σ) rfl).trans
        ((he' _).reach.trans (Reach.one (f := step M cpsOrder) (b := .ev e ρ (.throw .trap) σ) rfl))) ?_
      exact ev_ok e _ _ _ _ _ _ _ _ h (he.mono (fun y hy => .withccE _ hy))
        ⟨fun _ _ => trivial, fun _ _ => .throw rfl .trap⟩ hs
    | withccL hk0 hf0 hb h =>
      rename_i kid ids b tb
      refine .src (Reach.cons (b := .ev (.lam ids b) ρ (.withcc e ρ) σ) rfl (Reach.cons (b := .ret (.clos ids b ρ) (.withcc e ρ) σ) rfl
        (Reach.one (b := .ev e ρ (.throw (.clos ids b ρ)) σ) rfl))) ?_
      refine ev_ok e _ _ _ _ _ _ _ _ h (he.mono (fun y hy => .withccE _ hy)) (KRel.lam (fun ρ' hag => ?_)) hs
      have he' : ERel (fun x => Free x (.lam ids b)) ρ ρ' := ERel.agree (he.mono (fun y hy => .withccK _ hy)) hag
      exact .throw rfl (.clos hk0 hf0 hb he'.ex he'.val)
    | withccC hne hr hfe hfr h1 h2 =>
      refine .src (Reach.one rfl) (ev_ok c _ _ _ _ _ _ _ _ h1 (he.mono (fun y hy => .withccK _ hy)) (KRel.lam (fun ρ' hag => ?_)) hs)
      have he' : ERel (fun x => Free x e) ρ ρ' := ERel.agree (he.mono (fun y hy => .withccE _ hy)) hag
      exact .withcc hne hr hfe hfr h2 he'.ex he'.val
/-- lists of them. -/
theorem ev_oks : ∀ es : List Exp, ∀ e ∈ es, EOk M e
  | [] => fun _ h => nomatch h
  | e :: es => fun e' h => by
    rcases List.mem_cons.mp h with h | h
    · rw [h]; exact ev_ok e
    · exact ev_oks es e' h
end

/-! ### calls and returns -/

theorem CpsSs.get {es ts : List Exp} : CpsSs es ts → ∀ {i : Nat} {e : Exp}, es[i]? = some e → ∃ t, ts[i]? = some t ∧ CpsS e t := by
  intro h
  induction es generalizing ts with
  | nil => intro i e he; simp at he
  | cons a es ih =>
    cases h with
    | cons h1 h2 =>
      intro i e he
      cases i with
      | zero =>
        simp only [List.getElem?_cons_zero, Option.some.injEq] at he
        subst he
        exact ⟨_, rfl, h1⟩
      | succ i =>
        obtain ⟨t, ht, hc⟩ := ih h2 (i := i) (e := e) (by simpa using he)
        exact ⟨t, by simpa using ht, hc⟩

/-- calling the procedure of a continuation lambda. -/
theorem ap_k {ek r : Id} {t : Exp} {ρt : Env} {a u : Val} {σt : Store W} :
    Reach1 (step M leftToRight) (.ap (.clos [ek, r] t ρt) [a, u] .halt σt) (.ev t (.bind ek a (.bind r u ρt)) .halt σt) :=
  Reach1.one rfl

theorem lookup2 {ek r z : Id} {ρt : Env} {a u : Val} (h1 : z ≠ ek) (h2 : z ≠ r) :
    (Env.bind ek a (.bind r u ρt)).lookup z = ρt.lookup z := by
  simp only [Env.lookup, if_neg h1, if_neg h2]

theorem lookup_r {ek r : Id} {ρt : Env} {a u : Val} (h1 : ek ≠ r) : (Env.bind ek a (.bind r u ρt)).lookup r = some u := by
  simp only [Env.lookup, if_neg h1.symm, if_true]

theorem agree2 {V : Id → Prop} {ek r : Id} {ρt : Env} {a u : Val} (h1 : ¬ V ek) (h2 : ¬ V r) :
    Agree V ρt (.bind ek a (.bind r u ρt)) := (Agree.bind h2).trans (Agree.bind h1)

mutual
/-- calls. -/
theorem ap_ok : {f g : Val} → VRel f g → ∀ (vs ws : List Val) (κ : Kont) (w : Val) (σ σt : Store W), List.Forall₂ VRel vs ws → KVal κ w →
    SRel σ σt → Out M (.ap f vs κ σ) (.ap g (w :: ws) .halt σt)
  | _, _, .atom _ => fun _ _ _ _ _ _ _ _ _ => .fail (Fails.now rfl (fun _ _ => by simp))
  | _, _, .pair _ _ => fun _ _ _ _ _ _ _ _ _ => .fail (Fails.now rfl (fun _ _ => by simp))
  | _, _, .box _ => fun _ _ _ _ _ _ _ _ _ => .fail (Fails.now rfl (fun _ _ => by simp))
  | _, _, .trap => fun _ _ _ _ _ _ _ _ _ => .fail (Fails.now rfl (fun _ _ => by simp))
  | _, _, .clos (k := k) (ids := ids) (b := b) (t := t) (ρ := ρ) (ρt := ρt) hk hf hc h1 h2 => by
    intro vs ws κ w σ σt hv hkv hs
    by_cases hl : ids.length = vs.length
    · have r1 : Reach1 (step M cpsOrder) (.ap (.clos ids b ρ) vs κ σ) (.ev b (bindAll ids vs ρ) κ σ) :=
        Reach1.one (by simp only [step]; rw [if_pos hl])
      have r2 : Reach1 (step M leftToRight) (.ap (.clos (k :: ids) t ρt) (w :: ws) .halt σt) (.ev t (.bind k w (bindAll ids ws ρt)) .halt σt) :=
        Reach1.one (by simp only [step]; rw [if_pos (by simp [hl, hv.length_eq])]; rfl)
      refine .sync r1 r2 (.ev hc ?_ (KRel.var hk (by simp [Env.lookup]) hkv) hs)
      refine ERel.agree (ERel.bindAll ((ERel.of h1 h2).mono (fun x ⟨hn, hx⟩ => .lam hn hx)) hv hl) (Agree.bind hf)
    · exact .fail (Fails.now (by simp only [step]; rw [if_neg hl]) (fun _ _ => by simp))
  | _, _, .rclos (ids := ids) (lams := lams) (lams' := lams') (i := i) (ρ := ρ) (ρt := ρt) hc h1 h2 => by
    intro vs ws κ w σ σt hv hkv hs
    have hfail : (∀ ps b, lams[i]? ≠ some (.lam ps b)) → Out M (.ap (.rclos ids lams i ρ) vs κ σ) (.ap (.rclos ids lams' i ρt) (w :: ws) .halt σt) := by
      intro hn
      refine .fail (Fails.now ?_ (fun _ _ => by simp))
      simp only [step]
    rcases hi : lams[i]? with _ | l
    · exact hfail (by rw [hi]; simp)
    · cases l with
      | lam ps b =>
        obtain ⟨t', ht', hcl⟩ := hc.get hi
        cases hcl with
        | lam hk hf hcb =>
        rename_i k t
        have hl' : step M cpsOrder (.ap (.rclos ids lams i ρ) vs κ σ) =
            if ps.length = vs.length then some (.ev b (bindAll ps vs (.fix ids lams ρ)) κ σ) else none := by
          simp only [step, hi]
        by_cases hl : ps.length = vs.length
        · have r1 : Reach1 (step M cpsOrder) (.ap (.rclos ids lams i ρ) vs κ σ) (.ev b (bindAll ps vs (.fix ids lams ρ)) κ σ) :=
            Reach1.one (by rw [hl', if_pos hl])
          have r2 : Reach1 (step M leftToRight) (.ap (.rclos ids lams' i ρt) (w :: ws) .halt σt)
              (.ev t (.bind k w (bindAll ps ws (.fix ids lams' ρt))) .halt σt) :=
            Reach1.one (by simp only [step, ht']; rw [if_pos (by simp [hl, hv.length_eq])]; rfl)
          refine .sync r1 r2 (.ev hcb ?_ (KRel.var hk (by simp [Env.lookup]) hkv) hs)
          refine ERel.agree (ERel.bindAll ?_ hv hl) (Agree.bind hf)
          have he0 : ERel (fun x => x ∉ ids ∧ ∃ l ∈ lams, Free x l) ρ ρt := by
            intro x v ⟨hn, hx⟩ hlk
            obtain ⟨u, hu⟩ := h1 x v hx hn hlk
            exact ⟨u, hu, h2 x v u hx hn hlk hu⟩
          have hm : Exp.lam ps b ∈ lams := List.mem_of_getElem? hi
          refine ERel.fix hc (he0.mono (fun x ⟨hn, hx⟩ => ⟨hn, ?_⟩))
          rcases hx with ⟨hnp, hx⟩ | hx
          · exact ⟨_, hm, .lam hnp hx⟩
          · exact hx
        · exact .fail (Fails.now (by rw [hl', if_neg hl]) (fun _ _ => by simp))
      | _ => exact hfail (by rw [hi]; simp)
  | _, _, .cont h => by
    intro vs ws κ w σ σt hv hkv hs
    rcases hv with _ | ⟨h1, _ | ⟨_, _⟩⟩
    · exact .fail (Fails.now rfl (fun _ _ => by simp))
    · exact .src (Reach.one rfl) (ret_ok h _ _ _ _ _ hkv.view h1 hs)
    · exact .fail (Fails.now rfl (fun _ _ => by simp))
/-- returns. -/
theorem ret_ok : {κ : Kont} → {w : Val} → KVal κ w → ∀ (v u a : Val) (σ σt : Store W), a.view = .proc → VRel v u → SRel σ σt →
    Out M (.ret v κ σ) (.ap w [a, u] .halt σt)
  | _, _, .halt (ek := ek) (r := r) (ρt := ρt) hne hr => by
    intro v u a σ σt _ hv hs
    refine Or.inr (Or.inl ⟨v, u, σ.world, Reach.one rfl, ?_, hv.view⟩)
    refine ap_k.reach.trans (Reach.cons (b := .args (.prim ⟨true, true, true⟩ .halt) [.var r] (fun _ => .trap) [0] _ .halt σt) rfl ?_)
    refine (args_step (e := .var r) rfl (Evals.local hr (lookup_r hne) σt)).reach.trans (Reach.one ?_)
    simp only [step, vals, List.length_cons, List.length_nil, Nat.zero_add, List.range_one, List.map_cons, List.map_nil, doPrim, upd, if_true, hs.world]
  | _, _, .trap _ _ => fun _ _ _ _ _ _ _ _ => .fail (Fails.now rfl (fun _ _ => by simp))
  | _, _, .throw hp h => by
    intro v u a σ σt ha hv hs
    exact .src (Reach.one rfl) (ap_ok h _ _ _ _ _ _ (.cons hv .nil) (.trap a ha) hs)
  | _, _, .set (x := x) (ek := ek) (r := r) (k := k) (κ := κ) (ρt := ρt) (V := V) hx hne hr hVe hVr hex hval => by
    intro v u a σ σt ha hv hs
    have hag : Agree V ρt (.bind ek a (.bind r u ρt)) := agree2 hVe hVr
    have e1 : Evals M leftToRight (.set x (.var r)) (.bind ek a (.bind r u ρt)) σt (.atom 1)
        { σt with glob := fun y => if y = x then some u else σt.glob y } := by
      intro κ'
      refine Reach1.cons (b := .ev (.var r) (.bind ek a (.bind r u ρt)) (.set x κ') σt) (by simp [step, hx]) ((Evals.local hr (lookup_r hne) σt _).reach.trans (Reach.one rfl))
    refine .sync (Reach1.one rfl) (ap_k.trans (call_k (hex _ hag) e1).reach) (.ret rfl (.atom 1) (hval _ hag) ⟨fun y => ?_, hs.heap, hs.world⟩)
    by_cases hy : y = x
    · exact Or.inr ⟨v, u, by simp [hy], by simp [hy], hv⟩
    · simpa [hy] using hs.glob y
  | _, _, .ite (V := V) (b := b) (c := c) (k := k) (tb := tb) (tc := tc) (ek := ek) (r := r) (ρ := ρ) (ρt := ρt) (κ := κ)
      hne hr hVe hVr hfeb hfrb hfec hfrc hb hc he1 he2 hex hval => by
    intro v u a σ σt ha hv hs
    have hag : Agree V ρt (.bind ek a (.bind r u ρt)) := agree2 hVe hVr
    have hk : KRel V κ k (.bind ek a (.bind r u ρt)) := ⟨fun ρ' h => hex ρ' (hag.trans h), fun ρ' h => hval ρ' (hag.trans h)⟩
    have he : ERel (fun x => Free x b ∨ Free x c) ρ (.bind ek a (.bind r u ρt)) :=
      (ERel.of he1 he2).agree (agree2 (fun h => h.elim hfeb hfec) (fun h => h.elim hfrb hfrc))
    have r1 : Reach1 (step M cpsOrder) (.ret v (.ite b c ρ κ) σ) (.ev (if v.isFalse then c else b) ρ κ σ) := Reach1.one rfl
    have r2 : Reach1 (step M leftToRight) (.ap (.clos [ek, r] (.ite (.var r) tb tc) ρt) [a, u] .halt σt)
        (.ev (if v.isFalse then tc else tb) (.bind ek a (.bind r u ρt)) .halt σt) :=
      ap_k.trans (Reach.cons rfl ((Evals.local hr (lookup_r hne) σt _).reach.trans (Reach.one (by simp only [step]; rw [hv.isFalse]))))
    by_cases hvf : v.isFalse = true
    · simp only [hvf, if_true] at r1 r2
      exact .sync r1 r2 (.ev hc (he.mono (fun x hx => Or.inr hx)) hk hs)
    · simp only [hvf, if_false, Bool.false_eq_true] at r1 r2
      exact .sync r1 r2 (.ev hb (he.mono (fun x hx => Or.inl hx)) hk hs)
  | _, _, .begin (V := V) (x := x) (y := y) (ek := ek) (e := e) (b := b) (k := k) (tb := tb) (d := d) (ρ := ρ) (ρt := ρt) (κ := κ)
      hfx hne hVe hVy hfe hfy hb he1 he2 hex hval => by
    intro v u a σ σt ha hv hs
    have hag : Agree V ρt (.bind ek a (.bind y u ρt)) := agree2 hVe hVy
    have hk : KRel V κ k (.bind ek a (.bind y u ρt)) := ⟨fun ρ' h => hex ρ' (hag.trans h), fun ρ' h => hval ρ' (hag.trans h)⟩
    have he : ERel (fun x => Free x b) ρ (.bind ek a (.bind y u ρt)) := (ERel.of he1 he2).agree (agree2 hfe hfy)
    have r1 : Reach1 (step M cpsOrder) (.ret v (.args .call [.lam [x] b, e] d 1 [0] ρ κ) σ) (.ev b (.bind x v ρ) κ σ) := by
      refine Reach1.cons rfl ((args_step (e := .lam [x] b) rfl (Evals.lam _ _ _ _)).reach.trans
        (Reach.cons (b := .ap (.clos [x] b ρ) [v] κ σ) ?_ (Reach.one ?_)))
      · simp [step, vals, upd, List.range_succ]
      · rfl
    refine .sync r1 ap_k (.ev hb (fun z w hz hl => ?_) hk hs)
    have n1 : z ≠ x := fun e => hfx (by rw [← e]; exact hz)
    simp only [Env.lookup, if_neg n1] at hl
    exact he z w hz hl
  | _, _, .idlet (x := x) (e := e) (d := d) (ρ := ρ) (κ := κ) hx h => by
    intro v u a σ σt ha hv hs
    have r1 : Reach (step M cpsOrder) (.ret v (.args .call [.lam [x] (.var x), e] d 1 [0] ρ κ) σ) (.ret v κ σ) := by
      refine Reach.cons rfl ((args_step (e := .lam [x] (.var x)) rfl (Evals.lam _ _ _ _)).reach.trans
        (Reach.cons (b := .ap (.clos [x] (.var x) ρ) [v] κ σ) ?_ (Reach.cons (b := .ev (.var x) (.bind x v ρ) κ σ) rfl (Evals.local hx ?_ σ κ).reach)))
      · simp [step, vals, upd, List.range_succ]
      · simp [Env.lookup]
    exact .src r1 (ret_ok h _ _ _ _ _ ha hv hs)
  | _, _, .list (V := V) (op := op) (es := es) (args := args) (k := k) (fin := fin) (t := t) (d := d) (i := i) (is := is) (ek := ek) (r := r)
      (ρ := ρ) (ρt := ρt) (κ := κ) ha hf hc hcx hek hn he1 he2 hd1 hd2 hex hval => by
    intro v u a σ σt hap hv hs
    have hfr := ha.fresh i r hcx
    have hag : Agree V ρt (.bind ek a (.bind r u ρt)) := agree2 (fun h => hek (Or.inl h)) hfr.2.1
    have hk : KRel V κ k (.bind ek a (.bind r u ρt)) := ⟨fun ρ' h => hex ρ' (hag.trans h), fun ρ' h => hval ρ' (hag.trans h)⟩
    have he : ERel (fun x => ∃ e ∈ es, Free x e) ρ (.bind ek a (.bind r u ρt)) := (ERel.of he1 he2).agree
      (agree2 (fun h => hek (Or.inr (Or.inl h))) (fun ⟨e, hm, hx⟩ => hfr.2.2 e hm hx))
    have hne : ek ≠ r := fun e => hek (Or.inr (Or.inr ⟨i, by rw [e]; exact hcx⟩))
    have hni : i ∉ is := (List.nodup_cons.mp hn).1
    refine .src (Reach.one rfl) (.tgt ap_k.reach (code_ok (fun e _ => ev_ok e) ha hf hc (List.nodup_cons.mp hn).2
      (fun j x hx hj => ?_) he hk hs))
    · by_cases hji : j = i
      · subst hji
        obtain ⟨_, _, _, h3⟩ := hx
        obtain ⟨_, _, _, h3'⟩ := hcx
        rw [h3] at h3'
        injection h3' with h3'
        injection h3' with h3'
        subst h3'
        exact ⟨u, lookup_r hne, by simpa [upd] using hv⟩
      · obtain ⟨w, hw⟩ := hd1 j x hx hji hj
        have n1 : x ≠ ek := fun e => hek (Or.inr (Or.inr ⟨j, by rw [← e]; exact hx⟩))
        have n2 : x ≠ r := fun e => hji (ha.inj j i x hx (by rw [e]; exact hcx))
        refine ⟨w, by rw [lookup2 n1 n2]; exact hw, ?_⟩
        simp only [upd, if_neg hji]
        exact hd2 j x w hx hji hj hw
  | _, _, .withcc (ek := ek) (r := r) (e := e) (t := t) (ρ := ρ) (ρt := ρt) hne hr hfe hfr hc he1 he2 => by
    intro v u a σ σt ha hv hs
    by_cases hp : v.view = .proc
    · have r1 : Reach1 (step M cpsOrder) (.ret v (.withcc e ρ) σ) (.ev e ρ (.throw v) σ) := Reach1.one (by simp [step, hp])
      exact .sync r1 ap_k (.ev hc ((ERel.of he1 he2).agree (agree2 hfe hfr)) (KRel.var hr (lookup_r hne) (.throw hp hv)) hs)
    · exact .fail (Fails.now (by simp [step, hp]) (fun _ _ => by simp))
end

/-- The simulation. -/
theorem sim : Sim (step M cpsOrder) (step M leftToRight) (Sync (W := W)) where
  next := by
    intro s t h
    cases h with
    | ev hc he hk hs => exact ev_ok _ _ _ _ _ _ _ _ _ hc he hk hs
    | ap hf hv hk hs => exact ap_ok hf _ _ _ _ _ _ hv hk hs
    | ret ha hv hk hs => exact ret_ok hk _ _ _ _ _ ha hv hs
  world := by
    intro s t h
    cases h with
    | ev _ _ _ hs => exact hs.world
    | ap _ _ _ hs => exact hs.world
    | ret _ _ _ hs => exact hs.world

end Verif.Cps

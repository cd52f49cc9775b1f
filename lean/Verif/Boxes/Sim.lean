import Verif.Boxes.Entry
/-
A program with assignments and its boxed form run in step (C33).
-/
namespace Verif.Boxes
open Verif.Core
variable {W : Type} {M : Sem W} {ord : Op → Nat → List Nat}

/-- `s` fails, both finish alike, or both get to related states. -/
def Out (M : Sem W) (ord : Op → Nat → List Nat) (s t : State W) : Prop :=
  Fails (cstep M (positional ord)) s ∨
  (∃ v v' w, Reach (cstep M (positional ord)) s (.done v w) ∧ Reach (step M (positional ord)) t (.done v' w) ∧ v.view = v'.view) ∨
  (∃ s' t', Reach1 (cstep M (positional ord)) s s' ∧ Reach1 (step M (positional ord)) t t' ∧ Sync s' t')

theorem Out.src {s s' t : State W} (h : Reach (cstep M (positional ord)) s s') (ho : Out M ord s' t) : Out M ord s t := by
  rcases ho with hf | ⟨v, v', w, h1, h2, hv⟩ | ⟨a, b, h1, h2, hs⟩
  · exact Or.inl (hf.of_reach h)
  · exact Or.inr (Or.inl ⟨v, v', w, h.trans h1, h2, hv⟩)
  · exact Or.inr (Or.inr ⟨a, b, h.trans1 h1, h2, hs⟩)

theorem Out.sync {s s' t t' : State W} (h1 : Reach1 (cstep M (positional ord)) s s') (h2 : Reach1 (step M (positional ord)) t t')
    (hs : Sync s' t') : Out M ord s t := Or.inr (Or.inr ⟨s', t', h1, h2, hs⟩)

theorem Out.fail {s t : State W} (h : cstep M (positional ord) s = none) (hd : ∀ v w, s ≠ .done v w) : Out M ord s t :=
  Or.inl (Fails.now h hd)

/-! ### stores -/

theorem SRel.set_glob {μ : List Cell} {σ σt : Store W} {v w : Val} (h : SRel μ σ σt) (x : Id) (hv : VRel μ v w) :
    SRel μ { σ with glob := fun y => if y = x then some v else σ.glob y } { σt with glob := fun y => if y = x then some w else σt.glob y } := by
  refine ⟨fun y => ?_, h.heap, h.world⟩
  by_cases hy : y = x
  · right; exact ⟨v, w, by simp [hy], by simp [hy], hv⟩
  · simp only [hy, if_false]; exact h.glob y

theorem SRel.set_heap {μ : List Cell} {σ σt : Store W} {v w : Val} {a a' : Nat} (h : SRel μ σ σt) (ha : μ[a]? = some (.box a'))
    (hv : VRel μ v w) : SRel μ { σ with heap := σ.heap.set a v } { σt with heap := σt.heap.set a' w } := by
  have hlt' := h.boxlt ha
  refine ⟨h.glob, ⟨by simp [h.heap.len], ?_, ?_, h.heap.inj⟩, h.world⟩
  · intro b u z hu hz
    simp only [List.getElem?_set] at hu
    split at hu
    · rename_i e; subst e; rw [ha] at hz; cases hz
    · exact h.heap.imm b u z hu hz
  · intro b u b' hu hb
    simp only [List.getElem?_set] at hu ⊢
    split at hu
    · rename_i e
      subst e
      rw [ha] at hb; injection hb with hb; injection hb with hb; subst hb
      split at hu
      · injection hu with hu; subst hu
        exact ⟨w, by simp [hlt'], hv⟩
      · cases hu
    · rename_i hne
      obtain ⟨z, hz, hr⟩ := h.heap.box b u b' hu hb
      have : a' ≠ b' := fun e => hne (h.heap.inj a b a' ha (e ▸ hb))
      exact ⟨z, by rw [if_neg this]; exact hz, hr⟩

theorem forall₂_view {μ : List Cell} {vs ws : List Val} (h : List.Forall₂ (VRel μ) vs ws) : vs.map Val.view = ws.map Val.view := by
  induction h with
  | nil => rfl
  | cons h1 _ ih => simp [h1.view, ih]

theorem VRel.false {μ : List Cell} {v w : Val} (h : VRel μ v w) : v.isFalse = w.isFalse := by
  cases h <;> rfl

/-- primitives. -/
theorem doPrim_rel {μ : List Cell} {p : PrimName} {vs ws : List Val} {σ σt : Store W} (hv : List.Forall₂ (VRel μ) vs ws) (hs : SRel μ σ σt) :
    doPrim M p vs σ = none ∨
    (∃ v w, doPrim M p vs σ = some (.stop v) ∧ doPrim M p ws σt = some (.stop w) ∧ VRel μ v w) ∨
    (∃ μ' v w σ' σt', doPrim M p vs σ = some (.ok v σ') ∧ doPrim M p ws σt = some (.ok w σt') ∧ Ext μ μ' ∧ VRel μ' v w ∧ SRel μ' σ' σt') := by
  cases p with
  | void =>
    cases hv with
    | nil => exact Or.inr (Or.inr ⟨μ, _, _, σ, σt, rfl, rfl, Ext.refl _, .atom 1, hs⟩)
    | cons => exact Or.inl rfl
  | halt =>
    cases hv with
    | nil => exact Or.inl rfl
    | cons h1 h2 =>
      cases h2 with
      | nil => exact Or.inr (Or.inl ⟨_, _, rfl, rfl, h1⟩)
      | cons => exact Or.inl rfl
  | ktrap =>
    cases hv with
    | nil => exact Or.inr (Or.inr ⟨μ, _, _, σ, σt, rfl, rfl, Ext.refl _, .trap, hs⟩)
    | cons => exact Or.inl rfl
  | box =>
    cases hv with
    | nil => exact Or.inl rfl
    | cons h1 h2 =>
      cases h2 with
      | nil =>
        rename_i v w
        right; right
        refine ⟨μ ++ [.box σt.heap.length], _, _, _, _, rfl, rfl, Ext.append _ _, ?_, ?_⟩
        · refine .box ?_
          rw [← hs.heap.len]; simp
        · refine hs.alloc rfl ?_ ?_ ?_
          · intro j v' w' hj hc
            cases j <;> simp at hc
          · intro j v' a hj hc
            cases j with
            | zero =>
              simp at hj hc; subst hj; subst hc
              exact ⟨Nat.le_refl _, w, by simp, h1.mono (Ext.append _ _)⟩
            | succ => simp at hj
          · intro j1 j2 a h1 h2
            have := lt_of_get h1; have := lt_of_get h2
            simp at *; omega
      | cons => exact Or.inl (by simp [doPrim])
  | boxref =>
    cases hv with
    | nil => exact Or.inl rfl
    | cons h1 h2 =>
      cases h2 with
      | cons => exact Or.inl (by cases h1 <;> simp [doPrim])
      | nil =>
        cases h1 with
        | box ha =>
          rename_i a a'
          cases hg : σ.heap[a]? with
          | none => exact Or.inl (by simp [doPrim, hg])
          | some v =>
            obtain ⟨w, hw, hr⟩ := hs.heap.box a v a' hg ha
            exact Or.inr (Or.inr ⟨μ, v, w, σ, σt, by simp [doPrim, hg], by simp [doPrim, hw], Ext.refl _, hr, hs⟩)
        | _ => exact Or.inl rfl
  | boxset =>
    cases hv with
    | nil => exact Or.inl rfl
    | cons h1 h2 =>
      cases h2 with
      | nil => exact Or.inl (by cases h1 <;> simp [doPrim])
      | cons h2 h3 =>
        cases h3 with
        | cons => exact Or.inl (by cases h1 <;> simp [doPrim])
        | nil =>
          cases h1 with
          | box ha =>
            rename_i v w a a'
            have hl := lt_of_get ha
            rw [hs.heap.len] at hl
            exact Or.inr (Or.inr ⟨μ, v, w, _, _, by simp only [doPrim, if_pos hl], by simp only [doPrim, if_pos (hs.boxlt ha)], Ext.refl _, h2,
              hs.set_heap ha h2⟩)
          | _ => exact Or.inl rfl
  | cons =>
    cases hv with
    | nil => exact Or.inl rfl
    | cons h1 h2 =>
      cases h2 with
      | nil => exact Or.inl rfl
      | cons h2 h3 =>
        cases h3 with
        | nil => exact Or.inr (Or.inr ⟨μ, _, _, σ, σt, rfl, rfl, Ext.refl _, .pair h1 h2, hs⟩)
        | cons => exact Or.inl rfl
  | car =>
    cases hv with
    | nil => exact Or.inl rfl
    | cons h1 h2 =>
      cases h2 with
      | cons => exact Or.inl (by cases h1 <;> simp [doPrim])
      | nil =>
        cases h1 with
        | pair ha hd => exact Or.inr (Or.inr ⟨μ, _, _, σ, σt, rfl, rfl, Ext.refl _, ha, hs⟩)
        | _ => exact Or.inl rfl
  | cdr =>
    cases hv with
    | nil => exact Or.inl rfl
    | cons h1 h2 =>
      cases h2 with
      | cons => exact Or.inl (by cases h1 <;> simp [doPrim])
      | nil =>
        cases h1 with
        | pair ha hd => exact Or.inr (Or.inr ⟨μ, _, _, σ, σt, rfl, rfl, Ext.refl _, hd, hs⟩)
        | _ => exact Or.inl rfl
  | op n =>
    cases ho : M.op n (vs.map Val.view) σ.world with
    | none => exact Or.inl (by simp [doPrim, ho])
    | some r =>
      have ho' : M.op n (ws.map Val.view) σt.world = some r := by rw [← forall₂_view hv, ← hs.world]; exact ho
      exact Or.inr (Or.inr ⟨μ, .atom r.1, .atom r.1, { σ with world := r.2 }, { σt with world := r.2 }, by simp only [doPrim, ho]; rfl,
        by simp only [doPrim, ho']; rfl, Ext.refl _, .atom _, ⟨hs.glob, hs.heap, rfl⟩⟩)

theorem forall₂_vals {μ : List Cell} {d d' : Nat → Val} (h : ∀ j, VRel μ (d j) (d' j)) (n : Nat) :
    List.Forall₂ (VRel μ) (vals d n) (vals d' n) := by
  simp only [vals]
  induction List.range n with
  | nil => exact .nil
  | cons i l ih => exact .cons (h i) ih

/-! ### orders of evaluation -/

theorem fair_one (hf : FairPos ord) (op : Op) : ord op 1 = [0] := List.perm_singleton.mp (hf op 1)

theorem fair_two (hf : FairPos ord) (op : Op) : ord op 2 = [0, 1] ∨ ord op 2 = [1, 0] := by
  have h := hf op 2
  have hl := h.length_eq
  have hn := h.nodup_iff.mpr List.nodup_range
  have hm := fun j => h.mem_iff (a := j)
  generalize ord op 2 = l at h hl hn hm
  match l, hl with
  | [a, b], _ =>
    have ha := (hm a).mp (by simp); have hb := (hm b).mp (by simp)
    simp at ha hb hn
    have : (a = 0 ∧ b = 1) ∨ (a = 1 ∧ b = 0) := by omega
    rcases this with ⟨rfl, rfl⟩ | ⟨rfl, rfl⟩
    · exact Or.inl rfl
    · exact Or.inr rfl

/-! ### evaluation -/

theorem cev {M : Sem W} {o : Op → List Exp → List Nat} {x : Id} {ρ : Env} {κ : Kont} {σ : Store W} : cstep M o (.ev (.var x) ρ κ σ) =
    match (if x.isGlobal then σ.glob x else fetch x ρ σ.heap) with
    | some v => some (.ret v κ σ)
    | none => none := rfl

/-- the contents of a variable and of its image. -/
theorem fetch_imm {μ : List Cell} {ρ : Env} {σ σt : Store W} {x : Id} {v w : Val} (hs : SRel μ σ σt) (hl : ρ.lookup x = some v)
    (hc : CRel μ false v w) : fetch x ρ σ.heap = none ∨ ∃ u, fetch x ρ σ.heap = some u ∧ VRel μ u w := by
  cases hc with
  | imm ha =>
    rename_i a
    have hlt := lt_of_get ha
    rw [hs.heap.len] at hlt
    right
    exact ⟨_, by simp only [fetch, hl]; exact List.getElem?_eq_getElem hlt, hs.heap.imm a _ w (List.getElem?_eq_getElem hlt) ha⟩
  | fix h => right; exact ⟨_, by simp only [fetch, hl], h⟩

theorem idxOf_none {x : Id} : ∀ {ids : List Id}, idxOf x ids = none ↔ x ∉ ids := by
  intro ids
  induction ids with
  | nil => simp [idxOf]
  | cons y ys ih =>
    by_cases h : x = y
    · simp [idxOf, h]
    · simp [idxOf, h, ih]

theorem idxOf_mem {x : Id} {ids : List Id} {i : Nat} (h : idxOf x ids = some i) : x ∈ ids := by
  refine Classical.byContradiction fun hn => ?_
  rw [idxOf_none.mpr hn] at h; cases h

/-- the environment inside of a `fix`. -/
theorem ERel.fix {μ : List Cell} {s : Id → Option Id} {ids : List Id} {lams lams' : List Exp} {ρ ρt : Env} {S : Id → Prop}
    (hl : Bxs s lams lams') (h1 : ∀ x ∈ ids, s x = none) (h2 : ∀ y, (∃ l ∈ lams, Free y l) → y ∉ ids → tv s y ∉ ids)
    (h2' : ∀ y, S y → y ∉ ids → tv s y ∉ ids) (he : ERel μ s (fun y => (∃ l ∈ lams, Free y l) ∧ y ∉ ids) ρ ρt)
    (he' : ERel μ s (fun y => S y ∧ y ∉ ids) ρ ρt) : ERel μ s S (.fix ids lams ρ) (.fix ids lams' ρt) := by
  intro y v hy hlk
  rw [Env.lookup] at hlk
  cases hi : idxOf y ids with
  | some i =>
    rw [hi] at hlk; injection hlk with hlk; subst hlk
    have hsy := h1 y (idxOf_mem hi)
    refine ⟨.rclos ids lams' i ρt, ?_, ?_⟩
    · rw [tv, hsy]
      simp only [Option.getD_none, Env.lookup, hi]
    · rw [hsy]
      exact .fix (.rclos hl h1 h2 (fun x v hx hn => he.ex x v ⟨hx, hn⟩) (fun x v w hx hn => he.all x v w ⟨hx, hn⟩))
  | none =>
    rw [hi] at hlk
    simp only at hlk
    have hm : y ∉ ids := idxOf_none.mp hi
    obtain ⟨w, hw, hc⟩ := he' y v ⟨hy, hm⟩ hlk
    refine ⟨w, ?_, hc⟩
    rw [Env.lookup, idxOf_none.mpr (h2' y hy hm)]; exact hw

theorem ev_ok (hf : FairPos ord) {s : Id → Option Id} : (e : Exp) → ∀ (t : Exp), Bx s e t → ∀ {μ : List Cell} {ρ ρt : Env} {κ κ' : Kont}
    {σ σt : Store W}, ERel μ s (fun x => Free x e) ρ ρt → KRel μ κ κ' → SRel μ σ σt →
    Out M ord (.ev e ρ κ σ) (.ev t ρt κ' σt)
  | .var x, t, hb, μ, ρ, ρt, κ, κ', σ, σt, he, hk, hs => by
    cases hb with
    | var hx =>
      cases hg : x.isGlobal with
      | true =>
        rcases hs.glob x with ⟨h1, _⟩ | ⟨v, w, h1, h2, h3⟩
        · exact .fail (by simp [cev, hg, h1]) (fun _ _ => by simp)
        · exact .sync (s' := .ret v κ σ) (t' := .ret w κ' σt) (Reach1.one (by simp [cev, hg, h1])) (Reach1.one (by simp [step, hg, h2]))
            (.ret h3 hk hs)
      | false =>
        cases hl : ρ.lookup x with
        | none => exact .fail (by simp [cev, hg, fetch, hl]) (fun _ _ => by simp)
        | some v =>
          obtain ⟨w, hw, hc⟩ := he x v .var hl
          rw [tv, hx] at hw
          rw [hx] at hc
          rcases fetch_imm hs hl hc with hn | ⟨u, hu, hr⟩
          · exact .fail (by simp [cev, hg, hn]) (fun _ _ => by simp)
          · exact .sync (s' := .ret u κ σ) (t' := .ret w κ' σt) (Reach1.one (by simp [cev, hg, hu]))
              (Reach1.one (by simp only [step, hg, Bool.false_eq_true, if_false]; rw [show ρt.lookup x = some w from hw]))
              (.ret hr hk hs)
    | vbox hg hx hbg =>
      rename_i b
      cases hl : ρ.lookup x with
      | none => exact .fail (by simp [cev, hg, fetch, hl]) (fun _ _ => by simp)
      | some v =>
        obtain ⟨w, hw, hc⟩ := he x v .var hl
        rw [tv, hx] at hw
        rw [hx] at hc
        cases hc with
        | boxed ha =>
          rename_i a a'
          have hlt := lt_of_get ha
          rw [hs.heap.len] at hlt
          obtain ⟨w, hwa, hr⟩ := hs.heap.box a _ a' (List.getElem?_eq_getElem hlt) ha
          have r2 : Reach1 (step M (positional ord)) (.ev (boxrefExp (.var b)) ρt κ' σt) (.ret w κ' σt) :=
            EvalL.prim (ord := positional ord) (as := [.var b]) (fair_one hf (.prim ⟨false, true, false⟩ .boxref)) (.cons (Evals.local hbg hw _) (.nil _)) (by simp [doPrim, hwa]) κ'
          exact .sync (s' := .ret σ.heap[a] κ σ) (Reach1.one (by simp [cev, hg, fetch, hl, hlt])) r2 (.ret hr hk hs)
  | .set x e, t, hb, μ, ρ, ρt, κ, κ', σ, σt, he, hk, hs => by
    cases hb with
    | gset hg hb =>
      rename_i t
      exact .sync (s' := .ev e ρ (.set x κ) σ) (t' := .ev t ρt (.set x κ') σt) (Reach1.one (by simp [cstep, hg])) (Reach1.one (by simp [step, hg]))
        (.ev hb (he.sub (fun y hy => .set x hy)) (.set hk) hs)
    | lset hg hx hbg hb =>
      rename_i b t
      cases hl : ρ.lookup x with
      | none => exact .fail (by simp [cstep, hg, hl]) (fun _ _ => by simp)
      | some v =>
        obtain ⟨w, hw, hc⟩ := he x v (.setTarget e) hl
        rw [tv, hx] at hw
        rw [hx] at hc
        cases hc with
        | boxed ha =>
          rename_i a a'
          have r1 : Reach1 (cstep M (positional ord)) (.ev (.set x e) ρ κ σ)
              (.ev e ρ (.args (.prim noEffect .boxset) [.var x, e] (upd (fun _ => .trap) 0 (.box a)) 1 [] ρ κ) σ) :=
            Reach1.one (by simp [cstep, hg, hl])
          rcases fair_two hf (.prim ⟨false, false, true⟩ .boxset) with h2 | h2
          · have r2 : Reach1 (step M (positional ord)) (.ev (boxsetExp (.var b) t) ρt κ' σt)
                (.ev t ρt (.args (.prim ⟨false, false, true⟩ .boxset) [.var b, t] (upd (fun _ => .trap) 0 (.box a')) 1 [] ρt κ') σt) := by
              refine Reach1.cons (b := .args (.prim ⟨false, false, true⟩ .boxset) [.var b, t] (fun _ => .trap) [0, 1] ρt κ' σt) ?_ ?_
              · simp only [boxsetExp, step, positional, List.length_cons, List.length_nil]; rw [h2]
              · exact (args_step (M := M) (ord := positional ord) rfl (Evals.local hbg hw σt)).reach.trans (Reach.one rfl)
            exact .sync r1 r2 (.ev hb (he.sub (fun y hy => .set x hy)) (.lset hbg (by simp [upd]) ha (Or.inl ⟨rfl, by simp [upd]⟩) hk) hs)
          · have r2 : Reach1 (step M (positional ord)) (.ev (boxsetExp (.var b) t) ρt κ' σt)
                (.ev t ρt (.args (.prim ⟨false, false, true⟩ .boxset) [.var b, t] (fun _ => .trap) 1 [0] ρt κ') σt) := by
              refine Reach1.cons (b := .args (.prim ⟨false, false, true⟩ .boxset) [.var b, t] (fun _ => .trap) [1, 0] ρt κ' σt) ?_ (Reach.one rfl)
              simp only [boxsetExp, step, positional, List.length_cons, List.length_nil]; rw [h2]
            exact .sync r1 r2 (.ev hb (he.sub (fun y hy => .set x hy)) (.lset hbg (by simp [upd]) ha (Or.inr ⟨rfl, hw⟩) hk) hs)
  | .ite a b c, t, hb, μ, ρ, ρt, κ, κ', σ, σt, he, hk, hs => by
    cases hb with
    | ite ha hb hc =>
      have h' := he.sub (S' := fun x => Free x b ∨ Free x c) (fun y hy => by
        rcases hy with h | h
        · exact .iteB a c h
        · exact .iteC a b h)
      exact .sync (Reach1.one rfl) (Reach1.one rfl) (.ev ha (he.sub (fun y hy => .iteA b c hy)) (.ite hb hc h'.ex h'.all hk) hs)
  | .prim eff p es, t, hb, μ, ρ, ρt, κ, κ', σ, σt, he, hk, hs => by
    cases hb with
    | prim hb =>
      rename_i ts
      refine .sync (s' := .args (.prim eff p) es (fun _ => .trap) (ord (.prim eff p) es.length) ρ κ σ)
        (t' := .args (.prim eff p) ts (fun _ => .trap) (ord (.prim eff p) es.length) ρt κ' σt) (Reach1.one rfl) (Reach1.one ?_)
        (.args hb (he.sub (fun y ⟨e, h1, h2⟩ => .prim eff p h1 h2)) (fun _ => .trap) hk hs)
      simp only [step, positional, hb.length]
  | .app f es, t, hb, μ, ρ, ρt, κ, κ', σ, σt, he, hk, hs => by
    cases hb with
    | null hb =>
      rename_i b
      have ih := ev_ok hf b t hb (he.sub (fun y hy => .appF [] (.lam (by simp) hy))) hk hs
      refine .src ?_ ih
      refine Reach.cons (b := .args .call [.lam [] b] (fun _ => .trap) [0] ρ κ σ) ?_ ?_
      · simp only [cstep, step, positional, List.length_cons, List.length_nil]; rw [fair_one hf]
      refine Reach.cons (b := .ev (.lam [] b) ρ (.args .call [.lam [] b] (fun _ => .trap) 0 [] ρ κ) σ) rfl ?_
      refine Reach.cons (b := .ret (.clos [] b ρ) (.args .call [.lam [] b] (fun _ => .trap) 0 [] ρ κ) σ) rfl ?_
      refine Reach.cons (b := .args .call [.lam [] b] (upd (fun _ => .trap) 0 (.clos [] b ρ)) [] ρ κ σ) rfl ?_
      refine Reach.cons (b := .ap (.clos [] b ρ) [] κ σ) rfl (Reach.one ?_)
      simp [cstep, bindCells]
    | idlet hx hb =>
      rename_i x e
      have he' := he.sub (S' := fun y => Free y e) (fun y hy => .appA _ (by simp) hy)
      rcases fair_two hf .call with h2 | h2
      · have ih := ev_ok hf e t hb he' (.idlet (e := e) (d := upd (fun _ => .trap) 0 (.clos [x] (.var x) ρ)) (ρ := ρ) (ρ' := ρ) hx
          (Or.inl ⟨rfl, by simp [upd]⟩) hk) hs
        refine .src ?_ ih
        refine Reach.cons (b := .args .call [.lam [x] (.var x), e] (fun _ => .trap) [0, 1] ρ κ σ) ?_ ?_
        · simp only [cstep, step, positional, List.length_cons, List.length_nil]; rw [h2]
        refine Reach.cons (b := .ev (.lam [x] (.var x)) ρ (.args .call [.lam [x] (.var x), e] (fun _ => .trap) 0 [1] ρ κ) σ) rfl ?_
        refine Reach.cons (b := .ret (.clos [x] (.var x) ρ) (.args .call [.lam [x] (.var x), e] (fun _ => .trap) 0 [1] ρ κ) σ) rfl ?_
        exact Reach.cons (b := .args .call [.lam [x] (.var x), e] (upd (fun _ => .trap) 0 (.clos [x] (.var x) ρ)) [1] ρ κ σ) rfl (Reach.one rfl)
      · have ih := ev_ok hf e t hb he' (.idlet (e := e) (d := fun _ => .trap) (ρ := ρ) (ρ' := ρ) hx (Or.inr rfl) hk) hs
        refine .src ?_ ih
        refine Reach.cons (b := .args .call [.lam [x] (.var x), e] (fun _ => .trap) [1, 0] ρ κ σ) ?_ (Reach.one rfl)
        simp only [cstep, step, positional, List.length_cons, List.length_nil]; rw [h2]
    | app h1 h2 =>
      rename_i tf ts
      refine .sync (s' := .args .call (f :: es) (fun _ => .trap) (ord .call (f :: es).length) ρ κ σ)
        (t' := .args .call (tf :: ts) (fun _ => .trap) (ord .call (f :: es).length) ρt κ' σt) (Reach1.one rfl) (Reach1.one ?_)
        (.args (.cons h1 h2) (he.sub (fun y ⟨e, g1, g2⟩ => ?_)) (fun _ => .trap) hk hs)
      · simp only [step, positional, List.length_cons, h2.length]
      · simp only [List.mem_cons] at g1
        rcases g1 with rfl | g1
        · exact .appF es g2
        · exact .appA f g1 g2
  | .lam ids b, t, hb, μ, ρ, ρt, κ, κ', σ, σt, he, hk, hs => by
    cases hb with
    | lam hb => exact .sync (Reach1.one rfl) (Reach1.one rfl) (.ret (.clos hb he.ex he.all) hk hs)
  | .fix ids lams b, t, hb, μ, ρ, ρt, κ, κ', σ, σt, he, hk, hs => by
    cases hb with
    | fix hl hb h1 h2 =>
      refine .sync (Reach1.one rfl) (Reach1.one rfl) (.ev hb (ERel.fix hl h1 ?_ ?_ ?_ ?_) hk hs)
      · exact fun z ⟨l, hl, hz⟩ hn => h2 z (.fixL b hn hl hz)
      · exact fun z hz hn => h2 z (.fixB lams hn hz)
      · exact he.sub (fun x ⟨⟨l, hl, hx⟩, hn⟩ => .fixL b hn hl hx)
      · exact he.sub (fun x ⟨hx, hn⟩ => .fixB lams hn hx)
  | .letcc x b, t, hb, μ, ρ, ρt, κ, κ', σ, σt, he, hk, hs => by
    have r1 : Reach1 (cstep M (positional ord)) (.ev (.letcc x b) ρ κ σ)
        (.ev b (bindCells [x] σ.heap.length ρ) κ { σ with heap := σ.heap ++ [.cont κ] }) := Reach1.one rfl
    cases hb with
    | letcc0 hx hn hb =>
      refine .sync r1 (Reach1.one rfl) (.ev (μ := μ ++ [.imm (.cont κ')]) hb ?_ (hk.mono (Ext.append _ _)) ?_)
      · intro y v hy hl
        by_cases e : y = x
        · subst e
          simp [bindCells, Env.lookup] at hl
          subst hl
          refine ⟨.cont κ', ?_, ?_⟩
          · rw [tv, hx]; simp [Env.lookup]
          · rw [hx]; refine .imm ?_
            rw [← hs.heap.len]; simp
        · simp only [bindCells, Env.lookup, if_neg e] at hl
          have hfy : Free y (.letcc x b) := .letcc e hy
          obtain ⟨w, hw, hc⟩ := he y v hfy hl
          exact ⟨w, by rw [Env.lookup, if_neg (hn y hfy)]; exact hw, hc.mono (Ext.append _ _)⟩
      · have := hs.alloc (ν := [.imm (.cont κ')]) (vs := [.cont κ]) (h' := []) rfl (fun j v w hj hc => by
            cases j with
            | zero => simp at hj hc; subst hj; subst hc; exact .cont (hk.mono (Ext.append _ _))
            | succ => simp at hj)
          (fun j v a hj hc => by cases j <;> simp at hc)
          (fun j1 j2 a h1 h2 => by have := lt_of_get h1; have := lt_of_get h2; simp at *; omega)
        simpa using this
    | letcc1 hb =>
      have hρ : ERel μ s (fun y => Free y (.lam [x] b)) ρ ρt := he.sub (fun y hy => by
        cases hy with
        | lam hn hy => exact .letcc (by simpa using hn) hy)
      obtain ⟨μ', s', tb, ρt', σt', hr, hb', hμ, he', hs'⟩ := entry_reach (M := M) (κ := κ') hf (vs := [.cont κ]) (ws := [.cont κ']) hb rfl
        (.cons (.cont hk) .nil) hρ hs
      exact .sync r1 ((Reach1.one (f := step M (positional ord)) rfl).trans hr) (.ev hb' he' (hk.mono hμ) hs')
  | .withcc k e, t, hb, μ, ρ, ρt, κ, κ', σ, σt, he, hk, hs => by
    cases hb with
    | withcc h1 h2 =>
      have he' := he.sub (S' := fun x => Free x e) (fun y hy => .withccE k hy)
      exact .sync (Reach1.one rfl) (Reach1.one rfl) (.ev h1 (he.sub (fun y hy => .withccK e hy)) (.withcc h2 he'.ex he'.all) hs)

/-! ### operands, calls, returns -/

theorem args_ok {μ : List Cell} {s : Id → Option Id} {op : Op} {es ts : List Exp} {d d' : Nat → Val} {todo : List Nat} {ρ ρt : Env}
    {κ κ' : Kont} {σ σt : Store W} (hb : Bxs s es ts) (he : ERel μ s (fun x => ∃ e ∈ es, Free x e) ρ ρt) (hd : ∀ j, VRel μ (d j) (d' j))
    (hk : KRel μ κ κ') (hs : SRel μ σ σt) : Out M ord (.args op es d todo ρ κ σ) (.args op ts d' todo ρt κ' σt) := by
  cases todo with
  | cons i todo =>
    cases hi : es[i]? with
    | none => exact .fail (by cases op <;> simp [cstep, step, hi]) (fun _ _ => by simp)
    | some e =>
      obtain ⟨t, ht, hbe⟩ := hb.get hi
      refine .sync (s' := .ev e ρ (.args op es d i todo ρ κ) σ) (t' := .ev t ρt (.args op ts d' i todo ρt κ') σt)
        (Reach1.one (by cases op <;> simp [cstep, step, hi])) (Reach1.one (by cases op <;> simp [step, ht]))
        (.ev hbe (he.sub (fun y hy => ⟨e, List.mem_of_getElem? hi, hy⟩)) (.args hb he.ex he.all hd hk) hs)
  | nil =>
    have hv := forall₂_vals hd es.length
    cases op with
    | prim eff p =>
      rcases doPrim_rel (M := M) (p := p) hv hs with hn | ⟨v, w, h1, h2, hr⟩ | ⟨μ', v, w, σ', σt', h1, h2, hμ, hr, hs'⟩
      · exact .fail (by simp only [cstep, step, hn]) (fun _ _ => by simp)
      · refine Or.inr (Or.inl ⟨v, w, σ.world, Reach.one (by simp only [cstep, step, h1]), Reach.one ?_, hr.view⟩)
        simp only [step, hb.length, h2, hs.world]
      · refine .sync (s' := .ret v κ σ') (t' := .ret w κ' σt') (Reach1.one (by simp only [cstep, step, h1]))
          (Reach1.one (by simp only [step, hb.length, h2])) (.ret hr (hk.mono hμ) hs')
    | call =>
      cases es with
      | nil => exact .fail rfl (fun _ _ => by simp)
      | cons e es =>
        have hl := hb.length
        simp only [List.length_cons, vals, List.range_succ_eq_map, List.map_cons] at hv hl
        cases hv with
        | cons h1 h2 =>
          refine .sync (Reach1.one ?_) (Reach1.one ?_) (.ap h1 h2 hk hs)
          · simp only [cstep, step, vals, List.length_cons, List.range_succ_eq_map, List.map_cons]
          · simp only [step, vals, hl, List.range_succ_eq_map, List.map_cons]

theorem ap_ok (hf : FairPos ord) {μ : List Cell} {f g : Val} {vs ws : List Val} {κ κ' : Kont} {σ σt : Store W} (hfg : VRel μ f g)
    (hv : List.Forall₂ (VRel μ) vs ws) (hk : KRel μ κ κ') (hs : SRel μ σ σt) : Out M ord (.ap f vs κ σ) (.ap g ws κ' σt) := by
  cases hfg with
  | atom n => exact .fail (by simp [cstep, step]) (fun _ _ => by simp)
  | pair h1 h2 => exact .fail (by simp [cstep, step]) (fun _ _ => by simp)
  | box h => exact .fail (by simp [cstep, step]) (fun _ _ => by simp)
  | trap => exact .fail (by simp [cstep, step]) (fun _ _ => by simp)
  | clos he h1 h2 =>
    rename_i s ids b t ρ ρt
    by_cases hl : ids.length = vs.length
    · obtain ⟨μ', s', tb, ρt', σt', hr, hb, hμ, he', hs'⟩ := entry_reach (M := M) (κ := κ') hf he hl hv (ERel.mk h1 h2) hs
      exact .sync (Reach1.one (by simp only [cstep, if_pos hl]))
        ((Reach1.one (f := step M (positional ord)) (by simp only [step, if_pos (hl.trans hv.length_eq)])).trans hr) (.ev hb he' (hk.mono hμ) hs')
    · exact .fail (by simp only [cstep, if_neg hl]) (fun _ _ => by simp)
  | rclos hb h1 h2 h3 h4 =>
    rename_i s ids lams lams' i ρ ρt
    cases hi : lams[i]? with
    | none => exact .fail (by simp [cstep, hi]) (fun _ _ => by simp)
    | some l =>
      obtain ⟨t, ht, hbl⟩ := hb.get hi
      cases l with
      | lam ps b =>
        cases hbl with
        | lam he =>
          rename_i t
          have hρ : ERel μ s (fun x => Free x (.lam ps b)) (.fix ids lams ρ) (.fix ids lams' ρt) := by
            have hm : ∀ y, Free y (.lam ps b) → ∃ l ∈ lams, Free y l := fun y hy => ⟨_, List.mem_of_getElem? hi, hy⟩
            have e0 : ERel μ s (fun y => (∃ l ∈ lams, Free y l) ∧ y ∉ ids) ρ ρt := ERel.mk (fun x v h => h3 x v h.1 h.2) (fun x v w h => h4 x v w h.1 h.2)
            exact ERel.fix hb h1 h2 (fun y hy hn => h2 y (hm y hy) hn) e0 (e0.sub (fun y hy => ⟨hm y hy.1, hy.2⟩))
          by_cases hl : ps.length = vs.length
          · obtain ⟨μ', s', tb, ρt', σt', hr, hb', hμ, he', hs'⟩ := entry_reach (M := M) (κ := κ') hf he hl hv hρ hs
            exact .sync (Reach1.one (by simp only [cstep, hi, if_pos hl]))
              ((Reach1.one (f := step M (positional ord)) (by simp only [step, ht, if_pos (hl.trans hv.length_eq)])).trans hr)
              (.ev hb' he' (hk.mono hμ) hs')
          · exact .fail (by simp only [cstep, hi, if_neg hl]) (fun _ _ => by simp)
      | _ => exact .fail (by simp [cstep, hi]) (fun _ _ => by simp)
  | cont h =>
    cases hv with
    | nil => exact .fail (by simp [cstep, step]) (fun _ _ => by simp)
    | cons h1 h2 =>
      cases h2 with
      | nil => exact .sync (Reach1.one rfl) (Reach1.one rfl) (.ret h1 h hs)
      | cons => exact .fail (by simp [cstep, step]) (fun _ _ => by simp)

theorem ret_ok (hf : FairPos ord) : (κ : Kont) → ∀ (κ' : Kont) (μ : List Cell), KRel μ κ κ' → ∀ {v w : Val} {σ σt : Store W},
    VRel μ v w → SRel μ σ σt → Out M ord (.ret v κ σ) (.ret w κ' σt)
  | .halt, _, μ, hk, v, w, σ, σt, hv, hs => by
    cases hk
    exact Or.inr (Or.inl ⟨v, w, σ.world, Reach.one rfl, Reach.one (by simp [step, hs.world]), hv.view⟩)
  | .trap, _, μ, hk, v, w, σ, σt, hv, hs => .fail rfl (fun _ _ => by simp)
  | .throw p, _, μ, hk, v, w, σ, σt, hv, hs => by
    cases hk with
    | throw h => exact .sync (Reach1.one rfl) (Reach1.one rfl) (.ap h (.cons hv .nil) .trap hs)
  | .set x κ, _, μ, hk, v, w, σ, σt, hv, hs => by
    cases hk with
    | set hk => exact .sync (Reach1.one rfl) (Reach1.one rfl) (.ret (.atom 1) hk (hs.set_glob x hv))
  | .ite b c ρ κ, _, μ, hk, v, w, σ, σt, hv, hs => by
    cases hk with
    | ite hb hc h1 h2 hk =>
      rename_i s tb tc ρt κ'
      refine .sync (Reach1.one rfl) (Reach1.one rfl) ?_
      have he := ERel.mk h1 h2
      rw [← hv.false]
      cases v.isFalse with
      | true => exact .ev hc (he.sub (fun y hy => Or.inr hy)) hk hs
      | false => exact .ev hb (he.sub (fun y hy => Or.inl hy)) hk hs
  | .args op es d i todo ρ κ, _, μ, hk, v, w, σ, σt, hv, hs => by
    cases hk with
    | args hb h1 h2 hd hk =>
      refine .sync (Reach1.one rfl) (Reach1.one rfl) (.args hb (ERel.mk h1 h2) (fun j => ?_) hk hs)
      simp only [upd]
      split
      · exact hv
      · exact hd j
    | lset hb hd ha hc hk =>
      rename_i eff eff' x b e t d' a a' todo' ρt κ'
      have hl := lt_of_get ha
      rw [hs.heap.len] at hl
      have r1 : Reach1 (cstep M (positional ord)) (.ret v (.args (.prim eff .boxset) [.var x, e] d 1 [] ρ κ) σ)
          (.ret v κ { σ with heap := σ.heap.set a v }) := by
        refine Reach1.cons (b := .args (.prim eff .boxset) [.var x, e] (upd d 1 v) [] ρ κ σ) rfl (Reach.one ?_)
        simp [cstep, step, vals, upd, List.range_succ, hd, doPrim, hl]
      have r2 : Reach1 (step M (positional ord)) (.ret w (.args (.prim eff' .boxset) [.var b, t] d' 1 todo' ρt κ') σt)
          (.ret w κ' { σt with heap := σt.heap.set a' w }) := by
        have hl' := hs.boxlt ha
        refine Reach1.cons (b := .args (.prim eff' .boxset) [.var b, t] (upd d' 1 w) todo' ρt κ' σt) rfl ?_
        rcases hc with ⟨rfl, h0⟩ | ⟨rfl, h0⟩
        · refine Reach.one ?_
          simp [step, vals, upd, List.range_succ, h0, doPrim, hl']
        · refine (args_step (M := M) (ord := positional ord) rfl (Evals.local hb h0 σt)).reach.trans (Reach.one ?_)
          simp [step, vals, upd, List.range_succ, doPrim, hl']
      exact .sync r1 r2 (.ret hv hk (hs.set_heap ha hv))
    | idlet hx hc hk =>
      rename_i x e ρ'
      have hs' : SRel (μ ++ [.imm w]) { σ with heap := σ.heap ++ [v] } σt := by
        have := hs.alloc (ν := [.imm w]) (vs := [v]) (h' := []) rfl (fun j v' w' hj hc => by
            cases j with
            | zero => simp at hj hc; subst hj; subst hc; exact hv.mono (Ext.append _ _)
            | succ => simp at hj)
          (fun j v a hj hc => by cases j <;> simp at hc)
          (fun j1 j2 a h1 h2 => by have := lt_of_get h1; have := lt_of_get h2; simp at *; omega)
        simpa using this
      have ih := ret_ok hf κ _ (μ ++ [.imm w]) (hk.mono (Ext.append _ _)) (hv.mono (Ext.append _ _)) hs'
      refine .src ?_ ih
      have call : ∀ ρ0, Reach (cstep M (positional ord)) (.ap (.clos [x] (.var x) ρ0) [v] κ σ) (.ret v κ { σ with heap := σ.heap ++ [v] }) := by
        intro ρ0
        refine Reach.cons (b := .ev (.var x) (bindCells [x] σ.heap.length ρ0) κ { σ with heap := σ.heap ++ [v] }) rfl (Reach.one ?_)
        simp [cev, hx, fetch, bindCells, Env.lookup]
      refine Reach.cons (b := .args .call [.lam [x] (.var x), e] (upd d 1 v) todo ρ κ σ) rfl ?_
      rcases hc with ⟨rfl, h0⟩ | rfl
      · refine Reach.cons (b := .ap (.clos [x] (.var x) ρ') [v] κ σ) ?_ (call _)
        simp [cstep, step, vals, upd, List.range_succ, h0]
      · refine Reach.cons (b := .ev (.lam [x] (.var x)) ρ (.args .call [.lam [x] (.var x), e] (upd d 1 v) 0 [] ρ κ) σ) rfl ?_
        refine Reach.cons (b := .ret (.clos [x] (.var x) ρ) (.args .call [.lam [x] (.var x), e] (upd d 1 v) 0 [] ρ κ) σ) rfl ?_
        refine Reach.cons (b := .args .call [.lam [x] (.var x), e] (upd (upd d 1 v) 0 (.clos [x] (.var x) ρ)) [] ρ κ σ) rfl ?_
        refine Reach.cons (b := .ap (.clos [x] (.var x) ρ) [v] κ σ) ?_ (call _)
        simp [cstep, step, vals, upd, List.range_succ]
  | .withcc e ρ, _, μ, hk, v, w, σ, σt, hv, hs => by
    cases hk with
    | withcc hb h1 h2 =>
      by_cases hp : v.view = .proc
      · exact .sync (Reach1.one (by simp only [cstep, step, if_pos hp])) (Reach1.one (by simp only [step, if_pos (hv.view ▸ hp)]))
          (.ev hb (ERel.mk h1 h2) (.throw hv) hs)
      · exact .fail (by simp only [cstep, step, if_neg hp]) (fun _ _ => by simp)

/-- The two machines run in step. -/
theorem sim (M : Sem W) (hf : FairPos ord) : Sim (cstep M (positional ord)) (step M (positional ord)) Sync := by
  constructor
  · intro s t h
    cases h with
    | ev hb he hk hs => exact ev_ok hf _ _ hb he hk hs
    | args hb he hd hk hs => exact args_ok hb he hd hk hs
    | ap hfg hv hk hs => exact ap_ok hf hfg hv hk hs
    | ret hv hk hs => exact ret_ok hf _ _ _ hk hv hs
  · intro s t h
    cases h with
    | ev _ _ _ hs => exact hs.world
    | args _ _ _ _ hs => exact hs.world
    | ap _ _ _ hs => exact hs.world
    | ret _ _ hs => exact hs.world

end Verif.Boxes

import Verif.Lift.Rel
/-
A program and its lambda-lifted form run in step (C52).
-/
namespace Verif.Lift
open Verif.Core
open Verif.Beta (lookup_skip lookup_rel idxOf_none lt_of_get)
variable {W : Type} {T : List (Id × Exp)} {M : Sem W} {Q : Op → List Exp → List Nat}

/-! ### operands that are variables or procedures -/

/-- the value of a procedure or of a local variable. -/
def qval (ρ : Env) : Exp → Option Val
  | .lam ids b => some (.clos ids b ρ)
  | .var x => if x.isGlobal then none else ρ.lookup x
  | _ => none

theorem q_ev {e : Exp} {ρ : Env} {v : Val} (h : qval ρ e = some v) (κ : Kont) (σ : Store W) : step M Q (.ev e ρ κ σ) = some (.ret v κ σ) := by
  unfold qval at h
  split at h
  · injection h with h; subst h; rfl
  · rename_i x
    split at h
    · cases h
    · rename_i hx; simp [step, hx, h]
  · cases h

theorem q_args {op : Op} {es : List Exp} {ρ : Env} {κ : Kont} {σ : Store W} :
    ∀ (todo : List Nat) (d : Nat → Val), (∀ i ∈ todo, ∃ e v, es[i]? = some e ∧ qval ρ e = some v) →
    ∃ d', Quiet (step M Q) (.args op es d todo ρ κ σ) (.args op es d' [] ρ κ σ) ∧
      ∀ i, (i ∈ todo → ∀ e v, es[i]? = some e → qval ρ e = some v → d' i = v) ∧ (i ∉ todo → d' i = d i) := by
  intro todo
  induction todo with
  | nil => intro d _; exact ⟨d, .refl _, fun i => ⟨fun h => (by cases h), fun _ => rfl⟩⟩
  | cons i todo ih =>
    intro d h
    obtain ⟨e, v, he, hv⟩ := h i (by simp)
    obtain ⟨d', hq, hd⟩ := ih (upd d i v) (fun j hj => h j (by simp [hj]))
    refine ⟨d', .step (b := .ev e ρ (.args op es d i todo ρ κ) σ) (by cases op <;> simp [step, he]) rfl
      (.step (b := .ret v (.args op es d i todo ρ κ) σ) (q_ev hv _ _) rfl (.step (b := .args op es (upd d i v) todo ρ κ σ) rfl rfl hq)), fun j => ⟨fun hj e' v' he' hv' => ?_, fun hj => ?_⟩⟩
    · by_cases hm : j ∈ todo
      · exact (hd j).1 hm e' v' he' hv'
      · rcases List.mem_cons.mp hj with rfl | hj
        · rw [(hd j).2 hm, upd, if_pos rfl]
          rw [he] at he'; injection he' with he'; subst he'
          rw [hv] at hv'; injection hv'
        · exact absurd hj hm
    · simp only [List.mem_cons, not_or] at hj
      rw [(hd j).2 hj.2, upd, if_neg hj.1]

theorem q_app (hQ : FairOrder Q) {f : Exp} {es : List Exp} {ρ : Env} {vf : Val} {vs : List Val} (hf : qval ρ f = some vf)
    (hv : List.Forall₂ (fun e v => qval ρ e = some v) es vs) (κ : Kont) (σ : Store W) :
    Quiet (step M Q) (.ev (.app f es) ρ κ σ) (.ap vf vs κ σ) := by
  have hall : List.Forall₂ (fun e v => qval ρ e = some v) (f :: es) (vf :: vs) := .cons hf hv
  have hget : ∀ (i : Nat) e, (f :: es)[i]? = some e → ∃ v, (vf :: vs)[i]? = some v ∧ qval ρ e = some v := by
    generalize f :: es = l at hall
    generalize vf :: vs = l' at hall
    induction hall with
    | nil => intro i e h; simp at h
    | cons h1 _ ih =>
      intro i e h
      cases i with
      | zero => simp only [List.getElem?_cons_zero, Option.some.injEq] at h; subst h; exact ⟨_, rfl, h1⟩
      | succ i => simpa using ih i e (by simpa using h)
  have hmem := fun i => (hQ .call (f :: es)).mem_iff (a := i)
  obtain ⟨d', hq, hd⟩ := q_args (M := M) (Q := Q) (op := .call) (es := f :: es) (ρ := ρ) (κ := κ) (σ := σ) (Q .call (f :: es)) (fun _ => .trap) (by
    intro i hi
    have hl : i < (f :: es).length := by simpa using (hmem i).mp hi
    obtain ⟨v, _, hv⟩ := hget i _ (List.getElem?_eq_getElem hl)
    exact ⟨_, v, List.getElem?_eq_getElem hl, hv⟩)
  have hvals : vals d' (f :: es).length = vf :: vs := by
    refine List.ext_getElem? (fun i => ?_)
    simp only [vals, List.getElem?_map]
    by_cases hi : i < (f :: es).length
    · obtain ⟨v, h1, h2⟩ := hget i _ (List.getElem?_eq_getElem hi)
      rw [List.getElem?_range hi, h1, Option.map_some, (hd i).1 ((hmem i).mpr (by simpa using hi)) _ v (List.getElem?_eq_getElem hi) h2]
    · have : (vf :: vs).length ≤ i := by rw [← hall.length_eq]; omega
      rw [List.getElem?_eq_none this, List.getElem?_eq_none (by simpa using hi)]; rfl
  refine .step (b := .args .call (f :: es) (fun _ => .trap) (Q .call (f :: es)) ρ κ σ) rfl rfl (hq.trans (.one ?_ rfl))
  simp only [step, hvals]

/-! ### environments -/

theorem bindAll_append {ρ : Env} : ∀ {xs : List Id} {vs : List Val} (ys : List Id) (ws : List Val), xs.length = vs.length →
    bindAll (xs ++ ys) (vs ++ ws) ρ = bindAll xs vs (bindAll ys ws ρ) := by
  intro xs
  induction xs with
  | nil =>
    intro vs ys ws h
    have : vs = [] := List.eq_nil_of_length_eq_zero h.symm
    subst this
    simp only [List.nil_append]
    rw [show bindAll [] [] (bindAll ys ws ρ) = bindAll ys ws ρ from rfl]
  | cons x xs ih =>
    intro vs ys ws h
    cases vs with
    | nil => simp at h
    | cons v vs => simp only [List.cons_append, bindAll, ih ys ws (by simpa using h)]

/-- variables bound to their own values elsewhere. -/
theorem lookup_same {ρ ρ' : Env} : ∀ {xs : List Id} {vs : List Val}, List.Forall₂ (fun x v => ρ'.lookup x = some v) xs vs → ∀ {y : Id}, y ∈ xs →
    (bindAll xs vs ρ).lookup y = ρ'.lookup y := by
  intro xs vs h
  induction h with
  | nil => intro y hy; cases hy
  | cons h1 _ ih =>
    intro y hy
    rename_i x v xs vs _
    simp only [bindAll, Env.lookup]
    by_cases e : y = x
    · subst e; rw [if_pos rfl, h1]
    · rw [if_neg e]; exact ih (by simpa [e] using hy)

theorem lookup_idx {ρ : Env} {y : Id} : ∀ {ids : List Id} {vs : List Val} {j : Nat}, idxOf y ids = some j → ids.length = vs.length →
    (bindAll ids vs ρ).lookup y = vs[j]? := by
  intro ids
  induction ids with
  | nil => intro vs j h; simp [idxOf] at h
  | cons x ids ih =>
    intro vs j h hl
    cases vs with
    | nil => simp at hl
    | cons v vs =>
      simp only [bindAll, Env.lookup]
      by_cases e : y = x
      · simp only [idxOf, e, if_true, Option.some.injEq] at h
        subst h; simp [e]
      · simp only [idxOf, if_neg e] at h
        obtain ⟨k, hk, rfl⟩ := Option.map_eq_some_iff.mp h
        rw [if_neg e, ih hk (by simpa using hl)]; rfl

theorem idxOf_get {x : Id} : ∀ {ids : List Id} {i : Nat}, idxOf x ids = some i → ids[i]? = some x := by
  intro ids
  induction ids with
  | nil => intro i h; simp [idxOf] at h
  | cons y ys ih =>
    intro i h
    by_cases e : x = y
    · simp only [idxOf, e, if_true, Option.some.injEq] at h
      subst h; simp [e]
    · simp only [idxOf, if_neg e] at h
      obtain ⟨k, hk, rfl⟩ := Option.map_eq_some_iff.mp h
      simpa using ih hk

theorem HasTop.skip {ρ : Env} {ids : List Id} {vs : List Val} (h : HasTop T ρ) (hi : ∀ y ∈ ids, y ∉ labs T) : HasTop T (bindAll ids vs ρ) := by
  intro t ht
  obtain ⟨h1, i, l, h2, h3⟩ := h t ht
  exact ⟨h1, i, l, h2, by rw [lookup_skip (fun hm => hi t hm ht)]; exact h3⟩

theorem ER.weaken {S S' : Id → Prop} {ρ ρt : Env} (h : ER T S ρ ρt) (hS : ∀ y, S' y → S y) : ER T S' ρ ρt :=
  ⟨h.top, fun y hl h1 => h.ex y hl (hS y h1), fun y v w hl h1 => h.all y v w hl (hS y h1)⟩

/-- an environment relation from its cases. -/
theorem ER.of {S : Id → Prop} {ρ ρt : Env} (ht : HasTop T ρt) (h : ∀ y, y.isGlobal = false → S y → ∃ v w, ρ.lookup y = some v ∧ ρt.lookup y = some w ∧ VR T v w) :
    ER T S ρ ρt := by
  refine ⟨ht, fun y hl hy => ?_, fun y v w hl hy h1 h2 => ?_⟩
  · obtain ⟨v, w, h1, h2, _⟩ := h y hl hy
    simp [h1, h2]
  · obtain ⟨v', w', h1', h2', h3⟩ := h y hl hy
    rw [h1'] at h1; rw [h2'] at h2
    injection h1 with h1; injection h2 with h2; subst h1; subst h2; exact h3

theorem ER.look {S : Id → Prop} {ρ ρt : Env} (h : ER T S ρ ρt) {y : Id} (hl : y.isGlobal = false) (hy : S y) :
    ∃ v w, ρ.lookup y = some v ∧ ρt.lookup y = some w ∧ VR T v w := by
  obtain ⟨h1, h2⟩ := h.ex y hl hy
  obtain ⟨v, hv⟩ := Option.isSome_iff_exists.mp h1
  obtain ⟨w, hw⟩ := Option.isSome_iff_exists.mp h2
  exact ⟨v, w, hv, hw, h.all y v w hl hy hv hw⟩

theorem ER.bind {S S' : Id → Prop} {ρ ρt : Env} {ids : List Id} {vs ws : List Val} (h : ER T S ρ ρt) (hS : ∀ y, S' y → y ∉ ids → S y)
    (hlab : ∀ y ∈ ids, y ∉ labs T) (hv : List.Forall₂ (VR T) vs ws) (hl : ids.length = vs.length) : ER T S' (bindAll ids vs ρ) (bindAll ids ws ρt) := by
  refine .of (h.top.skip hlab) (fun y hg hy => ?_)
  by_cases hm : y ∈ ids
  · exact lookup_rel hv hl hm
  · rw [lookup_skip hm, lookup_skip hm]; exact h.look hg (hS y hy hm)

/-- the closures of a group. -/
theorem cls_spec {g : Group} {lams : List Exp} {cs : List Exp} (hg : GC T g lams) (hL : LG T g lams g.xss g.tids) (hc : CurryAll T g cs) (ρt : Env) :
    ∃ cls : List Val, List.Forall₂ (fun e v => qval ρt e = some v) cs cls ∧ cls.length = g.ids.length ∧
      ∀ (j : Nat) (y : Id), g.ids[j]? = some y → ∃ ps b xs t args, lams[j]? = some (.lam ps b) ∧ g.xss[j]? = some xs ∧ g.tids[j]? = some t ∧
        CurryOk T ps.length args xs ∧ cls[j]? = some (.clos args (curryBody t args xs) ρt) := by
  refine ⟨cs.map (fun e => (qval ρt e).getD .trap), ?_, by simp [hc.1], ?_⟩
  · have : ∀ e ∈ cs, qval ρt e = some ((qval ρt e).getD .trap) := by
      intro e he
      obtain ⟨j, hj⟩ := List.getElem?_of_mem he
      obtain ⟨t, ps, xs, args, _, _, _, rfl, _⟩ := hc.2 j e hj
      rfl
    clear hc
    induction cs with
    | nil => exact .nil
    | cons e cs ih => exact .cons (this e (by simp)) (ih (fun e' he' => this e' (by simp [he'])))
  · intro j y hj
    have hlt := lt_of_get hj
    have hcj : j < cs.length := by rw [hc.1]; exact hlt
    obtain ⟨t, ps, xs, args, h1, h2, h3, h4, h5⟩ := hc.2 j _ (List.getElem?_eq_getElem hcj)
    have hlj : j < lams.length := by rw [← hg.len]; exact hlt
    obtain ⟨ps', b, _, _, hl, _⟩ := hL.get (List.getElem?_eq_getElem hlj) h3 h1
    have hl' : lams[j]? = some (.lam ps' b) := by rw [List.getElem?_eq_getElem hlj, hl]
    have : ps = ps' := by
      rw [hg.pss, List.getElem?_map, hl'] at h2
      simpa [params] using h2.symm
    subst this
    refine ⟨ps, b, xs, t, args, hl', h3, h1, h5, ?_⟩
    rw [List.getElem?_map, List.getElem?_eq_getElem hcj, h4]; rfl

/-- entering a group: the names are bound to closures. -/
theorem group_env {g : Group} {lams : List Exp} (hg : GC T g lams) (hL : LG T g lams g.xss g.tids) {cls : List Val} {ρ ρt : Env}
    (hl : cls.length = g.ids.length)
    (hcl : ∀ (j : Nat) (y : Id), g.ids[j]? = some y → ∃ ps b xs t args, lams[j]? = some (.lam ps b) ∧ g.xss[j]? = some xs ∧ g.tids[j]? = some t ∧
        CurryOk T ps.length args xs ∧ cls[j]? = some (.clos args (curryBody t args xs) ρt)) (ht : HasTop T ρt)
    {y : Id} {j : Nat} (hj : idxOf y g.ids = some j) (he : ∀ xs, g.xss[j]? = some xs → ER T (· ∈ xs) ρ ρt) :
    ∃ w, (bindAll g.ids cls ρt).lookup y = some w ∧ VR T (.rclos g.ids lams j ρ) w := by
  obtain ⟨ps, b, xs, t, args, h1, h2, h3, h4, h5⟩ := hcl j y (idxOf_get hj)
  refine ⟨_, by rw [lookup_idx hj hl.symm, h5], ?_⟩
  have hE := he xs h2
  have hxl : ∀ z ∈ xs, z.isGlobal = false := fun z hz => (hg.xs xs (List.mem_of_getElem? h2) z hz).1
  exact .rclos hg hL h1 h3 h2 h4 ht (fun z hz => hE.ex z (hxl z hz) hz) (fun z v w hz => hE.all z v w (hxl z hz) hz)

/-! ### evaluation -/

/-- `s` fails, both finish alike, or both get to related states. -/
def Out (M : Sem W) (Q : Op → List Exp → List Nat) (T : List (Id × Exp)) (s t : State W) : Prop :=
  Fails (step M Q) s ∨ (∃ v v' w, Quiet (step M Q) s (.done v w) ∧ Quiet (step M Q) t (.done v' w) ∧ v.view = v'.view) ∨
  (∃ s' t', Move (step M Q) s s' ∧ Move (step M Q) t t' ∧ Sync T s' t')

theorem Out.sync {s s' t t' : State W} (h1 : step M Q s = some s') (h2 : step M Q t = some t') (hs : Sync T s' t') : Out M Q T s t :=
  Or.inr (Or.inr ⟨s', t', .one h1, .one h2, hs⟩)

theorem Out.moves {s s' t t' : State W} (h1 : step M Q s = some s') (h2 : Move (step M Q) t t') (hs : Sync T s' t') : Out M Q T s t :=
  Or.inr (Or.inr ⟨s', t', .one h1, h2, hs⟩)

theorem Out.fail {s t : State W} (h : step M Q s = none) (hd : ∀ v w, s ≠ .done v w) : Out M Q T s t := Or.inl (Fails.now h hd)

theorem ev_ok (hQ : FairOrder Q) (hU : Uniform Q) {e e' : Exp} {ρ ρt : Env} {κ κ' : Kont} {σ σt : Store W} (hf : LR T e e')
    (he : ER T (Free · e) ρ ρt) (hk : KR T κ κ') (hs : StoreRel (VR T) σ σt) : Out M Q T (.ev e ρ κ σ) (.ev e' ρt κ' σt) := by
  cases hf with
  | var x =>
    cases hgl : x.isGlobal with
    | true =>
      rcases hs.glob x with ⟨h1, _⟩ | ⟨v, w, h1, h2, h3⟩
      · exact .fail (by simp [step, hgl, h1]) (fun _ _ => by simp)
      · exact .sync (s' := .ret v κ σ) (t' := .ret w κ' σt) (by simp [step, hgl, h1]) (by simp [step, hgl, h2]) (.ret h3 hk hs)
    | false =>
      obtain ⟨v, w, h1, h2, h3⟩ := he.look hgl .var
      exact .sync (s' := .ret v κ σ) (t' := .ret w κ' σt) (by simp [step, hgl, h1]) (by simp [step, hgl, h2]) (.ret h3 hk hs)
  | set hf =>
    rename_i x e e'
    cases hg : x.isGlobal with
    | true =>
      exact .sync (s' := .ev e ρ (.set x κ) σ) (t' := .ev e' ρt (.set x κ') σt) (by simp [step, hg]) (by simp [step, hg])
        (.ev hf (he.weaken (fun y hy => .set x hy)) (.set hk) hs)
    | false => exact .fail (by simp [step, hg]) (fun _ _ => by simp)
  | ite f1 f2 f3 =>
    rename_i a b c a' b' c'
    exact .sync (s' := .ev a ρ (.ite b c ρ κ) σ) (t' := .ev a' ρt (.ite b' c' ρt κ') σt) rfl rfl
      (.ev f1 (he.weaken (fun y hy => .iteA _ _ hy))
        (.ite f2 f3 (he.weaken (fun y hy => hy.elim (fun h => .iteB _ _ h) (fun h => .iteC _ _ h))) hk) hs)
  | prim f1 =>
    rename_i eff p es es'
    refine .sync (s' := .args (.prim eff p) es (fun _ => .trap) (Q (.prim eff p) es) ρ κ σ)
      (t' := .args (.prim eff p) es' (fun _ => .trap) (Q (.prim eff p) es) ρt κ' σt) rfl ?_
      (.args f1 (he.weaken (fun y ⟨e, h, hy⟩ => .prim _ _ h hy)) (fun _ => .trap) hk hs)
    simp only [step]; rw [hU _ es es' f1.length]
  | app f1 f2 =>
    rename_i f f' es es'
    refine .sync (s' := .args .call (f :: es) (fun _ => .trap) (Q .call (f :: es)) ρ κ σ)
      (t' := .args .call (f' :: es') (fun _ => .trap) (Q .call (f :: es)) ρt κ' σt) rfl ?_
      (.args (.cons f1 f2) (he.weaken (fun y ⟨e, h, hy⟩ => ?_)) (fun _ => .trap) hk hs)
    · simp only [step]; rw [hU _ (f :: es) (f' :: es') (by simp [f2.length])]
    · rcases List.mem_cons.mp h with h | h
      · subst h; exact .appF _ hy
      · exact .appA _ h hy
  | keep f1 f2 =>
    rename_i ids b b'
    exact .sync (s' := .ret (.clos ids b ρ) κ σ) (t' := .ret (.clos ids b' ρt) κ' σt) rfl rfl (.ret (.keep f1 f2 he.top he.ex he.all) hk hs)
  | lam f1 f2 f3 f4 f5 f6 =>
    rename_i g l ps b cs
    obtain ⟨cls, hq, hl, hcl⟩ := cls_spec f4 f5 f6 ρt
    rw [f1] at hl
    obtain ⟨ps', b', xs, t, args, h1, h2, h3, h4, h5⟩ := hcl 0 l (by rw [f1]; rfl)
    simp only [List.getElem?_cons_zero, Option.some.injEq, Exp.lam.injEq] at h1
    obtain ⟨rfl, rfl⟩ := h1
    obtain ⟨c, rfl⟩ : ∃ c, cls = [c] := List.length_eq_one_iff.mp (by simpa using hl)
    simp only [List.getElem?_cons_zero, Option.some.injEq] at h5
    subst h5
    refine .moves (s' := .ret (.clos ps b ρ) κ σ) (t' := .ret (.clos args (curryBody t args xs) ρt) κ' σt) rfl ?_ (.ret ?_ hk hs)
    · refine Move.before (q_app hQ (vf := .clos [l] (.var l) ρt) rfl hq κ' σt) ⟨_, .one (b := .ev (.var l) (bindAll [l] [.clos args (curryBody t args xs) ρt] ρt) κ' σt) (by simp [step]) rfl, ?_⟩
      simp [step, f2, bindAll, Env.lookup]
    · have hxs := f4.xs xs (List.mem_of_getElem? h2)
      have hfr : ∀ y ∈ xs, Free y (.lam ps b) := fun y hy => by
        obtain ⟨l', hl', hf⟩ := (hxs y hy).2.2.2
        rw [List.mem_singleton.mp hl'] at hf; exact hf
      exact .clos f1 f3 f4 f5 h3 h2 h4 he.top (fun y hy => he.ex y (hxs y hy).1 (hfr y hy)) (fun y v w hy => he.all y v w (hxs y hy).1 (hfr y hy))
  | fix f1 f2 f3 f4 =>
    rename_i g lams b b' cs
    obtain ⟨cls, hq, hl, hcl⟩ := cls_spec f1 f2 f3 ρt
    refine .moves (s' := .ev b (.fix g.ids lams ρ) κ σ) (t' := .ev b' (bindAll g.ids cls ρt) κ' σt) rfl
      (Move.before (q_app hQ (vf := .clos g.ids b' ρt) rfl hq κ' σt) (.one (by simp [step, hl])))
      (.ev f4 (.of (he.top.skip f1.lab) (fun y hg hy => ?_)) hk hs)
    rw [Env.lookup]
    cases hi : idxOf y g.ids with
    | some j =>
      obtain ⟨w, h1, h2⟩ := group_env f1 f2 (ρ := ρ) hl hcl he.top hi (fun xs hxs => he.weaken (fun z hz => by
        obtain ⟨_, h2, _, l', hl', hf⟩ := f1.xs xs (List.mem_of_getElem? hxs) z hz
        exact .fixL _ h2 hl' hf))
      exact ⟨_, w, rfl, h1, h2⟩
    | none =>
      have hm := idxOf_none.mp hi
      rw [lookup_skip hm]
      exact he.look hg (.fixB _ hm hy)

theorem args_ok {op : Op} {es es' : List Exp} {d d' : Nat → Val} {todo : List Nat} {ρ ρt : Env} {κ κ' : Kont}
    {σ σt : Store W} (hf : LRs T es es') (he : ER T (fun y => ∃ e ∈ es, Free y e) ρ ρt)
    (hd : ∀ j, VR T (d j) (d' j)) (hk : KR T κ κ') (hs : StoreRel (VR T) σ σt) :
    Out M Q T (.args op es d todo ρ κ σ) (.args op es' d' todo ρt κ' σt) := by
  cases todo with
  | cons i todo =>
    cases hi : es[i]? with
    | none => exact .fail (by cases op <;> simp [step, hi]) (fun _ _ => by simp)
    | some e =>
      have hm := List.mem_of_getElem? hi
      obtain ⟨e', hi', f1⟩ := hf.get hi
      exact .sync (s' := .ev e ρ (.args op es d i todo ρ κ) σ) (t' := .ev e' ρt (.args op es' d' i todo ρt κ') σt)
        (by cases op <;> simp [step, hi]) (by cases op <;> simp [step, hi'])
        (.ev f1 (he.weaken (fun y hy => ⟨e, hm, hy⟩)) (.args hf he hd hk) hs)
  | nil =>
    cases op with
    | prim eff p =>
      rcases doPrim_rel VR.prim (M := M) (p := p) (forall₂_vals hd es.length) hs with h1 | ⟨u, w, h1, h2, h3⟩ | ⟨u, w, σ', σt', h1, h2, h4, h5⟩
      · exact .fail (by simp [step, h1]) (fun _ _ => by simp)
      · exact Or.inr (Or.inl ⟨u, w, σ.world, .one (by simp [step, h1]) rfl, .one (by simp [step, ← hf.length, h2, hs.world]) hs.world, VR.prim.view h3⟩)
      · exact .sync (s' := .ret u κ σ') (t' := .ret w κ' σt') (by simp [step, h1]) (by simp [step, ← hf.length, h2]) (.ret h4 hk h5)
    | call =>
      have hv := forall₂_vals hd es.length
      generalize h1 : vals d es.length = vs at hv
      generalize h2 : vals d' es.length = ws at hv
      cases hv with
      | nil => exact .fail (by simp [step, h1]) (fun _ _ => by simp)
      | cons hf' hv =>
        rename_i f g vs ws
        exact .sync (s' := .ap f vs κ σ) (t' := .ap g ws κ' σt) (by simp [step, h1]) (by simp [step, ← hf.length, h2]) (.ap hf' hv hk hs)

/-- a call of a closure over a lifted procedure. -/
theorem enter (hQ : FairOrder Q) (hT : (labs T).Nodup) {g : Group} {lams : List Exp} {i : Nat} {ps xs args : List Id} {b : Exp} {t : Id} {ρ ρt ρs : Env}
    (hg : GC T g lams) (hL : LG T g lams g.xss g.tids) (hl : lams[i]? = some (.lam ps b)) (ht : g.tids[i]? = some t) (hx : g.xss[i]? = some xs)
    (hc : CurryOk T ps.length args xs) (hE : ER T (· ∈ xs) ρ ρt) {vs ws : List Val} (hv : List.Forall₂ (VR T) vs ws) (hlen : ps.length = vs.length)
    (hsrc : ∀ y, y.isGlobal = false → Free y b → y ∉ ps → (y ∉ g.ids ∧ ρs.lookup y = ρ.lookup y) ∨
      ∃ j, idxOf y g.ids = some j ∧ ρs.lookup y = some (.rclos g.ids lams j ρ)) (κ : Kont) (σ : Store W) :
    ∃ b' ρ', LR T b b' ∧ ER T (Free · b) (bindAll ps vs ρs) ρ' ∧ Move (step M Q) (.ap (.clos args (curryBody t args xs) ρt) ws κ σ) (.ev b' ρ' κ σ) := by
  obtain ⟨ps', b0, cs, b', e, hmem, hcs, hb⟩ := hL.get hl hx ht
  injection e with e1 e2; subst e1; subst e2
  have hlw : args.length = ws.length := by rw [hc.len, hlen, hv.length_eq]
  have htl : t ∈ labs T := List.mem_map.mpr ⟨_, hmem, rfl⟩
  -- the values of the extra variables
  have hxg := hg.xs xs (List.mem_of_getElem? hx)
  have hxs : ∀ y ∈ xs, ∃ w, ρt.lookup y = some w := fun y hy => by
    obtain ⟨_, w, _, h, _⟩ := hE.look (hxg y hy).1 hy
    exact ⟨w, h⟩
  obtain ⟨xv, hxv⟩ : ∃ xv : List Val, List.Forall₂ (fun x v => ρt.lookup x = some v) xs xv := by
    clear hE hx hxg hc hmem
    induction xs with
    | nil => exact ⟨[], .nil⟩
    | cons x xs ih =>
      obtain ⟨w, hw⟩ := hxs x (by simp)
      obtain ⟨xv, h⟩ := ih (fun y hy => hxs y (by simp [hy]))
      exact ⟨w :: xv, .cons hw h⟩
  -- the label
  obtain ⟨htg, k, lb, hk, hlook⟩ := hE.top t htl
  have hlb : lb = .lam (ps ++ xs) (letExp g.ids cs b') := by
    obtain ⟨k', hk'⟩ := List.getElem?_of_mem hmem
    have e1 : (labs T)[k]? = some t := by simp [labs, hk]
    have e2 : (labs T)[k']? = some t := by simp [labs, hk']
    have := (List.getElem?_inj (lt_of_get e1) hT).1 (e1.trans e2.symm)
    subst this
    rw [hk] at hk'
    simpa using hk'
  subst hlb
  have htop0 : HasTop T (.fix (labs T) (T.map Prod.snd) .nil) := by
    intro u hu
    obtain ⟨a1, i', l', a2, _⟩ := hE.top u hu
    refine ⟨a1, i', l', a2, ?_⟩
    rw [Env.lookup]
    have e1 : (labs T)[i']? = some u := by simp [labs, a2]
    cases hi : idxOf u (labs T) with
    | none => exact absurd hu (idxOf_none.mp hi)
    | some j =>
      have := (List.getElem?_inj (lt_of_get e1) hT).1 (e1.trans (idxOf_get hi).symm)
      subst this; rfl
  have hpl := hg.ps ps b (List.mem_of_getElem? hl)
  let ρ0 : Env := .fix (labs T) (T.map Prod.snd) .nil
  let ρ2 : Env := bindAll ps ws (bindAll xs xv ρ0)
  have htop2 : HasTop T ρ2 := (htop0.skip (fun y hy => (hxg y hy).2.2.1)).skip (fun y hy => (hpl y hy).2.1)
  obtain ⟨cls, hq, hcl, hcls⟩ := cls_spec hg hL hcs ρ2
  -- extra variables in the body
  have hx2 : ∀ z ∈ xs, ρ2.lookup z = ρt.lookup z := by
    intro z hz
    have hzp : z ∉ ps := fun hp => (hpl z hp).2.2 xs (List.mem_of_getElem? hx) hz
    show (bindAll ps ws (bindAll xs xv ρ0)).lookup z = _
    rw [lookup_skip hzp, lookup_same hxv hz]
  refine ⟨b', bindAll g.ids cls ρ2, hb, .of (htop2.skip hg.lab) (fun y hgl hy => ?_), ?_⟩
  · by_cases hp : y ∈ ps
    · rw [lookup_skip (hpl y hp).1]
      exact lookup_rel hv hlen hp
    · rw [lookup_skip (ids := ps) hp]
      rcases hsrc y hgl hy hp with ⟨h1, h2⟩ | ⟨j, h1, h2⟩
      · have hyx := hg.own i _ xs hl hx y hgl (.lam hp hy) h1
        rw [h2, lookup_skip h1, hx2 y hyx]
        exact hE.look hgl hyx
      · obtain ⟨w, h3, h4⟩ := group_env hg hL (ρ := ρ) hcl hcls htop2 h1 (fun xs' hxs' => by
          have hsub := hg.call i j _ xs xs' y hl hx (idxOf_get h1) hxs' (.lam hp hy)
          refine .of htop2 (fun z hzl hz => ?_)
          rw [hx2 z (hsub z hz)]
          exact hE.look hzl (hsub z hz))
        exact ⟨_, w, h2, h3, h4⟩
  · -- the run
    have s1 : step M Q (.ap (.clos args (curryBody t args xs) ρt) ws κ σ) = some (.ev (curryBody t args xs) (bindAll args ws ρt) κ σ) := by
      simp only [step]; rw [if_pos hlw]
    have htn : t ∉ args := fun h => hc.lab t h htl
    have hqa : List.Forall₂ (fun e v => qval (bindAll args ws ρt) e = some v) (args.map .var ++ xs.map .var) (ws ++ xv) := by
      refine List.rel_append ?_ ?_
      · have hn := hc.nodup
        have hloc := hc.loc
        have : ∀ (as : List Id) (us : List Val), as.length = us.length → as.Nodup → (∀ y ∈ as, y.isGlobal = false) →
            List.Forall₂ (fun e v => qval (bindAll as us ρt) e = some v) (as.map .var) us := by
          intro as
          induction as with
          | nil => intro us h _ _; rw [List.eq_nil_of_length_eq_zero h.symm]; exact .nil
          | cons a as ih =>
            intro us h hn hl
            cases us with
            | nil => simp at h
            | cons u us =>
              simp only [List.nodup_cons] at hn
              refine .cons (by simp [qval, hl a (by simp), bindAll, Env.lookup]) ?_
              have hi := ih us (by simpa using h) hn.2 (fun y hy => hl y (by simp [hy]))
              rw [List.forall₂_map_left_iff] at hi ⊢
              refine List.Forall₂.imp ?_ (List.forall₂_iff_zip.mpr ⟨hi.length_eq, fun {p q} hpq => ?_⟩) (R := fun p q => qval (bindAll as us ρt) (.var p) = some q ∧ p ∈ as)
              · rintro p q ⟨h1, h2⟩
                have : p ≠ a := fun e => hn.1 (e ▸ h2)
                simp only [qval, bindAll, Env.lookup, if_neg this] at h1 ⊢
                exact h1
              · exact ⟨(List.forall₂_iff_zip.mp hi).2 hpq, (List.of_mem_zip hpq).1⟩
        exact this args ws hlw hn hloc
      · rw [List.forall₂_map_left_iff]
        refine List.Forall₂.imp ?_ (List.forall₂_iff_zip.mpr ⟨hxv.length_eq, fun {p q} hpq => ?_⟩) (R := fun p q => ρt.lookup p = some q ∧ p ∈ xs)
        · rintro p q ⟨h1, h2⟩
          simp only [qval, (hxg p h2).1]
          rw [lookup_skip (fun h => hc.apart p h h2)]
          exact h1
        · exact ⟨(List.forall₂_iff_zip.mp hxv).2 hpq, (List.of_mem_zip hpq).1⟩
    have s2 := q_app (M := M) (Q := Q) hQ (f := .var t) (vf := .rclos (labs T) (T.map Prod.snd) k .nil) (by
      simp only [qval, htg]; rw [lookup_skip htn]; exact hlook) hqa κ σ
    have hl2 : ps.length = ws.length := by rw [hlen, hv.length_eq]
    have s3 : step M Q (.ap (.rclos (labs T) (T.map Prod.snd) k .nil) (ws ++ xv) κ σ) = some (.ev (letExp g.ids cs b') ρ2 κ σ) := by
      have e1 : (T.map Prod.snd)[k]? = some (.lam (ps ++ xs) (letExp g.ids cs b')) := by simp [hk]
      simp only [step, e1]
      rw [if_pos (by simp [hl2, hxv.length_eq]), bindAll_append _ _ hl2]
    have s4 := q_app (M := M) (Q := Q) hQ (f := .lam g.ids b') (vf := .clos g.ids b' ρ2) rfl hq κ σ
    have s5 : step M Q (.ap (.clos g.ids b' ρ2) cls κ σ) = some (.ev b' (bindAll g.ids cls ρ2) κ σ) := by
      simp only [step]; rw [if_pos hcl.symm]
    exact ⟨_, .step s1 rfl (s2.trans (.step s3 rfl s4)), s5⟩

theorem ap_ok (hQ : FairOrder Q) (hT : (labs T).Nodup) {f g : Val} {vs ws : List Val} {κ κ' : Kont} {σ σt : Store W} (hf : VR T f g) (hv : List.Forall₂ (VR T) vs ws)
    (hk : KR T κ κ') (hs : StoreRel (VR T) σ σt) : Out M Q T (.ap f vs κ σ) (.ap g ws κ' σt) := by
  cases hf with
  | atom | pair | box | trap => exact .fail (by simp [step]) (fun _ _ => by simp)
  | keep a1 a2 a3 a4 a5 =>
    rename_i ids b b' ρ ρt
    by_cases hl : ids.length = vs.length
    · have hl' : ids.length = ws.length := by rw [hl]; exact hv.length_eq
      exact .sync (s' := .ev b (bindAll ids vs ρ) κ σ) (t' := .ev b' (bindAll ids ws ρt) κ' σt) (by simp only [step]; rw [if_pos hl])
        (by simp only [step]; rw [if_pos hl']) (.ev a2 (ER.bind (S := (Free · (.lam ids b))) ⟨a3, a4, a5⟩ (fun y hy hm => .lam hm hy) a1 hv hl) hk hs)
    · exact .fail (by simp only [step]; rw [if_neg hl]) (fun _ _ => by simp)
  | clos a1 a2 a3 a4 a5 a6 a7 a8 a9 a10 =>
    rename_i g l ps xs args b t ρ ρt
    by_cases hl : ps.length = vs.length
    · obtain ⟨b', ρ', h1, h2, h3⟩ := enter (M := M) (ρs := ρ) hQ hT a3 a4 (i := 0) rfl a5 a6 a7 ⟨a8, fun y _ hy => a9 y hy, fun y v w _ hy => a10 y v w hy⟩ hv hl (fun y _ hy _ => Or.inl
        ⟨by rw [a1]; simp only [List.mem_singleton]; intro e; exact a2 (e ▸ hy), rfl⟩) κ' σt
      exact .moves (s' := .ev b (bindAll ps vs ρ) κ σ) (by simp only [step]; rw [if_pos hl]) h3 (.ev h1 h2 hk hs)
    · exact .fail (by simp only [step]; rw [if_neg hl]) (fun _ _ => by simp)
  | rclos a3 a4 a0 a5 a6 a7 a8 a9 a10 =>
    rename_i g lams i ps xs args b t ρ ρt
    by_cases hl : ps.length = vs.length
    · obtain ⟨b', ρ', h1, h2, h3⟩ := enter (M := M) (ρs := .fix g.ids lams ρ) hQ hT a3 a4 a0 a5 a6 a7 ⟨a8, fun y _ hy => a9 y hy, fun y v w _ hy => a10 y v w hy⟩ hv hl (fun y _ hy _ => by
        rw [Env.lookup]
        cases hi : idxOf y g.ids with
        | none => exact Or.inl ⟨idxOf_none.mp hi, rfl⟩
        | some j => exact Or.inr ⟨j, rfl, rfl⟩) κ' σt
      exact .moves (s' := .ev b (bindAll ps vs (.fix g.ids lams ρ)) κ σ) (by simp only [step, a0]; rw [if_pos hl]) h3 (.ev h1 h2 hk hs)
    · exact .fail (by simp only [step, a0]; rw [if_neg hl]) (fun _ _ => by simp)

theorem ret_ok {v w : Val} {κ κ' : Kont} {σ σt : Store W} (hv : VR T v w) (hk : KR T κ κ') (hs : StoreRel (VR T) σ σt) :
    Out M Q T (.ret v κ σ) (.ret w κ' σt) := by
  cases hk with
  | halt => exact Or.inr (Or.inl ⟨v, w, σ.world, .one rfl rfl, .one (by simp [step, hs.world]) hs.world, VR.prim.view hv⟩)
  | set hk => exact .sync rfl rfl (.ret (.atom 1) hk (hs.set_glob _ hv))
  | ite f1 f2 he hk =>
    rename_i b c b' c' ρ ρt κ κ'
    cases hf : v.isFalse with
    | true =>
      exact .sync (s' := .ev c ρ κ σ) (t' := .ev c' ρt κ' σt) (by simp [step, hf]) (by simp [step, ← VR.prim.false hv, hf])
        (.ev f2 (he.weaken (fun y hy => Or.inr hy)) hk hs)
    | false =>
      exact .sync (s' := .ev b ρ κ σ) (t' := .ev b' ρt κ' σt) (by simp [step, hf]) (by simp [step, ← VR.prim.false hv, hf])
        (.ev f1 (he.weaken (fun y hy => Or.inl hy)) hk hs)
  | args f1 he hd hk =>
    rename_i op es es' d d' i todo ρ ρt κ κ'
    refine .sync (s' := .args op es (upd d i v) todo ρ κ σ) (t' := .args op es' (upd d' i w) todo ρt κ' σt) rfl rfl (.args f1 he (fun j => ?_) hk hs)
    simp only [upd]
    split
    · exact hv
    · exact hd j

/-- the simulation. -/
theorem sim (hQ : FairOrder Q) (hU : Uniform Q) (hT : (labs T).Nodup) : SimQ (step M Q) (step M Q) (Sync T) := by
  refine ⟨fun s t h => ?_, fun s t h => h.world⟩
  show Out M Q T s t
  cases h with
  | ev h1 h2 h3 h4 => exact ev_ok hQ hU h1 h2 h3 h4
  | args h1 h2 h3 h4 h5 => exact args_ok h1 h2 h3 h4 h5
  | ap h1 h2 h3 h4 => exact ap_ok hQ hT h1 h2 h3 h4
  | ret h1 h2 h3 => exact ret_ok h1 h2 h3

end Verif.Lift

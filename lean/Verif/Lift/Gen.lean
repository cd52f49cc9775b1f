import Verif.Lift.Sim
import Verif.Lift.Props
import Verif.Beta.Syntax
/-
`lambda-lift` produces the lifted form of a program (C52).
-/
namespace Verif.Lift
open Verif.Core
open Verif.Beta (ind lt_of_get)

/-! ### the state grows -/

theorem curryLams_mono : ∀ (pss xss : List (List Id)) (ts : List Id) (n : Nat), n ≤ (curryLams pss xss ts n).2 := by
  intro pss
  induction pss with
  | nil => intro xss ts n; simp [curryLams]
  | cons ps pss ih =>
    intro xss ts n
    cases xss with
    | nil => simp [curryLams]
    | cons xs xss =>
      cases ts with
      | nil => simp [curryLams]
      | cons t ts =>
        simp only [curryLams, curryLam]
        have := ih xss ts (renameIds ps n).2
        have h2 := (renameIds_spec ps n).2.1
        omega

/-- the state grows. -/
def Le (s s' : LSt) : Prop := s.next ≤ s'.next ∧ ∀ p ∈ s.top, p ∈ s'.top

theorem Le.refl (s : LSt) : Le s s := ⟨Nat.le_refl _, fun _ h => h⟩
theorem Le.trans {s s' s'' : LSt} (h1 : Le s s') (h2 : Le s' s'') : Le s s'' := ⟨Nat.le_trans h1.1 h2.1, fun p hp => h2.2 p (h1.2 p hp)⟩

theorem Le.float (g : Group) (ps xs : List Id) (t : Id) (b : Exp) (s : LSt) : Le s (floatOne g ps xs t b s) :=
  ⟨curryLams_mono _ _ _ _, fun _ hp => List.mem_cons_of_mem _ hp⟩

theorem Le.close (g : Group) (b : Exp) (s : LSt) : Le s (closeGroup g b s).2 := ⟨curryLams_mono _ _ _ _, fun _ hp => hp⟩

/-- an application that is not a `let`. -/
theorem lift_app {f : Exp} {es : List Exp} (h : ∀ ids b, f = .lam ids b → ids.length ≠ es.length) (s : LSt) :
    lift (.app f es) s = (.app (lift f s).1 (liftAll es (lift f s).2).1, (liftAll es (lift f s).2).2) := by
  cases f with
  | lam ids b => rw [lift.eq_def (.app (.lam ids b) es)]; simp only [if_neg (h ids b rfl)]
  | _ => rw [lift.eq_def (.app _ es)]

theorem lift_let {ids : List Id} {b : Exp} {es : List Exp} (h : ids.length = es.length) (s : LSt) :
    lift (.app (.lam ids b) es) s = (letExp ids (liftAll es s).1 (lift b (liftAll es s).2).1, (lift b (liftAll es s).2).2) := by
  rw [lift.eq_def (.app (.lam ids b) es)]; simp only [if_pos h]

theorem liftAll_le {es : List Exp} (h : ∀ e ∈ es, ∀ s, Le s (lift e s).2) : ∀ s, Le s (liftAll es s).2 := by
  induction es with
  | nil => intro s; exact .refl s
  | cons e es ih =>
    intro s
    simp only [liftAll]
    exact (h e (by simp) s).trans (ih (fun e' he' => h e' (by simp [he'])) _)

theorem liftLams_le {g : Group} {ls : List Exp} (h : ∀ ps b, .lam ps b ∈ ls → ∀ s, Le s (lift b s).2) : ∀ (xss : List (List Id)) (ts : List Id) (s : LSt),
    Le s (liftLams g ls xss ts s) := by
  induction ls with
  | nil => intro xss ts s; simp only [liftLams]; exact .refl s
  | cons e es ih =>
    intro xss ts s
    cases e with
    | lam ps b =>
      cases xss with
      | nil => simp only [liftLams]; exact .refl s
      | cons xs xss =>
        cases ts with
        | nil => simp only [liftLams]; exact .refl s
        | cons t ts =>
          simp only [liftLams]
          exact ((h ps b (by simp) s).trans (.float _ _ _ _ _ _)).trans (ih (fun ps b hm => h ps b (by simp [hm])) _ _ _)
    | _ => simp only [liftLams]; exact .refl s

theorem labels_mono (ids : List Id) (n : Nat) : n ≤ (labels ids n).2 := by
  have := (labels_spec ids n).2.1; omega

theorem lift_le (e : Exp) : (∀ s, Le s (lift e s).2) ∧ ∀ ids b, e = .lam ids b → ∀ s, Le s (lift b s).2 := by
  induction e using ind with
  | var x => exact ⟨fun s => by simp only [lift]; exact .refl s, fun _ _ h => by cases h⟩
  | set x e ih => exact ⟨fun s => by simp only [lift]; exact ih.1 s, fun _ _ h => by cases h⟩
  | ite a b c h1 h2 h3 =>
    exact ⟨fun s => by simp only [lift]; exact ((h1.1 s).trans (h2.1 _)).trans (h3.1 _), fun _ _ h => by cases h⟩
  | prim eff p es ih => exact ⟨fun s => by simp only [lift]; exact liftAll_le (fun e he => (ih e he).1) s, fun _ _ h => by cases h⟩
  | app f es h1 h2 =>
    refine ⟨fun s => ?_, fun _ _ h => by cases h⟩
    have ha := fun s => liftAll_le (fun e he => (h2 e he).1) s
    by_cases hf : ∃ ids b, f = .lam ids b ∧ ids.length = es.length
    · obtain ⟨ids, b, rfl, hl⟩ := hf
      rw [lift_let hl]
      exact (ha s).trans (h1.2 ids b rfl _)
    · rw [lift_app (fun ids b e hl => hf ⟨ids, b, e, hl⟩)]
      exact (h1.1 s).trans (ha _)
  | lam ids b ih =>
    refine ⟨fun s => ?_, fun ids' b' h => by injection h with _ h; subst h; exact ih.1⟩
    simp only [lift]
    refine Le.trans ?_ (Le.trans (ih.1 ⟨s.next + 2, s.top⟩) ((Le.float _ _ _ _ _ _).trans (.close _ _ _)))
    exact ⟨by simp, fun _ h => h⟩
  | fix ids lams b h1 h2 =>
    refine ⟨fun s => ?_, fun _ _ h => by cases h⟩
    simp only [lift]
    refine Le.trans ?_ (Le.trans (liftLams_le (fun ps b hm => (h1 _ hm).2 ps b rfl) _ _ ⟨(labels ids s.next).2, s.top⟩) ((h2.1 _).trans (.close _ _ _)))
    exact ⟨labels_mono _ _, fun _ h => h⟩
  | letcc x b ih => exact ⟨fun s => by simp only [lift]; exact .refl s, fun _ _ h => by cases h⟩
  | withcc k e h1 h2 => exact ⟨fun s => by simp only [lift]; exact .refl s, fun _ _ h => by cases h⟩

/-! ### groups -/

/-- labels are marked, and not older than `n`. -/
def Fresh (T : List (Id × Exp)) (n : Nat) : Prop := ∀ t ∈ labs T, t.mark = true ∧ (n : Int) ≤ t.ts

theorem Fresh.old {T : List (Id × Exp)} {n : Nat} (h : Fresh T n) {y : Id} (hy : y.ts < n) : y ∉ labs T := fun hm => by
  have := (h y hm).2; omega

theorem Fresh.lex {T : List (Id × Exp)} {n : Nat} (h : Fresh T n) (m : Nat) : lexId m ∉ labs T := fun hm => by
  have := (h _ hm).1; simp [lexId] at this

theorem lex_local (m : Nat) : (lexId m).isGlobal = false := by
  rw [Id.isGlobal]; exact decide_eq_false (by simp only [lexId]; omega)

theorem curry_all {T : List (Id × Exp)} {n0 : Nat} (hT : Fresh T n0) : ∀ (pss xss : List (List Id)) (ts : List Id) (n : Nat),
    pss.length = ts.length → xss.length = ts.length → (∀ xs ∈ xss, ∀ x ∈ xs, x.ts < n) →
    (curryLams pss xss ts n).1.length = ts.length ∧ ∀ (j : Nat) (c : Exp), (curryLams pss xss ts n).1[j]? = some c →
      ∃ t ps xs args, ts[j]? = some t ∧ pss[j]? = some ps ∧ xss[j]? = some xs ∧ c = .lam args (curryBody t args xs) ∧ CurryOk T ps.length args xs := by
  intro pss
  induction pss with
  | nil =>
    intro xss ts n h1 h2 _
    have : ts = [] := List.eq_nil_of_length_eq_zero (by simpa using h1.symm)
    subst this
    refine ⟨by simp [curryLams], ?_⟩
    intro i c h; simp [curryLams] at h
  | cons ps pss ih =>
    intro xss ts n h1 h2 h3
    cases ts with
    | nil => simp at h1
    | cons t ts =>
      cases xss with
      | nil => simp at h2
      | cons xs xss =>
        obtain ⟨r1, r2, r3, r4⟩ := renameIds_spec ps n
        simp only [curryLams, curryLam]
        obtain ⟨i1, i3⟩ := ih xss ts (renameIds ps n).2 (by simpa using h1) (by simpa using h2)
          (fun xs' hxs' x hx => by have := h3 xs' (List.mem_cons_of_mem _ hxs') x hx; omega)
        refine ⟨by simp [i1], ?_⟩
        intro i c h
        cases i with
        | zero =>
          simp only [List.getElem?_cons_zero, Option.some.injEq] at h
          refine ⟨t, ps, xs, (renameIds ps n).1, rfl, rfl, rfl, h.symm, r1, r4, ?_, ?_, ?_⟩
          · intro y hy; obtain ⟨m, rfl, _⟩ := r3 y hy; exact lex_local m
          · intro y hy hx
            obtain ⟨m, rfl, hm⟩ := r3 y hy
            have := h3 xs List.mem_cons_self _ hx
            simp only [lexId] at this; omega
          · intro y hy; obtain ⟨m, rfl, _⟩ := r3 y hy; exact hT.lex m
        | succ i => exact i3 i c (by simpa using h)

theorem needed_local {ids : List Id} {lams : List Exp} {i : Nat} {x : Id} (h : Needed ids (lams.map freeLexvars) i x) : x.isGlobal = false := by
  induction h with
  | own hf hx hn =>
    rw [List.getElem?_map] at hf
    obtain ⟨l, hl, rfl⟩ := Option.map_eq_some_iff.mp hf
    exact ((c47_free_lexvars _ l).1.1 hx).1
  | call _ _ _ _ ih => exact ih

/-- the conditions on a group. -/
theorem gc_of {T : List (Id × Exp)} {n0 : Nat} (hT : Fresh T n0) {ids : List Id} {lams : List Exp} {tids : List Id} (hn : ids.Nodup)
    (hl : ids.length = lams.length) (ht : tids.length = ids.length) (hlab : ∀ y ∈ ids, y ∉ labs T) (hloc : ∀ y ∈ ids, y.isGlobal = false)
    (hfree : ∀ l ∈ lams, ∀ x, Free x l → x.ts < n0)
    (hps : ∀ ps b, .lam ps b ∈ lams → ∀ y ∈ ps, y ∉ ids ∧ y.ts < n0 ∧ ∀ l ∈ lams, ¬ Free y l) :
    GC T ⟨ids, lams.map params, extraVars ids lams, tids⟩ lams := by
  obtain ⟨q1, q2, q3⟩ := extraVars_spec ids lams hn
  have hget : ∀ {i : Nat} {xs : List Id}, (extraVars ids lams)[i]? = some xs → ∀ x, x ∈ xs ↔ Needed ids (lams.map freeLexvars) i x := by
    intro i xs h x
    rw [← getD_of_getElem? h]; exact q3 i x
  have hfi : ∀ {i : Nat} {l : Exp}, lams[i]? = some l → (lams.map freeLexvars)[i]? = some (freeLexvars l) := by
    intro i l h; rw [List.getElem?_map, h]; rfl
  refine ⟨hl, by simp only; rw [ht, hl], q1, rfl, hlab, ?_, ?_, ?_, ?_⟩
  · intro i l xs h1 h2 y hy hf hm
    exact (hget h2 y).2 (.own (hfi h1) ((c47_free_lexvars y l).1.2 ⟨hy, hf⟩) hm)
  · intro i j l xs xs' y h1 h2 h3 h4 hf z hz
    exact (hget h2 z).2 (.call (hfi h1) h3 ((c47_free_lexvars y l).1.2 ⟨hloc y (List.mem_of_getElem? h3), hf⟩) ((hget h4 z).1 hz))
  · intro xs hxs x hx
    obtain ⟨i, hi⟩ := List.getElem?_of_mem hxs
    have hnd := (hget hi x).1 hx
    obtain ⟨h1, l, h2, h3⟩ := needed_free hnd
    exact ⟨needed_local hnd, h1, hT.old (hfree l h2 x h3), l, h2, h3⟩
  · intro ps b hm y hy
    obtain ⟨h1, h2, h3⟩ := hps ps b hm y hy
    refine ⟨h1, hT.old h2, fun xs hxs hx => ?_⟩
    obtain ⟨i, hi⟩ := List.getElem?_of_mem hxs
    obtain ⟨_, l, h4, h5⟩ := needed_free ((hget hi y).1 hx)
    exact h3 l h4 h5

theorem GC.curry {T : List (Id × Exp)} {n0 : Nat} (hT : Fresh T n0) {g : Group} {lams : List Exp} (hg : GC T g lams)
    (hfree : ∀ l ∈ lams, ∀ x, Free x l → x.ts < n0) {n : Nat} (hn : n0 ≤ n) : CurryAll T g (curryLams g.pss g.xss g.tids n).1 := by
  obtain ⟨h1, h2⟩ := curry_all hT g.pss g.xss g.tids n (by rw [hg.pss, hg.lent]; simp) (by rw [hg.lenx, hg.lent]) (fun xs hxs x hx => by
    obtain ⟨_, _, _, l, hl, hf⟩ := hg.xs xs hxs x hx
    have := hfree l hl x hf
    omega)
  exact ⟨by rw [h1, hg.lent, hg.len], h2⟩

/-! ### the pass -/

/-- lifting `e` gives the lifted form. -/
def Gen (T : List (Id × Exp)) (n0 : Nat) (e : Exp) : Prop :=
  ∀ s, Wf n0 e → n0 ≤ s.next → (∀ p ∈ (lift e s).2.top, p ∈ T) → LR T e (lift e s).1

theorem gen_all {T : List (Id × Exp)} {n0 : Nat} {es : List Exp} (h : ∀ e ∈ es, Gen T n0 e) : ∀ s, WfAll n0 es → n0 ≤ s.next →
    (∀ p ∈ (liftAll es s).2.top, p ∈ T) → LRs T es (liftAll es s).1 := by
  induction es with
  | nil => intro s _ _ _; simp only [liftAll]; exact .nil
  | cons e es ih =>
    intro s w hn ht
    simp only [WfAll] at w
    simp only [liftAll] at ht ⊢
    have l1 := (lift_le e).1 s
    have l2 := liftAll_le (es := es) (fun e _ => (lift_le e).1) (lift e s).2
    exact .cons (h e (by simp) s w.1 hn (fun p hp => ht p (l2.2 p hp))) (ih (fun e' he' => h e' (by simp [he'])) _ w.2 (Nat.le_trans hn l1.1) ht)

theorem gen_lams {T : List (Id × Exp)} {n0 : Nat} (hT : Fresh T n0) {g : Group} {lams : List Exp} (hg : GC T g lams)
    (hfree : ∀ l ∈ lams, ∀ x, Free x l → x.ts < n0) {ids : List Id} : ∀ {ls : List Exp}, (∀ ps b, .lam ps b ∈ ls → Gen T n0 b) →
    ∀ (xss : List (List Id)) (ts : List Id) (s : LSt), WfLams n0 ids ls → xss.length = ls.length → ts.length = ls.length → n0 ≤ s.next →
    (∀ p ∈ (liftLams g ls xss ts s).top, p ∈ T) → LG T g ls xss ts := by
  intro ls
  induction ls with
  | nil =>
    intro _ xss ts s _ h1 h2 _ _
    rw [List.eq_nil_of_length_eq_zero h1, List.eq_nil_of_length_eq_zero h2]; exact .nil g
  | cons e es ih =>
    intro h xss ts s w h1 h2 hn ht
    cases e with
    | lam ps b =>
      cases xss with
      | nil => simp at h1
      | cons xs xss =>
        cases ts with
        | nil => simp at h2
        | cons t ts =>
          simp only [WfLams] at w
          simp only [liftLams] at ht
          have l1 := (lift_le b).1 s
          have l2 := Le.float g ps xs t (lift b s).1 (lift b s).2
          have l3 := liftLams_le (g := g) (ls := es) (fun _ b _ => (lift_le b).1) xss ts (floatOne g ps xs t (lift b s).1 (lift b s).2)
          refine .cons (cs := (curryLams g.pss g.xss g.tids (lift b s).2.next).1) (b' := (lift b s).1) ?_ (hg.curry hT hfree (Nat.le_trans hn l1.1)) ?_
            (ih (fun ps b hm => h ps b (by simp [hm])) xss ts _ w.2 (by simpa using h1) (by simpa using h2) (Nat.le_trans hn (l1.trans l2).1) ht)
          · exact ht _ (l3.2 _ (by simp only [floatOne]; exact List.mem_cons_self))
          · exact h ps b (by simp) s w.1.2.2 hn (fun p hp => ht p (l3.2 p (l2.2 p hp)))
    | _ => simp only [WfLams] at w

theorem wfLams_mem {n : Nat} {ids : List Id} {ls : List Exp} (w : WfLams n ids ls) {ps : List Id} {b : Exp} (h : .lam ps b ∈ ls) :
    ps.Nodup ∧ (∀ x ∈ ps, x.ts < n ∧ x ∉ ids) ∧ Wf n b := by
  obtain ⟨i, hi⟩ := List.getElem?_of_mem h
  obtain ⟨ps', b', e, h1⟩ := wfLams_get w hi
  injection e with e1 e2; subst e1; subst e2
  exact h1

theorem gen {T : List (Id × Exp)} {n0 : Nat} (hT : Fresh T n0) (e : Exp) : Gen T n0 e ∧ ∀ ids b, e = .lam ids b → Gen T n0 b := by
  induction e using ind with
  | var x => exact ⟨fun s _ _ _ => by simp only [lift]; exact .var x, fun _ _ h => by cases h⟩
  | set x e ih =>
    refine ⟨fun s w hn ht => ?_, fun _ _ h => by cases h⟩
    simp only [Wf] at w
    simp only [lift] at ht ⊢
    exact .set (ih.1 s w.2 hn ht)
  | ite a b c h1 h2 h3 =>
    refine ⟨fun s w hn ht => ?_, fun _ _ h => by cases h⟩
    simp only [Wf] at w
    simp only [lift] at ht ⊢
    have l1 := (lift_le a).1 s
    have l2 := (lift_le b).1 (lift a s).2
    have l3 := (lift_le c).1 (lift b (lift a s).2).2
    exact .ite (h1.1 s w.1 hn (fun p hp => ht p (l3.2 p (l2.2 p hp)))) (h2.1 _ w.2.1 (Nat.le_trans hn l1.1) (fun p hp => ht p (l3.2 p hp)))
      (h3.1 _ w.2.2 (Nat.le_trans hn (l1.trans l2).1) ht)
  | prim eff p es ih =>
    refine ⟨fun s w hn ht => ?_, fun _ _ h => by cases h⟩
    simp only [Wf] at w
    simp only [lift] at ht ⊢
    exact .prim (gen_all (fun e he => (ih e he).1) s w hn ht)
  | app f es h1 h2 =>
    refine ⟨fun s w hn ht => ?_, fun _ _ h => by cases h⟩
    by_cases hf : ∃ ids b, f = .lam ids b ∧ ids.length = es.length
    · obtain ⟨ids, b, rfl, hl⟩ := hf
      simp only [Wf] at w
      rw [lift_let hl] at ht ⊢
      have l1 := liftAll_le (es := es) (fun e _ => (lift_le e).1) s
      have l2 := (lift_le b).1 (liftAll es s).2
      exact .app (.keep (fun y hy => hT.old (w.1.2.1 y hy)) (h1.2 ids b rfl _ w.1.2.2 (Nat.le_trans hn l1.1) ht))
        (gen_all (fun e he => (h2 e he).1) s w.2 hn (fun p hp => ht p (l2.2 p hp)))
    · rw [Wf] at w
      rw [lift_app (fun ids b e hl => hf ⟨ids, b, e, hl⟩)] at ht ⊢
      have l1 := (lift_le f).1 s
      have l2 := liftAll_le (es := es) (fun e _ => (lift_le e).1) (lift f s).2
      exact .app (h1.1 s w.1 hn (fun p hp => ht p (l2.2 p hp))) (gen_all (fun e he => (h2 e he).1) _ w.2 (Nat.le_trans hn l1.1) ht)
  | lam ids b ih =>
    refine ⟨fun s w hn ht => ?_, fun ids' b' h => by injection h with _ h; subst h; exact ih.1⟩
    have hfr : ∀ l ∈ [Exp.lam ids b], ∀ x, Free x l → x.ts < n0 := by
      intro l hl x hf
      rw [List.mem_singleton.mp hl] at hf
      exact free_lt _ w hf
    simp only [Wf] at w
    have hg : GC T ⟨[lexId s.next], [Exp.lam ids b].map params, extraVars [lexId s.next] [.lam ids b], [labelId (s.next + 1)]⟩ [.lam ids b] := by
      refine gc_of hT (by simp) rfl rfl ?_ ?_ hfr ?_
      · intro y hy; rw [List.mem_singleton.mp hy]; exact hT.lex _
      · intro y hy; rw [List.mem_singleton.mp hy]; exact lex_local _
      · intro ps b' hm y hy
        simp only [List.mem_singleton, Exp.lam.injEq] at hm
        obtain ⟨rfl, rfl⟩ := hm
        have hy0 := w.2.1 y hy
        refine ⟨?_, hy0, ?_⟩
        · simp only [List.mem_singleton]
          rintro rfl
          simp only [lexId] at hy0; omega
        · intro l hl hf
          rw [List.mem_singleton.mp hl] at hf
          cases hf with | lam h1 _ => exact h1 hy
    simp only [lift] at ht ⊢
    simp only [List.map_cons, List.map_nil, params] at hg
    have l1 := (lift_le b).1 ⟨s.next + 2, s.top⟩
    have l0 : n0 ≤ (lift b ⟨s.next + 2, s.top⟩).2.next := by have := l1.1; simp only at this; omega
    have l2 := Le.float ⟨[lexId s.next], [ids], extraVars [lexId s.next] [.lam ids b], [labelId (s.next + 1)]⟩ ids
      ((extraVars [lexId s.next] [.lam ids b]).getD 0 []) (labelId (s.next + 1)) (lift b ⟨s.next + 2, s.top⟩).1 (lift b ⟨s.next + 2, s.top⟩).2
    refine LR.lam (g := ⟨[lexId s.next], [ids], extraVars [lexId s.next] [.lam ids b], [labelId (s.next + 1)]⟩) rfl (lex_local _) ?_ hg ?_
      (hg.curry hT hfr (Nat.le_trans l0 l2.1))
    · intro hf
      have := free_lt b w.2.2 hf
      simp only [lexId] at this; omega
    · simp only
      have hx := extraVars_single (lexId s.next) (.lam ids b)
      rw [show LG T ⟨[lexId s.next], [ids], extraVars [lexId s.next] [.lam ids b], [labelId (s.next + 1)]⟩ [.lam ids b] (extraVars [lexId s.next] [.lam ids b]) [labelId (s.next + 1)]
        = LG T ⟨[lexId s.next], [ids], extraVars [lexId s.next] [.lam ids b], [labelId (s.next + 1)]⟩ [.lam ids b] [(extraVars [lexId s.next] [.lam ids b]).getD 0 []] [labelId (s.next + 1)] from
        congrArg (fun x => LG T ⟨[lexId s.next], [ids], extraVars [lexId s.next] [.lam ids b], [labelId (s.next + 1)]⟩ [.lam ids b] x [labelId (s.next + 1)]) hx]
      refine .cons (ht _ ?_) (hg.curry hT hfr l0) (ih.1 _ w.2.2 (by simp only; omega) (fun p hp => ht p (l2.2 p hp))) (.nil _)
      simp only [closeGroup, floatOne]
      exact List.mem_cons_self
  | fix ids lams b h1 h2 =>
    refine ⟨fun s w hn ht => ?_, fun _ _ h => by cases h⟩
    simp only [Wf] at w
    obtain ⟨⟨w1, w2, w3⟩, w4, w5, w6⟩ := w
    obtain ⟨t1, t2, t3, t4⟩ := labels_spec ids s.next
    have hfr : ∀ l ∈ lams, ∀ x, Free x l → x.ts < n0 := fun l hl x hf => freeLams_lt ids lams w5 l hl hf
    have hg : GC T ⟨ids, lams.map params, extraVars ids lams, (labels ids s.next).1⟩ lams := by
      refine gc_of hT w1 w2 t1 (fun y hy => hT.old (w4 y hy).1) (fun y hy => (w4 y hy).2) hfr ?_
      intro ps b' hm y hy
      obtain ⟨_, hp, _⟩ := wfLams_mem w5 hm
      exact ⟨(hp y hy).2, (hp y hy).1, w3 ps b' hm y hy⟩
    simp only [lift] at ht ⊢
    have l0 := labels_mono ids s.next
    have l1 := liftLams_le (g := ⟨ids, lams.map params, extraVars ids lams, (labels ids s.next).1⟩) (ls := lams) (fun _ b _ => (lift_le b).1)
      (extraVars ids lams) (labels ids s.next).1 ⟨(labels ids s.next).2, s.top⟩
    have l2 := (lift_le b).1 (liftLams ⟨ids, lams.map params, extraVars ids lams, (labels ids s.next).1⟩ lams (extraVars ids lams) (labels ids s.next).1 ⟨(labels ids s.next).2, s.top⟩)
    have hn1 : n0 ≤ (labels ids s.next).2 := Nat.le_trans hn l0
    exact LR.fix (g := ⟨ids, lams.map params, extraVars ids lams, (labels ids s.next).1⟩) hg
      (gen_lams hT hg hfr (fun ps b hm => (h1 _ hm).2 ps b rfl) _ _ ⟨(labels ids s.next).2, s.top⟩ w5 hg.lenx hg.lent hn1 (fun p hp => ht p (l2.2 p hp)))
      (hg.curry hT hfr (Nat.le_trans hn1 (Nat.le_trans l1.1 l2.1)))
      (h2.1 _ w6 (Nat.le_trans hn1 l1.1) ht)
  | letcc x b ih => exact ⟨fun s w => by simp only [Wf] at w, fun _ _ h => by cases h⟩
  | withcc k e h1 h2 => exact ⟨fun s w => by simp only [Wf] at w, fun _ _ h => by cases h⟩

end Verif.Lift

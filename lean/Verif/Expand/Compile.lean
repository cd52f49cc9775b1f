import Verif.Expand.Apply
/-
`compile-syntax-rules` makes corresponding macros from corresponding forms, and the environment it keeps is enough.
-/
namespace Verif.Expand
open Verif.Macros

theorem compileRule_inv {m : Macro} {x : Sx} {r : (Sx × Sx) × List Key} (h : compileRule m x = some r) :
    ∃ pat tmpl p pe, x = .pair pat (.pair tmpl .nil) ∧ patRest pat = some p ∧ checkRule m p tmpl = true ∧
      patEnv m p 0 [] = some pe ∧ r = ((pat, tmpl), collectLits m pe tmpl []) := by
  unfold compileRule at h
  split at h
  · rename_i pat tmpl
    cases hq : patRest pat with
    | none => rw [hq] at h; cases h
    | some p =>
      rw [hq] at h
      simp only at h
      split at h
      · rename_i hck
        cases hpe : patEnv m p 0 [] with
        | none => rw [hpe] at h; cases h
        | some pe =>
          rw [hpe] at h
          simp only [Option.some.injEq] at h
          exact ⟨pat, tmpl, p, pe, rfl, hq, hck, hpe, h.symm⟩
      · cases h
  · cases h

theorem compileRule_of {m : Macro} {pat tmpl p : Sx} {pe : List (Key × Nat)} (h1 : patRest pat = some p)
    (h2 : checkRule m p tmpl = true) (h3 : patEnv m p 0 [] = some pe) :
    compileRule m (.pair pat (.pair tmpl .nil)) = some ((pat, tmpl), collectLits m pe tmpl []) := by
  unfold compileRule
  simp only [h1, h2, h3, if_true]

/-! ### the reduced environment -/

/-- the rule is treated alike by both macros. -/
def RuleOk (m m1 : Macro) (r : Sx × Sx) : Prop :=
  ∃ p pe, patRest r.1 = some p ∧ checkRule m p r.2 = true ∧ patEnv m p 0 [] = some pe ∧ VecOk r.2 ∧
    AllSid (fun a b c => m.ell (.sid a b c) = m1.ell (.sid a b c) ∧
      (b ∈ m.literals → lookupSid b c m.env = lookupSid b c m1.env)) p ∧
    AllSid (fun a b c => m.ell (.sid a b c) = m1.ell (.sid a b c) ∧ (m.ell (.sid a b c) = false → assv b pe = none →
      lookupSid b c m.env = lookupSid b c m1.env)) r.2

theorem assv_none_iff {V : Type} {k : Key} {l : List (Key × V)} : assv k l = none ↔ k ∉ l.map Prod.fst := by
  constructor
  · intro h hk
    obtain ⟨v, hv⟩ := assv_some hk
    rw [h] at hv; cases hv
  · exact assv_none

theorem expandTemplate_eq {m m1 : Macro} (hlit : m1.literals = m.literals) {idn : Nat} {p t : Sx} {top : List (Key × Sx)}
    {pe : List (Key × Nat)} (hck : checkRule m p t = true) (hvo : VecOk t)
    (hp : AllSid (fun a b c => m.ell (.sid a b c) = m1.ell (.sid a b c)) p)
    (ht : AllSid (fun a b c => m.ell (.sid a b c) = m1.ell (.sid a b c) ∧ (m.ell (.sid a b c) = false → assv b pe = none →
      lookupSid b c m.env = lookupSid b c m1.env)) t) (hkeys : top.map Prod.fst = pe.map Prod.fst) :
    expandTemplate m idn p t top = expandTemplate m1 idn p t top := by
  have ht1 := AllSid.imp (fun _ _ _ h => h.1) t ht
  have hck2 : m.ell t = false ∧ checkEll m true t = true := by
    simp only [checkRule, checkTemplate, Bool.and_eq_true, Bool.not_eq_true'] at hck
    exact hck.1.2
  have h1 : (mkCtx m1 idn p t top).lits = (mkCtx m idn p t top).lits := by
    simp only [mkCtx, listIds_eq _ t true [] ht1]
  have h2 : (mkCtx m1 idn p t top).ellVars = (mkCtx m idn p t top).ellVars := by
    simp only [mkCtx, listIds_eq _ p false [] hp, notLit_eq hlit]
  have h3 := expand_eq (m := m) (m1 := m1) (c := mkCtx m idn p t top) (c1 := mkCtx m1 idn p t top) rfl rfl rfl rfl h1 h2 t top
    hck2.1 hck2.2 hvo (AllSid.imp (fun a b c h => ⟨h.1, fun x y => h.2 x (by
      rw [assv_none_iff] at y ⊢
      rw [← hkeys]; exact y)⟩) t ht)
  simp only [expandTemplate, h1, h3]

theorem applyRules_eq {m m1 : Macro} (hlit : m1.literals = m.literals) (idn : Nat) (e : Env) (x : Sx) :
    ∀ (rs : List (Sx × Sx)), (∀ r ∈ rs, RuleOk m m1 r) → applyRules m idn e x rs = applyRules m1 idn e x rs
  | [], _ => rfl
  | (pat, tmpl) :: rs, h => by
    have ih := applyRules_eq hlit idn e x rs (fun r hr => h r (List.mem_cons_of_mem _ hr))
    obtain ⟨p, pe, h1, h2, h3, h4, h5, h6⟩ := h _ List.mem_cons_self
    have h5' := AllSid.imp (fun _ _ _ h => h.1) p h5
    simp only at h1 h2 h4 h6
    have hck : checkEll m false p = true := by
      simp only [checkRule, checkPattern, Bool.and_eq_true] at h2
      exact h2.1.1.2
    cases pat with
    | sid a b c =>
      simp only [patRest, Option.some.injEq] at h1
      subst h1
      simp only [patEnv, Option.some.injEq] at h3
      subst h3
      cases x with
      | sid a' b' c' =>
        simp only [applyRules]
        rw [expandTemplate_eq hlit h2 h4 h5' h6 rfl]
      | _ => simpa only [applyRules] using ih
    | pair q p' =>
      have : p' = p := by
        cases q <;> simp only [patRest, Option.some.injEq] at h1 <;> first | exact h1 | cases h1
      subst this
      cases x with
      | pair xh s =>
        simp only [applyRules, ← matches_eq hlit e p' s h5]
        split
        · rename_i hmat
          rw [← bindings_eq hlit p' s [] h5']
          rw [expandTemplate_eq hlit h2 h4 h5' h6]
          rw [bindings_keys m e p' s hck hmat, (patEnv_keys m p' 0 [] pe h3).1]
          simp
        · exact ih
      | _ => simpa only [applyRules] using ih
    | _ => simp [patRest] at h1

theorem collectLits_mono (m : Macro) (pe : List (Key × Nat)) : ∀ (t : Sx) (l : List Key), ∀ k ∈ l, k ∈ collectLits m pe t l
  | .nil, _, _, h => h
  | .atom _, _, _, h => h
  | .sid _ _ _, l, k, h => by
    simp only [collectLits]
    split
    · exact h
    · split
      · exact h
      · exact List.mem_cons_of_mem _ h
  | .vec x, l, k, h => by simpa only [collectLits] using collectLits_mono m pe x l k h
  | .pair a d, l, k, h => by
    simpa only [collectLits] using collectLits_mono m pe a _ k (collectLits_mono m pe d l k h)

theorem collectLits_spec (m : Macro) (pe : List (Key × Nat)) : ∀ (t : Sx) (l : List Key),
    AllSid (fun a b c => m.ell (.sid a b c) = false → assv b pe = none → b ∈ collectLits m pe t l) t
  | .nil, _ => trivial
  | .atom _, _ => trivial
  | .sid a b c, l => by
    intro h1 h2
    simp [collectLits, h1, h2]
  | .vec x, l => by simpa only [collectLits, AllSid] using collectLits_spec m pe x l
  | .pair a d, l => by
    simp only [collectLits]
    exact ⟨collectLits_spec m pe a _, AllSid.imp (fun _ _ _ h x y => collectLits_mono m pe a _ _ (h x y)) d (collectLits_spec m pe d l)⟩

theorem listDots_mono : ∀ (t : Sx) (l : List Key), ∀ k ∈ l, k ∈ listDots t l
  | .nil, _, _, h => h
  | .atom _, _, _, h => h
  | .sid _ _ _, l, k, h => by
    simp only [listDots]
    split
    · exact List.mem_cons_of_mem _ h
    · exact h
  | .vec x, l, k, h => by simpa only [listDots] using listDots_mono x l k h
  | .pair a d, l, k, h => by
    simpa only [listDots] using listDots_mono a _ k (listDots_mono d l k h)

theorem listDots_spec : ∀ (t : Sx) (l : List Key), AllSid (fun _ b c => c = .sym "..." → b ∈ listDots t l) t
  | .nil, _ => trivial
  | .atom _, _ => trivial
  | .sid a b c, l => by
    intro h1
    simp [listDots, h1]
  | .vec x, l => by simpa only [listDots, AllSid] using listDots_spec x l
  | .pair a d, l => by
    simp only [listDots]
    exact ⟨listDots_spec a _, AllSid.imp (fun _ _ _ h x => listDots_mono a _ _ (h x)) d (listDots_spec d l)⟩

/-- the items of a form. -/
theorem AllSid.items {P : String → Key → Key → Prop} : ∀ {x : Sx}, AllSid P x → ∀ y ∈ items x, AllSid P y
  | .pair a d, h, y, hy => by
    simp only [Verif.Macros.items, List.mem_cons] at hy
    rcases hy with rfl | hy
    · exact h.1
    · exact AllSid.items h.2 y hy
  | .nil, _, _, hy => by simp [Verif.Macros.items] at hy
  | .atom _, _, _, hy => by simp [Verif.Macros.items] at hy
  | .sid _ _ _, _, _, hy => by simp [Verif.Macros.items] at hy
  | .vec _, _, _, hy => by simp [Verif.Macros.items] at hy

theorem items_listOf (xs : List Sx) : items (listOf xs) = xs := by
  simp [listOf, items_listS, items]

theorem VecOk.items : ∀ {x : Sx}, VecOk x → ∀ y ∈ items x, VecOk y
  | .pair a d, h, y, hy => by
    simp only [Verif.Macros.items, List.mem_cons] at hy
    rcases hy with rfl | hy
    · exact h.1
    · exact VecOk.items h.2 y hy
  | .nil, _, _, hy => by simp [Verif.Macros.items] at hy
  | .atom _, _, _, hy => by simp [Verif.Macros.items] at hy
  | .sid _ _ _, _, _, hy => by simp [Verif.Macros.items] at hy
  | .vec _, _, _, hy => by simp [Verif.Macros.items] at hy

theorem compileRules_mem {m : Macro} : ∀ {rs : List Sx} {xs : List ((Sx × Sx) × List Key)}, compileRules m rs = some xs →
    ∀ x ∈ xs, ∃ r ∈ rs, compileRule m r = some x
  | [], xs, h, x, hx => by simp only [compileRules, Option.some.injEq] at h; subst h; simp at hx
  | r :: rs, xs, h, x, hx => by
    simp only [compileRules] at h
    cases h1 : compileRule m r with
    | none => rw [h1] at h; cases h
    | some y =>
      cases h2 : compileRules m rs with
      | none => rw [h1, h2] at h; cases h
      | some ys =>
        rw [h1, h2] at h
        simp only [Option.some.injEq] at h
        subst h
        rcases List.mem_cons.mp hx with rfl | hx
        · exact ⟨r, by simp, h1⟩
        · obtain ⟨r', hr, hr'⟩ := compileRules_mem h2 x hx
          exact ⟨r', by simp [hr], hr'⟩

/-- the parts of a `syntax-rules` form, 2.sf:758-761, 773-775. -/
def synParts : Sx → Option (Option Key × Sx × List Sx)
  | .pair (.sid _ id _) (.pair ls rs) => some (some id, ls, items rs)
  | .pair ls rs => some (none, ls, items rs)
  | _ => none

/-- the macro before its rules are checked. -/
def preMacro (ellId : Option Key) (ls : Sx) (env : Env) : Macro :=
  { ellipsisId := ellId, literals := (items ls).map sidId, rules := [], env := env }

/-- the ids whose bindings are kept. -/
def keptIds (ellId : Option Key) (ls : Sx) (rs : List Sx) (xs : List ((Sx × Sx) × List Key)) : List Key :=
  if ellId.isSome then (items ls).map sidId ++ xs.flatMap Prod.snd
  else listDots (listOf rs) ((items ls).map sidId ++ xs.flatMap Prod.snd)

theorem compileSynrules_eq (tail : Sx) (env : Env) : compileSynrules tail env =
    match synParts tail with
    | none => none
    | some (ellId, ls, rs) =>
      if isList ls && (items ls).all (fun l => isSid l && !(preMacro ellId ls env).ell l) then
        match compileRules (preMacro ellId ls env) rs with
        | none => none
        | some xs => some { preMacro ellId ls env with rules := xs.map Prod.fst, env := reduceEnv env (keptIds ellId ls rs xs) [] }
      else none := by
  unfold compileSynrules synParts preMacro keptIds
  rfl

theorem compileSynrules_inv {tail : Sx} {env : Env} {m : Macro} (h : compileSynrules tail env = some m) :
    ∃ ellId ls rs xs, synParts tail = some (ellId, ls, rs) ∧ isList ls = true ∧
      (∀ l ∈ items ls, isSid l = true ∧ (preMacro ellId ls env).ell l = false) ∧
      compileRules (preMacro ellId ls env) rs = some xs ∧
      m = { preMacro ellId ls env with rules := xs.map Prod.fst, env := reduceEnv env (keptIds ellId ls rs xs) [] } := by
  rw [compileSynrules_eq] at h
  cases hs : synParts tail with
  | none => rw [hs] at h; cases h
  | some q =>
    obtain ⟨ellId, ls, rs⟩ := q
    rw [hs] at h
    simp only at h
    split at h
    · rename_i hc
      simp only [Bool.and_eq_true, List.all_eq_true, Bool.not_eq_true'] at hc
      cases hx : compileRules (preMacro ellId ls env) rs with
      | none => rw [hx] at h; cases h
      | some xs =>
        rw [hx] at h
        simp only [Option.some.injEq] at h
        exact ⟨ellId, ls, rs, xs, rfl, hc.1, hc.2, hx, h.symm⟩
    · cases h

theorem lookup_reduce {env : Env} {ids : List Key} {b : Key} (hb : b ∈ ids) (c : Key) :
    lookupSid b c env = lookupSid b c (reduceEnv env ids []) := by
  simp only [lookupSid, reduceEnv_assv]
  simp [assv, hb]

theorem lookup_dots {env : Env} (hv : ∀ p ∈ env, ∃ n, p.2 = Key.num n) {ids : List Key} {b c : Key} (hb : c = .sym "..." → b ∈ ids) :
    (lookupSid b c env = .sym "...") ↔ (lookupSid b c (reduceEnv env ids []) = .sym "...") := by
  by_cases hc : c = .sym "..."
  · rw [lookup_reduce (hb hc)]
  · have h1 : ∀ e : Env, (∀ p ∈ e, ∃ n, p.2 = Key.num n) → lookupSid b c e ≠ .sym "..." := by
      intro e he
      simp only [lookupSid]
      cases h : assv b e with
      | none => exact hc
      | some l =>
        obtain ⟨n, hn⟩ := he _ (assv_mem_pair h)
        simp only at hn
        simp [hn]
    constructor
    · intro h; exact absurd h (h1 _ hv)
    · intro h
      refine absurd h ?_
      simp only [lookupSid, reduceEnv_assv]
      by_cases hm : b ∈ ids
      · simp only [assv, Option.isSome_none, Bool.false_eq_true, if_false, hm, if_true]
        exact h1 env hv
      · simp only [assv, Option.isSome_none, Bool.false_eq_true, if_false, hm]
        exact hc

theorem synParts_vecOk {tail : Sx} {ellId : Option Key} {ls : Sx} {rs : List Sx} (h : synParts tail = some (ellId, ls, rs))
    (hv : VecOk tail) : ∀ r ∈ rs, VecOk r := by
  unfold synParts at h
  split at h
  · cases h; exact fun r hr => VecOk.items hv.2.2 r hr
  · cases h; exact fun r hr => VecOk.items hv.2 r hr
  · cases h

/-- **`reduce-env` drops nothing that is needed**: the macro with the environment kept by `compile-syntax-rules` expands
every use as the macro with the whole environment would. -/
theorem reduce_sound {tail : Sx} {env : Env} {m : Macro} (h : compileSynrules tail env = some m) (hvo : VecOk tail)
    (hv : ∀ p ∈ env, ∃ n, p.2 = Key.num n) (idn : Nat) (e : Env) (x : Sx) :
    applySynrules m idn e x = applySynrules { m with env := env } idn e x := by
  obtain ⟨ellId, ls, rs, xs, hs, hls, hall, hxs, rfl⟩ := compileSynrules_inv h
  have hrs := synParts_vecOk hs hvo
  have main : ∀ (m1 : Macro), m1.ellipsisId = ellId → m1.literals = (items ls).map sidId →
      (m1.env = env ∨ m1.env = reduceEnv env (keptIds ellId ls rs xs) []) →
      ∀ r ∈ xs.map Prod.fst, RuleOk (preMacro ellId ls env) m1 r := by
    intro m1 he hl henv r hr
    obtain ⟨y, hy, rfl⟩ := List.mem_map.mp hr
    obtain ⟨r0, hr0, hcr⟩ := compileRules_mem hxs y hy
    obtain ⟨pat, tmpl, p, pe, rfl, h1, h2, h3, rfl⟩ := compileRule_inv hcr
    have hvr := hrs _ hr0
    have hlook : ∀ b c, b ∈ keptIds ellId ls rs xs → lookupSid b c env = lookupSid b c m1.env := by
      intro b c hb
      rcases henv with h | h
      · rw [h]
      · rw [h, lookup_reduce hb]
    have hlits : ∀ b, b ∈ (items ls).map sidId ++ xs.flatMap Prod.snd → b ∈ keptIds ellId ls rs xs := by
      intro b hb
      unfold keptIds
      split
      · exact hb
      · exact listDots_mono _ _ _ hb
    have hell : ∀ a b c, (ellId = none → c = .sym "..." → b ∈ keptIds ellId ls rs xs) →
        (preMacro ellId ls env).ell (.sid a b c) = m1.ell (.sid a b c) := by
      intro a b c hb
      simp only [Macro.ell, preMacro, he]
      cases ellId with
      | some k => rfl
      | none =>
        simp only
        rcases henv with h | h
        · rw [h]; rfl
        · rw [h]
          exact decide_eq_decide.mpr (lookup_dots hv (hb rfl))
    have hdots : AllSid (fun _ b c => ellId = none → c = .sym "..." → b ∈ keptIds ellId ls rs xs) (.pair pat (.pair tmpl .nil)) := by
      cases hE : ellId with
      | some k => exact AllSid.imp (fun _ _ _ _ h => by cases h) _ (AllSid.items (listDots_spec (listOf rs) []) _ (by rw [items_listOf]; exact hr0))
      | none =>
        refine AllSid.imp (fun _ _ _ h _ hc => ?_) _ (AllSid.items (listDots_spec (listOf rs) ((items ls).map sidId ++ xs.flatMap Prod.snd)) _
          (by rw [items_listOf]; exact hr0))
        unfold keptIds
        exact h hc
    refine ⟨p, pe, h1, h2, h3, hvr.2.1, ?_, ?_⟩
    · have hp : AllSid (fun _ b c => ellId = none → c = .sym "..." → b ∈ keptIds ellId ls rs xs) p := by
        cases pat with
        | sid a b c => simp only [patRest, Option.some.injEq] at h1; subst h1; trivial
        | pair q p' =>
          have : p' = p := by
            cases q <;> simp only [patRest, Option.some.injEq] at h1 <;> first | exact h1 | cases h1
          subst this
          exact hdots.1.2
        | _ => simp [patRest] at h1
      refine AllSid.imp (fun a b c h => ⟨hell a b c h, fun hb => hlook b c (hlits b ?_)⟩) p hp
      exact List.mem_append_left _ hb
    · have hc := collectLits_spec (preMacro ellId ls env) pe tmpl []
      have hboth : ∀ (t : Sx), AllSid (fun _ b c => ellId = none → c = .sym "..." → b ∈ keptIds ellId ls rs xs) t →
          AllSid (fun a b c => (preMacro ellId ls env).ell (.sid a b c) = false → assv b pe = none →
            b ∈ collectLits (preMacro ellId ls env) pe tmpl []) t →
          AllSid (fun a b c => (preMacro ellId ls env).ell (.sid a b c) = m1.ell (.sid a b c) ∧
            ((preMacro ellId ls env).ell (.sid a b c) = false → assv b pe = none →
              lookupSid b c (preMacro ellId ls env).env = lookupSid b c m1.env)) t := by
        intro t
        induction t with
        | nil => intros; trivial
        | atom n => intros; trivial
        | sid a b c =>
          intro h1 h2
          refine ⟨hell a b c h1, fun x y => hlook b c (hlits b (List.mem_append_right _ ?_))⟩
          exact List.mem_flatMap.mpr ⟨_, hy, h2 x y⟩
        | vec x ih => exact ih
        | pair a d iha ihd => intro h1 h2; exact ⟨iha h1.1 h2.1, ihd h1.2 h2.2⟩
      exact hboth tmpl hdots.2.1 hc
  simp only [applySynrules]
  rw [← applyRules_eq (m := preMacro ellId ls env) (m1 := { preMacro ellId ls env with rules := xs.map Prod.fst, env := reduceEnv env (keptIds ellId ls rs xs) [] })
    rfl idn e x _ (main _ rfl rfl (Or.inr rfl))]
  exact applyRules_eq (m := preMacro ellId ls env) (m1 := { preMacro ellId ls env with rules := xs.map Prod.fst }) rfl idn e x _
    (main _ rfl rfl (Or.inl rfl))

/-! ### corresponding macros -/

/-- macros that expand corresponding uses to corresponding forms. -/
def MacroRel (N : IdRel) (sh : Nat) (gl : Bool) (m m' : Macro) : Prop :=
  ∃ Rm n n', MacRel N sh gl Rm n n' ∧ (∀ idn e x, applySynrules m idn e x = applySynrules n idn e x) ∧
    (∀ idn e x, applySynrules m' idn e x = applySynrules n' idn e x)

theorem MacroRel.apply {N : IdRel} {sh : Nat} {gl : Bool} {R : IdRel} {e e' : Env} {idn : Nat} {m m' : Macro}
    (hm : MacroRel N sh gl m m') (hg : Good N sh gl R e e' idn) {x x' : Sx} (hx : UseRel R x x') {y : Sx} {idn2 : Nat}
    (hr : applySynrules m idn e x = .result (.ok (y, idn2))) :
    ∃ y' R2, applySynrules m' (idn + sh) e' x' = .result (.ok (y', idn2 + sh)) ∧ (∀ s s', R s s' → R2 s s') ∧ Good N sh gl R2 e e' idn2 ∧
      SxRel R2 y y' := by
  obtain ⟨Rm, n, n', h1, h2, h3⟩ := hm
  rw [h2] at hr
  rw [h3]
  exact applySynrules_rel hg h1 hx hr

theorem patRest_rel {R : IdRel} {pat pat' p : Sx} (h : SxRel R pat pat') (hp : patRest pat = some p) :
    ∃ p', patRest pat' = some p' ∧ SxRel R p p' := by
  cases h with
  | sid r => simp only [patRest, Option.some.injEq] at hp; subst hp; exact ⟨.nil, rfl, .nil⟩
  | pair h1 h2 =>
    cases h1 with
    | sid r => simp only [patRest, Option.some.injEq] at hp; subst hp; exact ⟨_, rfl, h2⟩
    | _ => simp [patRest] at hp
  | _ => simp [patRest] at hp

theorem compileRules_rel {N : IdRel} {sh : Nat} {gl : Bool} {R : IdRel} {m m' : Macro} (hm : MacRel N sh gl R m m') :
    ∀ {rs rs' : List Sx} {xs : List ((Sx × Sx) × List Key)}, List.Forall₂ (SxRel R) rs rs' → compileRules m rs = some xs →
    ∃ xs', compileRules m' rs' = some xs' ∧
      List.Forall₂ (fun r r' => SxRel R r.1 r'.1 ∧ SxRel R r.2 r'.2) (xs.map Prod.fst) (xs'.map Prod.fst)
  | _, _, xs, .nil, h => by
    simp only [compileRules, Option.some.injEq] at h
    subst h
    exact ⟨[], rfl, .nil⟩
  | r :: rs, r' :: rs', xs, .cons h1 h2, h => by
    simp only [compileRules] at h
    cases hr : compileRule m r with
    | none => rw [hr] at h; cases h
    | some y =>
      cases hrs : compileRules m rs with
      | none => rw [hr, hrs] at h; cases h
      | some ys =>
        rw [hr, hrs] at h
        simp only [Option.some.injEq] at h
        subst h
        obtain ⟨ys', hys, hrel⟩ := compileRules_rel hm h2 hrs
        obtain ⟨pat, tmpl, p, pe, rfl, g1, g2, g3, rfl⟩ := compileRule_inv hr
        cases h1 with
        | pair hp ht =>
          rename_i pat' _
          cases ht with
          | pair ht hn =>
            rename_i tmpl' _
            cases hn
            obtain ⟨p', g1', hpp⟩ := patRest_rel hp g1
            have g2' := checkRule_rel hm hpp ht
            rw [g2] at g2'
            have g3' := patEnv_rel hm p p' 0 [] [] hpp .nil
            rw [g3] at g3'
            cases hpe : patEnv m' p' 0 [] with
            | none => rw [hpe] at g3'; cases g3'
            | some pe' =>
              refine ⟨((pat', tmpl'), collectLits m' pe' tmpl' []) :: ys', ?_, .cons ?_ hrel⟩
              · simp only [compileRules, compileRule_of g1' g2'.symm hpe, hys]
              · exact ⟨hp, ht⟩

theorem sidIds_rel {R : IdRel} : ∀ {l l' : List Sx}, List.Forall₂ (SxRel R) l l' → (∀ x ∈ l, isSid x = true) →
    List.Forall₂ (idR R) (l.map sidId) (l'.map sidId)
  | _, _, .nil, _ => .nil
  | x :: l, _, .cons h1 h2, hs => by
    refine .cons ?_ (sidIds_rel h2 (fun y hy => hs y (List.mem_cons_of_mem _ hy)))
    have := hs x List.mem_cons_self
    cases h1 with
    | sid r => exact ⟨_, _, r, rfl, rfl⟩
    | _ => simp [isSid] at this

theorem isSid_rel {R : IdRel} {x x' : Sx} (h : SxRel R x x') : isSid x = isSid x' := by cases h <;> rfl

theorem synParts_rel {R : IdRel} {tail tail' : Sx} (h : SxRel R tail tail') {ellId : Option Key} {ls : Sx} {rs : List Sx}
    (hs : synParts tail = some (ellId, ls, rs)) : ∃ ellId' ls' rs', synParts tail' = some (ellId', ls', rs') ∧
      Option.Rel (idR R) ellId ellId' ∧ SxRel R ls ls' ∧ List.Forall₂ (SxRel R) rs rs' := by
  cases h with
  | pair h1 h2 =>
    cases h1 with
    | sid r =>
      cases h2 with
      | pair h3 h4 =>
        simp only [synParts, Option.some.injEq, Prod.mk.injEq] at hs
        obtain ⟨rfl, rfl, rfl⟩ := hs
        exact ⟨_, _, _, rfl, .some ⟨_, _, r, rfl, rfl⟩, h3, items_rel h4⟩
      | _ =>
        simp only [synParts, Option.some.injEq, Prod.mk.injEq] at hs
        obtain ⟨rfl, rfl, rfl⟩ := hs
        exact ⟨_, _, _, rfl, .none, .sid r, .nil⟩
    | _ =>
      simp only [synParts, Option.some.injEq, Prod.mk.injEq] at hs
      obtain ⟨rfl, rfl, rfl⟩ := hs
      refine ⟨_, _, _, rfl, .none, by first | exact .nil | constructor <;> assumption, items_rel h2⟩
  | _ => simp [synParts] at hs

theorem compileSynrules_rel {N : IdRel} {sh : Nat} {gl : Bool} {R : IdRel} {e e' : Env} (hl : Link N sh gl R e e') {tail tail' : Sx}
    (ht : SxRel R tail tail') {m : Macro} (h : compileSynrules tail e = some m) :
    ∃ m', compileSynrules tail' e' = some m' ∧ MacroRel N sh gl m m' := by
  have h0 := h
  obtain ⟨ellId, ls, rs, xs, hs, hls, hall, hxs, rfl⟩ := compileSynrules_inv h
  obtain ⟨ellId', ls', rs', hs', hell, hlsr, hrsr⟩ := synParts_rel ht hs
  have hit := items_rel hlsr
  have hpre : MacRel N sh gl R (preMacro ellId ls e) (preMacro ellId' ls' e') :=
    ⟨hl, hell, sidIds_rel hit (fun x hx => (hall x hx).1), .nil⟩
  obtain ⟨xs', hxs', hrules⟩ := compileRules_rel hpre hrsr hxs
  have hall' : (isList ls' && (items ls').all (fun l => isSid l && !(preMacro ellId' ls' e').ell l)) = true := by
    simp only [Bool.and_eq_true, List.all_eq_true, Bool.not_eq_true']
    refine ⟨by rw [← isList_rel hlsr]; exact hls, fun l' hl' => ?_⟩
    obtain ⟨l, hl1, hl2⟩ : ∃ l ∈ items ls, SxRel R l l' := by
      obtain ⟨hlen, hget⟩ := List.forall₂_iff_get.mp hit
      obtain ⟨i, hi, rfl⟩ := List.mem_iff_getElem.mp hl'
      exact ⟨(items ls)[i]'(by omega), List.getElem_mem _, hget i (by omega) hi⟩
    obtain ⟨q1, q2⟩ := hall l hl1
    exact ⟨by rw [← isSid_rel hl2]; exact q1, by rw [← ell_rel hpre hl2]; exact q2⟩
  have hc' : compileSynrules tail' e' = some { preMacro ellId' ls' e' with rules := xs'.map Prod.fst, env := reduceEnv e' (keptIds ellId' ls' rs' xs') [] } := by
    rw [compileSynrules_eq, hs']
    simp only [hall', if_true, hxs']
  refine ⟨_, hc', R, { preMacro ellId ls e with rules := xs.map Prod.fst }, { preMacro ellId' ls' e' with rules := xs'.map Prod.fst },
    ⟨hl, hell, sidIds_rel hit (fun x hx => (hall x hx).1), hrules⟩, ?_, ?_⟩
  · exact fun idn u x => reduce_sound h0 ht.vecOk.1 hl.vals idn u x
  · exact fun idn u x => reduce_sound hc' ht.vecOk.2 hl.vals' idn u x

end Verif.Expand

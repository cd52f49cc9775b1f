import Verif.Macros.Depth
/-
C31: `syntax-rules` templates reproduce what patterns matched.
-/
namespace Verif.Macros

/-- The pattern of a rule applies to a macro use: the keyword is not looked at; a rule for a plain identifier
(`identifier-syntax`) applies to an identifier. -/
def Applies (m : Macro) (env : List (Key × Key)) (pat use : Sx) : Prop :=
  (∃ k p k' s, pat = .pair k p ∧ use = .pair k' s ∧ matches_ m env p s = true) ∨
  (∃ n i l n' i' l', pat = .sid n i l ∧ use = .sid n' i' l')

theorem applyRules_applies {m : Macro} {idn : Nat} {env : List (Key × Key)} {use pat tmpl : Sx} {rules : List (Sx × Sx)}
    (h : Applies m env pat use) : applyRules m idn env use ((pat, tmpl) :: rules) = applyRules m idn env use [(pat, tmpl)] ∧
    applyRules m idn env use [(pat, tmpl)] ≠ .noRule := by
  rcases h with ⟨k, p, k', s, rfl, rfl, hm⟩ | ⟨n, i, l, n', i', l', rfl, rfl⟩
  · simp [applyRules, hm]
  · simp [applyRules]

theorem applyRules_skip {m : Macro} {idn : Nat} {env : List (Key × Key)} {use pat tmpl : Sx} {rules : List (Sx × Sx)}
    (h : ¬ Applies m env pat use) : applyRules m idn env use ((pat, tmpl) :: rules) = applyRules m idn env use rules := by
  rw [applyRules.eq_def]
  simp only
  split
  · rename_i k p k' s
    rw [if_neg]
    exact fun hm => h (Or.inl ⟨k, p, k', s, rfl, rfl, hm⟩)
  · exact absurd (Or.inr ⟨_, _, _, _, _, _, rfl, rfl⟩) h
  · rfl

/-- C31: the first rule whose pattern applies is used, as if it were the only one; there is an error report if and only
if there is none. -/
theorem c31_first_rule (m : Macro) (idn : Nat) (env : List (Key × Key)) (use : Sx) :
    (∀ pre pat tmpl post, m.rules = pre ++ (pat, tmpl) :: post → (∀ r ∈ pre, ¬ Applies m env r.1 use) →
      Applies m env pat use → applySynrules m idn env use = applyRules m idn env use [(pat, tmpl)]) ∧
    (applySynrules m idn env use = .noRule ↔ ∀ r ∈ m.rules, ¬ Applies m env r.1 use) := by
  constructor
  · intro pre pat tmpl post hr hpre hap
    unfold applySynrules
    rw [hr]
    clear hr
    induction pre with
    | nil => exact (applyRules_applies hap).1
    | cons r pre ih =>
      obtain ⟨p, t⟩ := r
      rw [List.cons_append, applyRules_skip (hpre (p, t) (by simp))]
      exact ih (fun r hr => hpre r (by simp [hr]))
  · unfold applySynrules
    generalize m.rules = rules
    induction rules with
    | nil => simp [applyRules]
    | cons r rules ih =>
      obtain ⟨p, t⟩ := r
      by_cases hap : Applies m env p use
      · rw [(applyRules_applies hap).1]
        exact ⟨fun h => absurd h (applyRules_applies (rules := rules) hap).2, fun h => absurd hap (h (p, t) (by simp))⟩
      · rw [applyRules_skip hap, ih]
        simp [hap]

/-- C31: a rule `((_ . p) p)` that the definition accepts rebuilds every form that it matches, up to the literals of
`p`, for which it puts identifiers with the same meaning; without literals the form is rebuilt exactly.  (`idn` is the
first unused number for renamed identifiers.) -/
theorem c31_round_trip (m : Macro) (env : List (Key × Key)) (idn : Nat) (p s : Sx)
    (hc : checkRule m p p = true) (hm : matches_ m env p s = true) (hf : ∀ k, idn ≤ k → assv (.num k) env = none) :
    ∃ s' n, expandTemplate m idn p p (bindings m p s []) = .ok (s', n) ∧ Rebuilt env s s' ∧ (m.literals = [] → s' = s) := by
  unfold checkRule at hc
  simp only [Bool.and_eq_true] at hc
  obtain ⟨⟨hp, _⟩, hd⟩ := hc
  simp only [checkPattern, Bool.and_eq_true] at hp
  split at hd
  · cases hd
  · rename_i penv hpe
    obtain ⟨hk, hn⟩ := patEnv_keys m p 0 [] penv hpe
    simp only [List.map_nil, List.append_nil, List.nodup_nil, true_implies] at hk hn
    rw [hk] at hn
    have hbk := bindings_keys m env p s hp.2 hm
    obtain ⟨s', h1, h2, h3⟩ := rebuild (mkCtx m idn p p (bindings m p s [])) env penv
      (by rw [hk]; exact fun k hk => vars_notLit hk) hf
      (by simp only [mkCtx]; rw [hbk]; exact fun k hk => vars_notLit hk)
      (fun k hk => vars_notLit (listIds_inc _ _ _ k hk)) p s 0 (bindings m p s []) hp.2 hd hm hn
      (by rw [hbk]; exact fun k hk => vars_notLit hk) (fun _ _ => rfl) (fun _ h => h)
    exact ⟨s', _, by simp only [expandTemplate, h1]; rfl, h2, h3⟩

/-- C31: the expansion of an accepted rule never crashes: it gives a form or reports that sequences iterated together
have unequal lengths. -/
theorem c31_depth (m : Macro) (env : List (Key × Key)) (idn : Nat) (p t s : Sx)
    (hc : checkRule m p t = true) (hm : matches_ m env p s = true) :
    (∃ r, expandTemplate m idn p t (bindings m p s []) = .ok r) ∨
    expandTemplate m idn p t (bindings m p s []) = .error .lengths := by
  unfold checkRule at hc
  simp only [Bool.and_eq_true] at hc
  obtain ⟨⟨hp, _⟩, hd⟩ := hc
  simp only [checkPattern, Bool.and_eq_true] at hp
  split at hd
  · cases hd
  · rename_i penv hpe
    obtain ⟨hk, hn⟩ := patEnv_keys m p 0 [] penv hpe
    simp only [List.map_nil, List.append_nil, List.nodup_nil, true_implies] at hk hn
    have hdep := patEnv_depth m p 0 [] penv hpe hn
    have hmem : ∀ id d, assv id penv = some d → id ∈ vars m p := by
      intro id d h
      by_cases h' : id ∈ penv.map Prod.fst
      · rw [hk] at h'; exact h'
      · rw [assv_none h'] at h; cases h
    have := expand_no_crash (mkCtx m idn p t (bindings m p s [])) penv (by
        intro id
        constructor
        · intro h
          obtain ⟨d, h1, _, h3⟩ := hdep id (listIds_inc _ _ _ id h)
          exact ⟨d, h3.mpr h, h1⟩
        · rintro ⟨d, h0, hd'⟩
          obtain ⟨d', h1, _, h3⟩ := hdep id (hmem id d hd')
          rw [hd'] at h1
          cases h1
          exact h3.mp h0)
      t 0 (bindings m p s []) hd (by
        intro id _ d h0 hd'
        exact bindings_depth m env p s 0 [] penv hpe hn hp.2 hm id (hmem id d hd') d hd')
    simp only [expandTemplate]
    rcases h : expand (mkCtx m idn p t (bindings m p s [])) t (bindings m p s []) with e | x
    · cases e with
      | lengths => exact Or.inr rfl
      | crash => exact absurd h this
    · exact Or.inl ⟨_, rfl⟩

/-- `id` occurs in a pattern or template under `n` ellipses. -/
inductive OccursAt (m : Macro) (id : Key) : Nat → Sx → Prop where
  | here (x : String) (loc : Key) : OccursAt m id 0 (.sid x id loc)
  | vec {n : Nat} {x : Sx} (h : OccursAt m id n x) : OccursAt m id n (.vec x)
  | ell {n : Nat} {a e r : Sx} (he : m.ell e = true) (h : OccursAt m id n a) : OccursAt m id (n + 1) (.pair a (.pair e r))
  | tail {n : Nat} {a e r : Sx} (he : m.ell e = true) (h : OccursAt m id n r) : OccursAt m id n (.pair a (.pair e r))
  | car {n : Nat} {a d : Sx} (he : m.ellPair d = false) (h : OccursAt m id n a) : OccursAt m id n (.pair a d)
  | cdr {n : Nat} {a d : Sx} (he : m.ellPair d = false) (h : OccursAt m id n d) : OccursAt m id n (.pair a d)

theorem patEnv_at {m : Macro} {id : Key} (hid : id ∉ m.literals) : ∀ (p : Sx) (n : Nat) (l l1 : List (Key × Nat)), patEnv m p n l = some l1 →
    (∀ q ∈ l, q ∈ l1) ∧ ∀ k, OccursAt m id k p → (id, n + k) ∈ l1
  | .nil, n, l, l1, h => by simp only [patEnv, Option.some.injEq] at h; subst h; exact ⟨fun _ h => h, fun k hk => by cases hk⟩
  | .atom _, n, l, l1, h => by simp only [patEnv, Option.some.injEq] at h; subst h; exact ⟨fun _ h => h, fun k hk => by cases hk⟩
  | .sid _ id' _, n, l, l1, h => by
    simp only [patEnv] at h
    split at h
    · simp only [Option.some.injEq] at h; subst h
      rename_i hl
      exact ⟨fun _ h => h, fun k hk => by cases hk; exact absurd hl hid⟩
    · split at h
      · cases h
      · simp only [Option.some.injEq] at h; subst h
        exact ⟨fun _ h => List.mem_cons_of_mem _ h, fun k hk => by cases hk; exact List.mem_cons_self⟩
  | .vec x, n, l, l1, h => by
    simp only [patEnv] at h
    have := patEnv_at hid x n l l1 h
    exact ⟨this.1, fun k hk => by cases hk with | vec hk => exact this.2 k hk⟩
  | .pair a d, n, l, l1, h => by
    rcases pairCase m d with ⟨e, r, rfl, he⟩ | he
    · rw [patEnv_ell he] at h
      rcases h1 : patEnv m r n l with _ | l2
      · simp [h1] at h
      · rw [h1, Option.bind_some] at h
        have i1 := patEnv_at hid r n l l2 h1
        have i2 := patEnv_at hid a (n + 1) l2 l1 h
        refine ⟨fun q hq => i2.1 q (i1.1 q hq), fun k hk => ?_⟩
        cases hk with
        | ell _ hk => have := i2.2 _ hk; rwa [Nat.add_right_comm, Nat.add_assoc] at this
        | tail _ hk => exact i2.1 _ (i1.2 _ hk)
        | car he' => simp only [Macro.ellPair] at he'; rw [he] at he'; cases he'
        | cdr he' => simp only [Macro.ellPair] at he'; rw [he] at he'; cases he'
    · rw [patEnv_pair he] at h
      rcases h1 : patEnv m d n l with _ | l2
      · simp [h1] at h
      · rw [h1, Option.bind_some] at h
        have i1 := patEnv_at hid d n l l2 h1
        have i2 := patEnv_at hid a n l2 l1 h
        refine ⟨fun q hq => i2.1 q (i1.1 q hq), fun k hk => ?_⟩
        cases hk with
        | ell he' => simp only [Macro.ellPair] at he; rw [he] at he'; cases he'
        | tail he' => simp only [Macro.ellPair] at he; rw [he] at he'; cases he'
        | car _ hk => exact i2.2 _ hk
        | cdr _ hk => exact i2.1 _ (i1.2 _ hk)

theorem checkDepths_at {m : Macro} {id : Key} {env : List (Key × Nat)} {d : Nat} (hd : assv id env = some d) (h0 : 0 < d) :
    ∀ (t : Sx) (n k : Nat), (checkDepths m env t n).isSome = true → OccursAt m id k t → n + k = d
  | .nil, _, _, _, hk => by cases hk
  | .atom _, _, _, _, hk => by cases hk
  | .sid _ _ _, n, k, h, hk => by
    cases hk
    simp only [checkDepths, hd] at h
    split at h
    · simp at h
    · omega
  | .vec x, n, k, h, hk => by
    cases hk with
    | vec hk => exact checkDepths_at hd h0 x n k (by simpa [checkDepths] using h) hk
  | .pair a r, n, k, h, hk => by
    rcases pairCase m r with ⟨e, r, rfl, he⟩ | he
    · rw [checkDepths_ell he] at h
      rcases h1 : checkDepths m env a (n + 1) with _ | ca
      · simp [h1] at h
      rcases h2 : checkDepths m env r n with _ | cr
      · simp [h1, h2] at h
      cases hk with
      | ell _ hk => have := checkDepths_at hd h0 a (n + 1) _ (by simp [h1]) hk; omega
      | tail _ hk => exact checkDepths_at hd h0 r n k (by simp [h2]) hk
      | car he' => simp only [Macro.ellPair] at he'; rw [he] at he'; cases he'
      | cdr he' => simp only [Macro.ellPair] at he'; rw [he] at he'; cases he'
    · rw [checkDepths_pair he] at h
      rcases h1 : checkDepths m env a n with _ | ca
      · simp [h1] at h
      rcases h2 : checkDepths m env r n with _ | cr
      · simp [h1, h2] at h
      cases hk with
      | ell he' => simp only [Macro.ellPair] at he; rw [he] at he'; cases he'
      | tail he' => simp only [Macro.ellPair] at he; rw [he] at he'; cases he'
      | car _ hk => exact checkDepths_at hd h0 a n k (by simp [h1]) hk
      | cdr _ hk => exact checkDepths_at hd h0 r n k (by simp [h2]) hk

theorem assv_mem {id : Key} {d : Nat} : ∀ {l : List (Key × Nat)}, (l.map Prod.fst).Nodup → (id, d) ∈ l → assv id l = some d
  | (k, v) :: l, hn, hm => by
    rw [List.map_cons, List.nodup_cons] at hn
    rcases List.mem_cons.mp hm with e | hm
    · simp only [Prod.mk.injEq] at e; obtain ⟨rfl, rfl⟩ := e; simp [assv]
    · have : id ≠ k := fun e => hn.1 (List.mem_map.mpr ⟨_, hm, e⟩)
      simp only [assv]
      rw [if_neg (by first | exact this | exact fun e => this e.symm)]
      exact assv_mem hn.2 hm

/-- C31: in an accepted rule a variable of the pattern that is under ellipses occurs in the template only under the same
number of ellipses. -/
theorem c31_same_depth (m : Macro) (p t : Sx) (hc : checkRule m p t = true) (id : Key) (hid : id ∉ m.literals) (d n : Nat) (h0 : 0 < d)
    (hp : OccursAt m id d p) (ht : OccursAt m id n t) : n = d := by
  unfold checkRule at hc
  simp only [Bool.and_eq_true] at hc
  obtain ⟨⟨_, _⟩, hd⟩ := hc
  split at hd
  · cases hd
  · rename_i penv hpe
    obtain ⟨_, hn⟩ := patEnv_keys m p 0 [] penv hpe
    simp only [List.map_nil, List.nodup_nil, true_implies] at hn
    have h1 := (patEnv_at hid p 0 [] penv hpe).2 d hp
    rw [Nat.zero_add] at h1
    have := checkDepths_at (assv_mem hn h1) h0 t 0 n hd ht
    omega

/-- the identifiers of a template. -/
inductive Occurs (id : Key) : Sx → Prop where
  | here (n : String) (loc : Key) : Occurs id (.sid n id loc)
  | vec {x : Sx} (h : Occurs id x) : Occurs id (.vec x)
  | car {a d : Sx} (h : Occurs id a) : Occurs id (.pair a d)
  | cdr {a d : Sx} (h : Occurs id d) : Occurs id (.pair a d)

/-- A template with its identifiers renamed: same names, new ids, the locations that they have where the macro is
defined. -/
def rename (m : Macro) (ρ : Key → Nat) : Sx → Sx
  | .sid n id loc => .sid n (.num (ρ id)) (lookupSid id loc m.env)
  | .vec x => .vec (rename m ρ x)
  | .pair a d => .pair (rename m ρ a) (rename m ρ d)
  | x => x

theorem removeDups_loop (l : List Key) : ∀ res, res.Nodup → (removeDups.loop l res).Nodup ∧
    ∀ x, x ∈ removeDups.loop l res ↔ x ∈ l ∨ x ∈ res := by
  induction l with
  | nil => intro res h; exact ⟨h, by simp [removeDups.loop]⟩
  | cons y l ih =>
    intro res h
    simp only [removeDups.loop]
    split
    · rename_i hy
      obtain ⟨h1, h2⟩ := ih res h
      refine ⟨h1, fun x => ?_⟩
      rw [h2]
      simp only [List.mem_cons]
      constructor
      · rintro (h | h) <;> simp [h]
      · rintro ((rfl | h) | h)
        · exact Or.inr hy
        · exact Or.inl h
        · exact Or.inr h
    · rename_i hy
      obtain ⟨h1, h2⟩ := ih (y :: res) (List.nodup_cons.mpr ⟨hy, h⟩)
      refine ⟨h1, fun x => ?_⟩
      rw [h2]
      simp only [List.mem_cons]
      constructor
      · rintro (h | h | h) <;> simp [h]
      · rintro ((h | h) | h) <;> simp [h]

theorem memv_length {id : Key} : ∀ {l : List Key}, id ∈ l → 0 < (memv id l).length ∧ (memv id l).length ≤ l.length
  | x :: l, h => by
    simp only [memv]
    split
    · simp
    · rename_i hx
      have := memv_length (l := l) (by simpa [hx] using h)
      simp only [List.length_cons]; omega

theorem memv_inj {id id' : Key} : ∀ {l : List Key}, l.Nodup → id ∈ l → id' ∈ l →
    (memv id l).length = (memv id' l).length → id = id'
  | x :: l, hn, h, h', he => by
    obtain ⟨_, hn'⟩ := List.nodup_cons.mp hn
    simp only [memv] at he
    split at he
    · rename_i hx
      split at he
      · rename_i hx'; rw [hx, hx']
      · rename_i hx'
        have := memv_length (l := l) (by simpa [hx'] using h')
        simp only [List.length_cons] at he; omega
    · rename_i hx
      split at he
      · have := memv_length (l := l) (by simpa [hx] using h)
        simp only [List.length_cons] at he; omega
      · rename_i hx'
        exact memv_inj hn' (by simpa [hx] using h) (by simpa [hx'] using h') he

theorem occurs_of_listIds (m : Macro) (pred : Key → Bool) {id : Key} : ∀ (t : Sx) (inc : Bool), id ∈ listIds m pred t inc [] →
    Occurs id t ∧ pred id = true
  | .nil, _ => by simp [listIds]
  | .atom _, _ => by simp [listIds]
  | .sid n i l, inc => by
    intro h
    simp only [listIds] at h
    split at h
    · rename_i hp
      have : id = i := by simpa using h
      subst this
      simp only [Bool.and_eq_true] at hp
      exact ⟨.here n l, hp.2⟩
    · simp at h
  | .vec x, inc => by
    intro h
    have := occurs_of_listIds m pred x inc (by simpa [listIds] using h)
    exact ⟨.vec this.1, this.2⟩
  | .pair a d, inc => by
    intro h
    rcases pairCase m d with ⟨e, r, rfl, he⟩ | he
    · rw [listIds_ell he, listIds_acc] at h
      rcases List.mem_append.mp h with h | h
      · have := occurs_of_listIds m pred a true h; exact ⟨.car this.1, this.2⟩
      · have := occurs_of_listIds m pred r inc h; exact ⟨.cdr (.cdr this.1), this.2⟩
    · rw [listIds_pair he, listIds_acc] at h
      rcases List.mem_append.mp h with h | h
      · have := occurs_of_listIds m pred a inc h; exact ⟨.car this.1, this.2⟩
      · have := occurs_of_listIds m pred d inc h; exact ⟨.cdr this.1, this.2⟩

/-- expansion of a template without variables. -/
theorem expand_copy (c : Ctx) (penv : List (Key × Nat)) (b : List (Key × Sx)) : ∀ (t : Sx) (n : Nat),
    (checkDepths c.m penv t n).isSome = true → (∀ id, Occurs id t → assv id penv = none ∧ assv id b = none ∧ assv id c.top = none) →
    expand c t b = .ok (rename c.m (fun id => c.idn + ((memv id c.lits).length - 1)) t) ∧
    ∀ id, Occurs id t → id ∈ listIds c.m (fun _ => true) t true []
  | .nil, _, _, _ => ⟨rfl, fun _ h => by cases h⟩
  | .atom _, _, _, _ => ⟨rfl, fun _ h => by cases h⟩
  | .sid name id loc, n, _, h => by
    have := h id (.here _ _)
    exact ⟨by simp [expand, this.2.1, this.2.2, rename], fun k hk => by cases hk; simp [listIds]⟩
  | .vec x, n, hd, h => by
    have := expand_copy c penv b x n (by simpa [checkDepths] using hd) (fun id hi => h id (.vec hi))
    exact ⟨by simp [expand, this.1, rename], fun k hk => by cases hk with | vec hk => simpa [listIds] using this.2 k hk⟩
  | .pair a d, n, hd, h => by
    rcases pairCase c.m d with ⟨e, r, rfl, he⟩ | he
    · exfalso
      rw [checkDepths_ell he] at hd
      rcases h1 : checkDepths c.m penv a (n + 1) with _ | ca
      · simp [h1] at hd
      rcases h2 : checkDepths c.m penv r n with _ | cr
      · simp [h1, h2] at hd
      cases ca with
      | false => simp [h1, h2] at hd
      | true =>
        obtain ⟨id, hid, d, _, hd'⟩ := checkDepths_true c.m penv a (n + 1) h1
        have := (h id (.car (occurs_of_listIds _ _ _ _ hid).1)).1
        rw [hd'] at this; cases this
    · rw [checkDepths_pair he] at hd
      rcases h1 : checkDepths c.m penv a n with _ | ca
      · simp [h1] at hd
      rcases h2 : checkDepths c.m penv d n with _ | cr
      · simp [h1, h2] at hd
      have i1 := expand_copy c penv b a n (by simp [h1]) (fun id hi => h id (.car hi))
      have i2 := expand_copy c penv b d n (by simp [h2]) (fun id hi => h id (.cdr hi))
      refine ⟨by rw [expand_pair he rfl, i1.1, i2.1]; rfl, fun k hk => ?_⟩
      rw [listIds_pair he, listIds_acc]
      cases hk with
      | car hk => exact List.mem_append_left _ (i1.2 k hk)
      | cdr hk => exact List.mem_append_right _ (i2.2 k hk)

/-- C31: a template without pattern variables is copied, with its identifiers renamed: equal ids get equal new ids,
different ids get different new ids, the new ids are unused ones, and each new identifier means what the old one means
where the macro is defined. -/
theorem c31_copy (m : Macro) (env : List (Key × Key)) (idn : Nat) (p t s : Sx)
    (hc : checkRule m p t = true) (hm : matches_ m env p s = true)
    (hv : ∀ id, Occurs id t → id ∉ (bindings m p s []).map Prod.fst) :
    ∃ (ρ : Key → Nat) (n : Nat), expandTemplate m idn p t (bindings m p s []) = .ok (rename m ρ t, n) ∧
      (∀ id, Occurs id t → idn ≤ ρ id ∧ ρ id < n) ∧
      (∀ id id', Occurs id t → Occurs id' t → ρ id = ρ id' → id = id') := by
  unfold checkRule at hc
  simp only [Bool.and_eq_true] at hc
  obtain ⟨⟨hp, _⟩, hd⟩ := hc
  simp only [checkPattern, Bool.and_eq_true] at hp
  split at hd
  · cases hd
  · rename_i penv hpe
    obtain ⟨hk, hn⟩ := patEnv_keys m p 0 [] penv hpe
    simp only [List.map_nil, List.append_nil, List.nodup_nil, true_implies] at hk hn
    have hbk := bindings_keys m env p s hp.2 hm
    have hnone : ∀ id, Occurs id t → assv id (bindings m p s []) = none := fun id hi => assv_none (hv id hi)
    obtain ⟨h1, h2⟩ := expand_copy (mkCtx m idn p t (bindings m p s [])) penv (bindings m p s []) t 0 hd (fun id hi =>
      ⟨assv_none (by rw [hk, ← hbk]; exact hv id hi), hnone id hi, hnone id hi⟩)
    have hl : ∀ id, Occurs id t → id ∈ (mkCtx m idn p t (bindings m p s [])).lits := by
      intro id hi
      simp only [mkCtx, removeDups]
      rw [(removeDups_loop _ [] List.nodup_nil).2]
      refine Or.inl ?_
      rw [listIds_filter]
      exact List.mem_filter.mpr ⟨h2 id hi, by simp [hnone id hi]⟩
    have hnd : (mkCtx m idn p t (bindings m p s [])).lits.Nodup := (removeDups_loop _ [] List.nodup_nil).1
    refine ⟨_, _, by simp only [expandTemplate, h1]; rfl, fun id hi => ?_, fun id id' hi hi' he => ?_⟩
    · have := memv_length (hl id hi)
      refine ⟨Nat.le_add_right _ _, ?_⟩
      show idn + _ < idn + _
      omega
    · have j1 := memv_length (hl id hi)
      have j2 := memv_length (hl id' hi')
      refine memv_inj hnd (hl id hi) (hl id' hi') ?_
      have : idn + ((memv id (mkCtx m idn p t (bindings m p s [])).lits).length - 1) =
        idn + ((memv id' (mkCtx m idn p t (bindings m p s [])).lits).length - 1) := he
      omega

/-- C31: what an ellipsis in a template does: the subtemplate is instantiated once for each element of the sequences
of its variables, all of the same length, in order; the rest follows. -/
theorem c31_ellipsis (c : Ctx) (a e r : Sx) (b : List (Key × Sx)) (y : Sx) (he : c.m.ell e = true)
    (h : expand c (.pair a (.pair e r)) b = .ok y) :
    ∃ xs z, y = listS xs z ∧ expand c r b = .ok z ∧
      (∀ v ∈ listIds c.m (fun id => decide (id ∈ c.ellVars)) a true [],
        ∃ l, assv v b = some l ∧ isList l = true ∧ (items l).length = xs.length) ∧
      ∀ (i : Nat) x, xs[i]? = some x → ∃ b', expand c a b' = .ok x ∧
        ∀ v ∈ listIds c.m (fun id => decide (id ∈ c.ellVars)) a true [], ∀ l, assv v b = some l → assv v b' = (items l)[i]? := by
  rw [expand] at h
  simp only [he, if_true] at h
  generalize listIds c.m (fun id => decide (id ∈ c.ellVars)) a true [] = vs at h ⊢
  have hvl : ∀ (vs : List Key) ls, valLists b vs = .ok ls →
      All2 (fun v l => ∃ x, assv v b = some x ∧ isList x = true ∧ items x = l) vs ls := by
    intro vs
    induction vs with
    | nil => intro ls h; simp only [valLists, Except.ok.injEq] at h; subst h; exact .nil
    | cons v vs ih =>
      intro ls h
      simp only [valLists] at h
      split at h
      · cases h
      · rename_i x hx
        split at h
        · rename_i hxl
          split at h
          · cases h
          · rename_i l hl
            simp only [Except.ok.injEq] at h
            subst h
            exact .cons ⟨x, hx, hxl, rfl⟩ (ih _ hl)
        · cases h
  split at h
  · cases h
  · cases h
  · rename_i l ls hls
    have hall := hvl vs _ hls
    split at h
    · rename_i hlen
      split at h
      · cases h
      · rename_i xs hxs
        split at h
        · cases h
        · rename_i z hz
          simp only [Except.ok.injEq] at h
          have hlen' : ∀ q ∈ l :: ls, q.length = l.length := by
            intro q hq
            rcases List.mem_cons.mp hq with rfl | hq
            · rfl
            · rw [List.all_eq_true] at hlen
              simpa using hlen q hq
          -- rows of the table
          have hrows : ∀ (l : List Sx) (ls : List (List Sx)), (∀ q ∈ l :: ls, q.length = l.length) →
              (applyMapList l ls).length = l.length ∧
              ∀ (i : Nat) row, (applyMapList l ls)[i]? = some row → All2 (fun (q : List Sx) x => q[i]? = some x) (l :: ls) row := by
            intro l
            induction l with
            | nil => intro ls _; exact ⟨rfl, fun i row h => by simp [applyMapList] at h⟩
            | cons x l ih =>
              intro ls hq
              have hne : ls.any List.isEmpty = false := any_isEmpty_false (k := l.length) (fun q h => by
                have := hq q (by simp [h]); simpa using this)
              have htl : ∀ q ∈ l :: ls.map List.tail, q.length = l.length := by
                intro q h
                rcases List.mem_cons.mp h with rfl | h
                · rfl
                · exact tails_length (k := l.length) (fun q h => by have := hq q (by simp [h]); simpa using this) q h
              obtain ⟨i1, i2⟩ := ih _ htl
              simp only [applyMapList, hne, Bool.false_eq_true, if_false]
              refine ⟨by simp [i1], fun i row h => ?_⟩
              cases i with
              | zero =>
                simp only [List.getElem?_cons_zero, Option.some.injEq] at h
                subst h
                refine .cons rfl ?_
                clear i1 i2 htl ih
                induction ls with
                | nil => exact .nil
                | cons q ls ihq =>
                  cases q with
                  | nil => simp at hne
                  | cons w q => exact .cons (by simp) (ihq (fun q' h => hq q' (by
                      rcases List.mem_cons.mp h with rfl | h
                      · simp
                      · simp [h])) (by simpa using hne))
              | succ i =>
                have h' : (applyMapList l (ls.map List.tail))[i]? = some row := by simpa using h
                have := i2 i row h'
                cases this with
                | cons h1 h2 =>
                  refine .cons (by simpa using h1) ?_
                  clear h1 hne htl i1 i2 ih hq h h'
                  rename_i row'
                  induction ls generalizing row' with
                  | nil => cases h2; exact .nil
                  | cons q ls ihq =>
                    cases h2 with
                    | cons h1 h2 =>
                      refine .cons ?_ (ihq h2)
                      cases q with
                      | nil => simp at h1
                      | cons w q => simpa using h1
          obtain ⟨r1, r2⟩ := hrows l ls hlen'
          -- results
          have hmap : ∀ (rows : List (List Sx)) xs, mapE (fun vals => expand c a (vs.zip vals)) rows = .ok xs →
              xs.length = rows.length ∧ ∀ (i : Nat) x, xs[i]? = some x → ∃ row, rows[i]? = some row ∧ expand c a (vs.zip row) = .ok x := by
            intro rows
            induction rows with
            | nil => intro xs h; simp only [mapE, Except.ok.injEq] at h; subst h; simp
            | cons row rows ih =>
              intro xs h
              simp only [mapE] at h
              split at h
              · cases h
              · rename_i y hy
                split at h
                · cases h
                · rename_i ys hys
                  simp only [Except.ok.injEq] at h
                  subst h
                  obtain ⟨i1, i2⟩ := ih ys hys
                  refine ⟨by simp [i1], fun i x h => ?_⟩
                  cases i with
                  | zero => simp only [List.getElem?_cons_zero, Option.some.injEq] at h; subst h; exact ⟨row, rfl, hy⟩
                  | succ i => simpa using i2 i x (by simpa using h)
          obtain ⟨q1, q2⟩ := hmap _ _ hxs
          refine ⟨xs, z, h.symm, hz, ?_, ?_⟩
          · intro v hv
            have : ∀ {vs : List Key} {qs : List (List Sx)}, All2 (fun v l => ∃ x, assv v b = some x ∧ isList x = true ∧ items x = l) vs qs →
                v ∈ vs → ∃ q ∈ qs, ∃ x, assv v b = some x ∧ isList x = true ∧ items x = q := by
              intro vs qs hall
              induction hall with
              | nil => intro h; simp at h
              | cons h t ih =>
                intro hv
                rcases List.mem_cons.mp hv with rfl | hv
                · exact ⟨_, by simp, h⟩
                · obtain ⟨q, hq, hx⟩ := ih hv
                  exact ⟨q, by simp [hq], hx⟩
            obtain ⟨q, hq, x, i1, i2, i3⟩ := this hall hv
            exact ⟨x, i1, i2, by rw [i3, hlen' q hq, q1, r1]⟩
          · intro i x hx
            obtain ⟨row, i1, i2⟩ := q2 i x hx
            refine ⟨vs.zip row, i2, ?_⟩
            have hrow := r2 i row i1
            clear hls hlen hxs hz r1 r2 q1 q2 hlen' hrows hmap i1 i2 hx hvl
            intro v hv lv hlv
            generalize l :: ls = qs at hall hrow
            induction hall generalizing row with
            | nil => simp at hv
            | cons h t ih =>
              cases hrow with
              | cons h1 h2 =>
                rename_i v' q vs' qs' x' row'
                by_cases hk : v = v'
                · subst hk
                  obtain ⟨x'', j1, _, j3⟩ := h
                  rw [hlv] at j1
                  cases j1
                  simp only [List.zip_cons_cons, assv, if_true]
                  rw [j3]; exact h1.symm
                · simp only [List.zip_cons_cons, assv, if_neg hk]
                  exact ih _ (by simpa [hk] using hv) h2
    · cases h

/-! ### a concrete macro -/

/-- `(_ lit ((x y ...) ...) z)` with literal `lit`. -/
def samplePattern : Sx :=
  listS [.sym "lit", listS [listS [.sym "x", .sym "y", .sym "..."] .nil, .sym "..."] .nil, .sym "z"] .nil
/-- `(lit ((1 2 3) (4)) 5)`. -/
def sampleForm : Sx :=
  listS [.sym "lit", listS [listS [.atom 1, .atom 2, .atom 3] .nil, listS [.atom 4] .nil] .nil, .atom 5] .nil
/-- `(let ((x ...) . q) z (y ... ...))` is not accepted, this is: `(p (x ...) ((y ...) ...) z)`. -/
def sampleTemplate : Sx :=
  listS [.sym "p", listS [.sym "x", .sym "..."] .nil, listS [listS [.sym "y", .sym "..."] .nil, .sym "..."] .nil, .sym "z"] .nil
/-- the macro. -/
def sampleMacro : Macro := ⟨none, [.sym "lit"], [(.pair (.sym "_") samplePattern, samplePattern)], []⟩

/-- the hypotheses of the theorems above hold for it. -/
example : checkRule sampleMacro samplePattern samplePattern = true ∧ checkRule sampleMacro samplePattern sampleTemplate = true ∧
    matches_ sampleMacro [] samplePattern sampleForm = true ∧
    Applies sampleMacro [] (.pair (.sym "_") samplePattern) (.pair (.sym "k") sampleForm) := by
  refine ⟨by decide +kernel, by decide +kernel, by decide +kernel, Or.inl ⟨_, _, _, _, rfl, rfl, by decide +kernel⟩⟩

/-- `x` is under one ellipsis in the pattern and in the template. -/
example : (∃ d, OccursAt sampleMacro (.sym "x") (d + 1) samplePattern) ∧ OccursAt sampleMacro (.sym "x") 1 sampleTemplate := by
  constructor
  · exact ⟨0, .cdr rfl (.car rfl (.ell (by decide +kernel) (.car rfl (.here _ _))))⟩
  · exact .cdr rfl (.car rfl (.ell (by decide +kernel) (.here _ _)))

/-- the expansion with the other template. -/
example : (match expandTemplate sampleMacro 7 samplePattern sampleTemplate (bindings sampleMacro samplePattern sampleForm []) with
      | .ok r => some r | .error _ => none) =
    some (listS [.sid "p" (.num 7) (.sym "p"), listS [.atom 1, .atom 4] .nil, listS [listS [.atom 2, .atom 3] .nil, .nil] .nil, .atom 5] .nil, 8) := by
  decide +kernel

end Verif.Macros

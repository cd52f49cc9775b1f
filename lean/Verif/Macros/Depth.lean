import Verif.Macros.RoundTrip
/-
Ellipsis depths: an accepted rule never makes the expander crash.
-/
namespace Verif.Macros

/-- a value for a variable of depth `d`: lists nested `d` deep. -/
def HasDepth : Nat → Sx → Prop
  | 0, _ => True
  | d + 1, v => isList v = true ∧ ∀ x ∈ items v, HasDepth d x

theorem patEnv_suffix (m : Macro) : ∀ (p : Sx) (n : Nat) (l l' : List (Key × Nat)), patEnv m p n l = some l' →
    ∃ x, l' = x ++ l ∧ x.map Prod.fst = vars m p
  | .nil, _, l, l', h => by simp only [patEnv, Option.some.injEq] at h; subst h; exact ⟨[], by simp [vars, listIds]⟩
  | .atom _, _, l, l', h => by simp only [patEnv, Option.some.injEq] at h; subst h; exact ⟨[], by simp [vars, listIds]⟩
  | .sid _ id _, n, l, l', h => by
    simp only [patEnv] at h
    split at h
    · rename_i hl
      simp only [Option.some.injEq] at h; subst h
      exact ⟨[], by simp [vars, listIds, Macro.notLit, hl]⟩
    · rename_i hl
      split at h
      · cases h
      · simp only [Option.some.injEq] at h; subst h
        exact ⟨[(id, n)], by simp [vars, listIds, Macro.notLit, hl]⟩
  | .vec x, n, l, l', h => by
    simp only [patEnv] at h
    have := patEnv_suffix m x n l l' h
    simpa [vars, listIds] using this
  | .pair a d, n, l, l', h => by
    rcases pairCase m d with ⟨e, r, rfl, he⟩ | he
    · rw [patEnv_ell he] at h
      obtain ⟨l1, h1, h2⟩ := Option.bind_eq_some_iff.mp h
      obtain ⟨x1, rfl, i1⟩ := patEnv_suffix m r n l l1 h1
      obtain ⟨x2, rfl, i2⟩ := patEnv_suffix m a (n + 1) _ l' h2
      exact ⟨x2 ++ x1, by simp, by simp [i1, i2, vars_ell he]⟩
    · rw [patEnv_pair he] at h
      obtain ⟨l1, h1, h2⟩ := Option.bind_eq_some_iff.mp h
      obtain ⟨x1, rfl, i1⟩ := patEnv_suffix m d n l l1 h1
      obtain ⟨x2, rfl, i2⟩ := patEnv_suffix m a n _ l' h2
      exact ⟨x2 ++ x1, by simp, by simp [i1, i2, vars_pair he]⟩

/-- depths in the pattern environment, and the variables under ellipses. -/
theorem patEnv_depth (m : Macro) : ∀ (p : Sx) (n : Nat) (l l' : List (Key × Nat)), patEnv m p n l = some l' →
    (l'.map Prod.fst).Nodup → ∀ id ∈ vars m p, ∃ d, assv id l' = some d ∧ n ≤ d ∧ (n < d ↔ id ∈ listIds m m.notLit p false [])
  | .nil, _, l, l', h, _ => by simp [vars, listIds]
  | .atom _, _, l, l', h, _ => by simp [vars, listIds]
  | .sid _ id _, n, l, l', h, _ => by
    intro k hk
    simp only [patEnv] at h
    split at h
    · rename_i hl
      simp [vars, listIds, Macro.notLit, hl] at hk
    · rename_i hl
      simp only [vars, listIds, Macro.notLit, hl] at hk
      have hk : k = id := by simpa using hk
      subst hk
      split at h
      · cases h
      · simp only [Option.some.injEq] at h; subst h
        exact ⟨n, by simp [assv], Nat.le_refl _, by simp [listIds]⟩
  | .vec x, n, l, l', h, hn => by
    simp only [patEnv] at h
    have := patEnv_depth m x n l l' h hn
    simpa [vars, listIds] using this
  | .pair a d, n, l, l', h, hn => by
    intro k hk
    rcases pairCase m d with ⟨e, r, rfl, he⟩ | he
    · rw [patEnv_ell he] at h
      obtain ⟨l1, h1, h2⟩ := Option.bind_eq_some_iff.mp h
      obtain ⟨x2, rfl, i2⟩ := patEnv_suffix m a (n + 1) _ l' h2
      obtain ⟨x1, hx1, i1⟩ := patEnv_suffix m r n l l1 h1
      rw [vars_ell he] at hk
      rw [listIds_ell he, listIds_acc]
      have hn' := hn
      rw [List.map_append, i2, hx1, List.map_append, i1] at hn'
      have hdj := (List.nodup_append.mp hn').2.2
      rcases List.mem_append.mp hk with hk | hk
      · obtain ⟨d, j1, j2, j3⟩ := patEnv_depth m a (n + 1) _ _ h2 hn k hk
        exact ⟨d, j1, by omega, ⟨fun _ => List.mem_append_left _ hk, fun _ => by omega⟩⟩
      · rw [List.map_append] at hn
        obtain ⟨d, j1, j2, j3⟩ := patEnv_depth m r n l l1 h1 (List.nodup_append.mp hn).2.1 k hk
        have hka : k ∉ vars m a := fun hk' => hdj k hk' k (List.mem_append_left _ hk) rfl
        refine ⟨d, by rw [assv_append_right (by rw [i2]; exact hka)]; exact j1, j2, ?_⟩
        rw [j3, List.mem_append]
        exact ⟨Or.inr, fun h => h.elim (fun h => absurd h hka) id⟩
    · rw [patEnv_pair he] at h
      obtain ⟨l1, h1, h2⟩ := Option.bind_eq_some_iff.mp h
      obtain ⟨x2, rfl, i2⟩ := patEnv_suffix m a n _ l' h2
      obtain ⟨x1, hx1, i1⟩ := patEnv_suffix m d n l l1 h1
      rw [vars_pair he] at hk
      rw [listIds_pair he, listIds_acc]
      have hn' := hn
      rw [List.map_append, i2, hx1, List.map_append, i1] at hn'
      have hdj := (List.nodup_append.mp hn').2.2
      rcases List.mem_append.mp hk with hk | hk
      · obtain ⟨d', j1, j2, j3⟩ := patEnv_depth m a n _ _ h2 hn k hk
        have hkd : k ∉ vars m d := fun hk' => hdj k hk k (List.mem_append_left _ hk') rfl
        refine ⟨d', j1, j2, ?_⟩
        rw [j3, List.mem_append]
        exact ⟨Or.inl, fun h => h.elim id (fun h => absurd (listIds_inc _ _ _ _ h) hkd)⟩
      · rw [List.map_append] at hn
        obtain ⟨d', j1, j2, j3⟩ := patEnv_depth m d n l l1 h1 (List.nodup_append.mp hn).2.1 k hk
        have hka : k ∉ vars m a := fun hk' => hdj k hk' k (List.mem_append_left _ hk) rfl
        refine ⟨d', by rw [assv_append_right (by rw [i2]; exact hka)]; exact j1, j2, ?_⟩
        rw [j3, List.mem_append]
        exact ⟨Or.inr, fun h => h.elim (fun h => absurd (listIds_inc _ _ _ _ h) hka) id⟩

theorem assv_transBind {id : Key} : ∀ (vs : List Key) (rows : List (List Sx)), (∀ r ∈ rows, r.length = vs.length) →
    id ∈ vs → assv id (transBind vs rows) = some (listS (rows.map (fun r => (assv id (vs.zip r)).getD .nil)) .nil)
  | [], _, _, h => by simp at h
  | v :: vs, rows, h, hid => by
    have he := any_isEmpty_false (k := vs.length) (rows := rows) (by simpa using h)
    simp only [transBind, he, Bool.false_eq_true, if_false, assv]
    by_cases hk : id = v
    · subst hk
      rw [if_pos rfl]
      congr 2
      apply List.map_congr_left
      intro r hr
      have := h r hr
      cases r with
      | nil => simp at this
      | cons x r => simp [assv]
    · rw [if_neg hk]
      have hid' : id ∈ vs := by simpa [hk] using hid
      rw [assv_transBind vs _ (tails_length (by simpa using h)) hid', List.map_map]
      congr 2
      apply List.map_congr_left
      intro r hr
      have := h r hr
      cases r with
      | nil => simp at this
      | cons x r => simp [assv, hk]

/-- the values of variables have the depths of the variables. -/
theorem bindings_depth (m : Macro) (env : List (Key × Key)) : ∀ (p s : Sx) (n : Nat) (l l' : List (Key × Nat)),
    patEnv m p n l = some l' → (l'.map Prod.fst).Nodup → checkEll m false p = true → matches_ m env p s = true →
    ∀ id ∈ vars m p, ∀ d, assv id l' = some d → ∃ v, assv id (bindings m p s []) = some v ∧ HasDepth (d - n) v
  | .nil, _, _, _, _, _, _, _, _ => by simp [vars, listIds]
  | .atom _, _, _, _, _, _, _, _, _ => by simp [vars, listIds]
  | .sid _ id _, s, n, l, l', h, _, _, _ => by
    intro k hk d hd
    simp only [patEnv] at h
    split at h
    · rename_i hl
      simp [vars, listIds, Macro.notLit, hl] at hk
    · rename_i hl
      have hnl : m.notLit id = true := by simp [Macro.notLit, hl]
      simp only [vars, listIds, hnl] at hk
      have hk : k = id := by simpa using hk
      subst hk
      split at h
      · cases h
      · simp only [Option.some.injEq] at h; subst h
        simp only [assv, if_true, Option.some.injEq] at hd
        subst hd
        exact ⟨s, by simp [bindings, hnl, assv], by rw [Nat.sub_self]; trivial⟩
  | .vec x, s, n, l, l', h, hn, hc, hm => by
    simp only [checkEll, Bool.and_eq_true] at hc
    simp only [patEnv] at h
    cases s with
    | vec y =>
      have := bindings_depth m env x y n l l' h hn hc.2 (by simpa [matches_] using hm)
      simpa [vars, listIds, bindings] using this
    | _ => simp [matches_] at hm
  | .pair a d, s, n, l, l', h, hn, hc, hm => by
    intro k hk dk hdk
    rcases pairCase m d with ⟨e, r, rfl, he⟩ | he
    · obtain ⟨xs, t, rfl, m1, m2, m3, m4, m5⟩ := matches_ell_inv he hc hm
      obtain ⟨hca, hcr⟩ := checkEll_ell_inv he hc
      rw [patEnv_ell he] at h
      obtain ⟨l1, h1, h2⟩ := Option.bind_eq_some_iff.mp h
      obtain ⟨x2, rfl, i2⟩ := patEnv_suffix m a (n + 1) _ l' h2
      obtain ⟨x1, hx1, i1⟩ := patEnv_suffix m r n l l1 h1
      rw [vars_ell he] at hk
      have hn' := hn
      rw [List.map_append, i2, hx1, List.map_append, i1] at hn'
      have hdj := (List.nodup_append.mp hn').2.2
      have hkeys : ∀ x ∈ xs, (bindings m a x []).map Prod.fst = vars m a := fun x hx => bindings_keys m env a x hca (m1 x hx)
      have hrows : ∀ row ∈ xs.map (fun x => (bindings m a x []).map Prod.snd), row.length = (vars m a).length := by
        intro row hrow
        obtain ⟨x, hx, rfl⟩ := List.mem_map.mp hrow
        have h := congrArg List.length (hkeys x hx)
        simpa using h
      have hbind : bindings m (.pair a (.pair e r)) (listS xs t) [] =
          transBind (vars m a) (xs.map (fun x => (bindings m a x []).map Prod.snd)) ++ bindings m r t [] := by
        rw [bindings_ell he, m3, m4, m5]; rfl
      have htk := transBind_keys (vars m a) _ hrows
      rw [hbind]
      rcases List.mem_append.mp hk with hk | hk
      · rw [assv_append_left (by rw [htk]; exact hk), assv_transBind _ _ hrows hk]
        refine ⟨_, rfl, ?_⟩
        obtain ⟨d', j1, j2, _⟩ := patEnv_depth m a (n + 1) _ _ h2 hn k hk
        rw [hdk] at j1
        cases j1
        rw [show dk - n = (dk - (n + 1)) + 1 by omega]
        refine ⟨by rw [isList_listS]; rfl, ?_⟩
        rw [items_listS]
        simp only [items, List.append_nil, List.map_map, List.mem_map, Function.comp_apply]
        rintro v ⟨x, hx, rfl⟩
        obtain ⟨v, hv, hv'⟩ := bindings_depth m env a x (n + 1) _ _ h2 hn hca (m1 x hx) k hk dk hdk
        have hz : (vars m a).zip ((bindings m a x []).map Prod.snd) = bindings m a x [] := by
          rw [← hkeys x hx]; exact zip_fst_snd _
        rw [hz, hv]
        exact hv'
      · have hka : k ∉ vars m a := fun hk' => hdj k hk' k (List.mem_append_left _ hk) rfl
        rw [assv_append_right (by rw [htk]; exact hka)]
        rw [assv_append_right (by rw [i2]; exact hka)] at hdk
        rw [List.map_append] at hn
        exact bindings_depth m env r t n l l1 h1 (List.nodup_append.mp hn).2.1 hcr m2 k hk dk hdk
    · obtain ⟨x, y, rfl, m1, m2⟩ := (matches_pair he env s).mp hm
      obtain ⟨hca, hcd⟩ := checkEll_pair_inv he hc
      rw [patEnv_pair he] at h
      obtain ⟨l1, h1, h2⟩ := Option.bind_eq_some_iff.mp h
      obtain ⟨x2, rfl, i2⟩ := patEnv_suffix m a n _ l' h2
      obtain ⟨x1, hx1, i1⟩ := patEnv_suffix m d n l l1 h1
      rw [vars_pair he] at hk
      have hn' := hn
      rw [List.map_append, i2, hx1, List.map_append, i1] at hn'
      have hdj := (List.nodup_append.mp hn').2.2
      have hka := bindings_keys m env a x hca m1
      rw [bindings_pair he, bindings_acc]
      rcases List.mem_append.mp hk with hk | hk
      · rw [assv_append_left (by rw [hka]; exact hk)]
        exact bindings_depth m env a x n _ _ h2 hn hca m1 k hk dk hdk
      · have hk' : k ∉ vars m a := fun hk' => hdj k hk' k (List.mem_append_left _ hk) rfl
        rw [assv_append_right (by rw [hka]; exact hk')]
        rw [assv_append_right (by rw [i2]; exact hk')] at hdk
        rw [List.map_append] at hn
        exact bindings_depth m env d y n l l1 h1 (List.nodup_append.mp hn).2.1 hcd m2 k hk dk hdk

theorem checkDepths_le (m : Macro) (env : List (Key × Nat)) : ∀ (t : Sx) (n : Nat), (checkDepths m env t n).isSome = true →
    ∀ id ∈ listIds m (fun _ => true) t true [], ∀ d, assv id env = some d → 0 < d → n ≤ d
  | .nil, _, _ => by simp [listIds]
  | .atom _, _, _ => by simp [listIds]
  | .sid _ id _, n, h => by
    intro k hk d hd h0
    have hk : k = id := by simpa [listIds] using hk
    subst hk
    simp only [checkDepths, hd] at h
    split at h
    · simp at h
    · omega
  | .vec x, n, h => by
    simp only [checkDepths] at h
    simpa [listIds] using checkDepths_le m env x n h
  | .pair a d, n, h => by
    intro k hk dk hdk h0
    rcases pairCase m d with ⟨e, r, rfl, he⟩ | he
    · rw [checkDepths_ell he] at h
      rw [listIds_ell he, listIds_acc] at hk
      rcases h1 : checkDepths m env a (n + 1) with _ | ca
      · simp [h1] at h
      rcases h2 : checkDepths m env r n with _ | cr
      · simp [h1, h2] at h
      rcases List.mem_append.mp hk with hk | hk
      · have := checkDepths_le m env a (n + 1) (by simp [h1]) k hk dk hdk h0; omega
      · exact checkDepths_le m env r n (by simp [h2]) k hk dk hdk h0
    · rw [checkDepths_pair he] at h
      rw [listIds_pair he, listIds_acc] at hk
      rcases h1 : checkDepths m env a n with _ | ca
      · simp [h1] at h
      rcases h2 : checkDepths m env d n with _ | cr
      · simp [h1, h2] at h
      rcases List.mem_append.mp hk with hk | hk
      · exact checkDepths_le m env a n (by simp [h1]) k hk dk hdk h0
      · exact checkDepths_le m env d n (by simp [h2]) k hk dk hdk h0

theorem valLists_ok {b : List (Key × Sx)} : ∀ (vs : List Key), (∀ v ∈ vs, ∃ x, assv v b = some x ∧ isList x = true) →
    ∃ ls, valLists b vs = .ok ls ∧ All2 (fun v l => ∃ x, assv v b = some x ∧ items x = l) vs ls
  | [], _ => ⟨[], rfl, .nil⟩
  | v :: vs, h => by
    obtain ⟨x, h1, h2⟩ := h v (by simp)
    obtain ⟨ls, h3, h4⟩ := valLists_ok vs (fun v hv => h v (by simp [hv]))
    exact ⟨items x :: ls, by simp [valLists, h1, h2, h3], .cons ⟨x, h1, rfl⟩ h4⟩

theorem heads_mem : ∀ (ls : List (List Sx)), ls.any List.isEmpty = false →
    All2 (fun (l : List Sx) x => x ∈ l) ls (ls.map (fun r => r.headD .nil))
  | [], _ => .nil
  | l :: ls, h => by
    cases l with
    | nil => simp at h
    | cons x l => exact .cons (by simp) (heads_mem ls (by simpa using h))

theorem All2.map_tail : {ls : List (List Sx)} → {row : List Sx} → All2 (fun (l : List Sx) x => x ∈ l) (ls.map List.tail) row →
    All2 (fun (l : List Sx) x => x ∈ l) ls row
  | [], _, h => by cases h; exact .nil
  | l :: ls, _, h => by
    cases h with
    | cons h t => exact .cons (List.mem_of_mem_tail h) (All2.map_tail t)

theorem applyMapList_mem : ∀ (l : List Sx) (ls : List (List Sx)), ∀ row ∈ applyMapList l ls,
    All2 (fun (l : List Sx) x => x ∈ l) (l :: ls) row
  | [], _, row, h => by simp [applyMapList] at h
  | x :: l, ls, row, h => by
    simp only [applyMapList] at h
    split at h
    · simp at h
    · rename_i he
      rcases List.mem_cons.mp h with rfl | h
      · exact .cons (by simp) (heads_mem ls (Bool.eq_false_iff.mpr he))
      · have := applyMapList_mem l _ row h
        cases this with
        | cons h1 h2 => exact .cons (by simp [h1]) h2.map_tail

theorem assv_zip {P : Key → List Sx → Prop} {id : Key} : {vs : List Key} → {ls : List (List Sx)} → {row : List Sx} →
    All2 P vs ls → All2 (fun (l : List Sx) x => x ∈ l) ls row → id ∈ vs →
    ∃ v l, assv id (vs.zip row) = some v ∧ v ∈ l ∧ P id l
  | [], _, _, _, _, h => by simp at h
  | v :: vs, _, _, .cons (y := l) h1 h2, .cons (y := x) h3 h4, h => by
    by_cases hk : id = v
    · subst hk
      exact ⟨x, l, by simp [assv], h3, h1⟩
    · obtain ⟨v', l', i1, i2, i3⟩ := assv_zip h2 h4 (by simpa [hk] using h : id ∈ vs)
      exact ⟨v', l', by simpa [assv, hk] using i1, i2, i3⟩

theorem mapE_crash {α : Type} {f : α → Except Err Sx} : ∀ (l : List α), (∀ x ∈ l, f x ≠ .error .crash) → mapE f l ≠ .error .crash
  | [], _ => by simp [mapE]
  | x :: l, h => by
    have h1 := h x (by simp)
    have h2 := mapE_crash l (fun x hx => h x (by simp [hx]))
    simp only [mapE]
    split
    · rename_i e he; rw [he] at h1; simpa using h1
    · split
      · rename_i e he; rw [he] at h2; exact h2
      · simp

/-- an accepted template does not crash with bindings of the right depths. -/
theorem expand_no_crash (c : Ctx) (penv : List (Key × Nat))
    (hev : ∀ id, id ∈ c.ellVars ↔ ∃ d, 0 < d ∧ assv id penv = some d) :
    ∀ (t : Sx) (n : Nat) (b : List (Key × Sx)), (checkDepths c.m penv t n).isSome = true →
      (∀ id ∈ listIds c.m (fun _ => true) t true [], ∀ d, 0 < d → assv id penv = some d →
        ∃ v, assv id b = some v ∧ HasDepth (d - n) v) → expand c t b ≠ .error .crash
  | .nil, _, _, _, _ => by simp [expand]
  | .atom _, _, _, _, _ => by simp [expand]
  | .sid _ _ _, _, _, _, _ => by
    simp only [expand]
    split
    · simp
    · split <;> simp
  | .vec x, n, b, h, hb => by
    have := expand_no_crash c penv hev x n b (by simpa [checkDepths] using h) (by simpa [listIds] using hb)
    simp only [expand]
    split
    · rename_i e he; rw [he] at this; exact this
    · simp
  | .pair a d, n, b, h, hb => by
    rcases pairCase c.m d with ⟨e, r, rfl, he⟩ | he
    · rw [checkDepths_ell he] at h
      rw [listIds_ell he, listIds_acc] at hb
      rcases h1 : checkDepths c.m penv a (n + 1) with _ | ca
      · simp [h1] at h
      rcases h2 : checkDepths c.m penv r n with _ | cr
      · simp [h1, h2] at h
      have hca : ca = true := by
        cases ca with
        | true => rfl
        | false => simp [h1, h2] at h
      subst hca
      -- variables to iterate over
      have hvs : ∀ v ∈ listIds c.m (fun id => decide (id ∈ c.ellVars)) a true [],
          v ∈ listIds c.m (fun _ => true) a true [] ∧ ∃ d, n < d ∧ assv v penv = some d := by
        intro v hv
        rw [listIds_filter] at hv
        obtain ⟨hv1, hv2⟩ := List.mem_filter.mp hv
        obtain ⟨d, h0, hd⟩ := (hev v).mp (by simpa using hv2)
        have := checkDepths_le c.m penv a (n + 1) (by simp [h1]) v hv1 d hd h0
        exact ⟨hv1, d, by omega, hd⟩
      obtain ⟨ls, hls, hall⟩ := valLists_ok (b := b) (listIds c.m (fun id => decide (id ∈ c.ellVars)) a true []) (by
        intro v hv
        obtain ⟨hv1, d, hd, hd'⟩ := hvs v hv
        obtain ⟨x, hx, hx'⟩ := hb v (List.mem_append_left _ hv1) d (by omega) hd'
        rw [show d - n = (d - n - 1) + 1 by omega] at hx'
        exact ⟨x, hx, hx'.1⟩)
      have hne : ls ≠ [] := by
        rintro rfl
        obtain ⟨id, hid, d, hd, hd'⟩ := checkDepths_true c.m penv a (n + 1) h1
        have : id ∈ listIds c.m (fun id => decide (id ∈ c.ellVars)) a true [] := by
          rw [listIds_filter]
          exact List.mem_filter.mpr ⟨hid, decide_eq_true ((hev id).mpr ⟨d, by omega, hd'⟩)⟩
        generalize listIds c.m (fun id => decide (id ∈ c.ellVars)) a true [] = vs at hall this
        cases hall
        simp at this
      rw [expand]
      simp only [he, if_true, hls]
      cases ls with
      | nil => exact absurd rfl hne
      | cons l ls =>
        simp only
        split
        · have hrow : mapE (fun vals => expand c a ((listIds c.m (fun id => decide (id ∈ c.ellVars)) a true []).zip vals))
              (applyMapList l ls) ≠ .error .crash := by
            apply mapE_crash
            intro row hrow
            refine expand_no_crash c penv hev a (n + 1) _ (by simp [h1]) ?_
            intro id hid d h0 hd
            have hid' : id ∈ listIds c.m (fun id => decide (id ∈ c.ellVars)) a true [] := by
              rw [listIds_filter]
              exact List.mem_filter.mpr ⟨hid, decide_eq_true ((hev id).mpr ⟨d, h0, hd⟩)⟩
            obtain ⟨v, l', i1, i2, x, i3, i4⟩ := assv_zip hall (applyMapList_mem l ls row hrow) hid'
            refine ⟨v, i1, ?_⟩
            obtain ⟨x', hx, hx'⟩ := hb id (List.mem_append_left _ hid) d h0 hd
            rw [i3] at hx
            cases hx
            have := checkDepths_le c.m penv a (n + 1) (by simp [h1]) id hid d hd h0
            rw [show d - n = (d - (n + 1)) + 1 by omega] at hx'
            exact hx'.2 v (i4 ▸ i2)
          have hr := expand_no_crash c penv hev r n b (by simp [h2]) (fun id hid => hb id (List.mem_append_right _ hid))
          split
          · rename_i e he; rw [he] at hrow; simpa using hrow
          · split
            · rename_i e he; rw [he] at hr; exact hr
            · simp
        · simp
    · rw [checkDepths_pair he] at h
      rw [listIds_pair he, listIds_acc] at hb
      rcases h1 : checkDepths c.m penv a n with _ | ca
      · simp [h1] at h
      rcases h2 : checkDepths c.m penv d n with _ | cr
      · simp [h1, h2] at h
      have i1 := expand_no_crash c penv hev a n b (by simp [h1]) (fun id hid => hb id (List.mem_append_left _ hid))
      have i2 := expand_no_crash c penv hev d n b (by simp [h2]) (fun id hid => hb id (List.mem_append_right _ hid))
      rw [expand_pair he rfl]
      split
      · rename_i e he; rw [he] at i1; exact i1
      · split
        · rename_i e he; rw [he] at i2; exact i2
        · simp

end Verif.Macros

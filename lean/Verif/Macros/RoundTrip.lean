import Verif.Macros.Lemmas
/-
C31: a pattern used as its own template rebuilds the form that it matched.
-/
namespace Verif.Macros

/-- Two forms are the same up to identifiers that mean the same in the environment `env` of the macro use. -/
inductive Rebuilt (env : List (Key × Key)) : Sx → Sx → Prop where
  | same (x : Sx) : Rebuilt env x x
  | sid {n n' : String} {id loc id' loc' : Key} (h : lookupSid id loc env = lookupSid id' loc' env) :
      Rebuilt env (.sid n id loc) (.sid n' id' loc')
  | vec {x y : Sx} (h : Rebuilt env x y) : Rebuilt env (.vec x) (.vec y)
  | pair {a b c d : Sx} (h1 : Rebuilt env a b) (h2 : Rebuilt env c d) : Rebuilt env (.pair a c) (.pair b d)

theorem checkItems_checkEll (m : Macro) (b : Bool) : ∀ (r : Sx), isList r = true → checkItems m b r = true → checkEll m b r = true
  | .nil, _, _ => by simp [checkEll]
  | .pair y ys, hl, hc => by
    simp only [checkItems, Bool.and_eq_true, Bool.not_eq_true'] at hc
    simp only [isList] at hl
    have hne : m.ellPair ys = false ∧ m.ell ys = false := by
      cases ys with
      | nil => exact ⟨rfl, rfl⟩
      | pair z zs => simp only [checkItems, Bool.and_eq_true, Bool.not_eq_true'] at hc; exact ⟨hc.2.1.1, rfl⟩
      | _ => simp [isList] at hl
    rw [checkEll_pair hne.1]
    simp [hc.1, hne.2, checkItems_checkEll m b ys hl hc.2]

theorem checkEll_ell_inv {m : Macro} {b : Bool} {a e r : Sx} (he : m.ell e = true)
    (h : checkEll m b (.pair a (.pair e r)) = true) : checkEll m b a = true ∧ checkEll m b r = true := by
  rw [checkEll_ell he] at h
  simp only [Bool.and_eq_true] at h
  refine ⟨h.1.2, ?_⟩
  cases b with
  | true => simpa using h.2.2
  | false =>
    have := h.2.2
    simp only [Bool.false_eq_true, if_false, Bool.and_eq_true] at this
    exact checkItems_checkEll m false r this.1 this.2

theorem checkEll_pair_inv {m : Macro} {b : Bool} {a d : Sx} (he : m.ellPair d = false)
    (h : checkEll m b (.pair a d) = true) : checkEll m b a = true ∧ checkEll m b d = true := by
  rw [checkEll_pair he] at h
  simp only [Bool.and_eq_true] at h
  exact ⟨h.1.1.2, h.2⟩

/-- the bindings are those of the variables of the pattern, in order. -/
theorem bindings_keys (m : Macro) (env : List (Key × Key)) : ∀ (p s : Sx), checkEll m false p = true →
    matches_ m env p s = true → (bindings m p s []).map Prod.fst = vars m p
  | .nil, _, _, _ => by simp [bindings, vars, listIds]
  | .atom _, _, _, _ => by simp [bindings, vars, listIds]
  | .sid _ id _, s, _, _ => by
    simp only [bindings, vars, listIds]
    split <;> simp_all
  | .vec x, s, hc, hm => by
    simp only [checkEll, Bool.and_eq_true] at hc
    cases s with
    | vec y =>
      simp only [matches_] at hm
      simpa [bindings, vars, listIds] using bindings_keys m env x y hc.2 hm
    | _ => simp [matches_] at hm
  | .pair a d, s, hc, hm => by
    rcases pairCase m d with ⟨e, r, rfl, he⟩ | he
    · obtain ⟨xs, t, rfl, h1, h2, h3, h4, h5⟩ := matches_ell_inv he hc hm
      obtain ⟨hca, hcr⟩ := checkEll_ell_inv he hc
      rw [bindings_ell he, h3, h4, h5, List.map_append, bindings_keys m env r t hcr h2, vars_ell he, transBind_keys]
      · rfl
      · intro row hrow
        obtain ⟨x, hx, rfl⟩ := List.mem_map.mp hrow
        have := bindings_keys m env a x hca (h1 x hx)
        have h := congrArg List.length this
        simpa [vars] using h
    · obtain ⟨x, y, rfl, h1, h2⟩ := (matches_pair he env s).mp hm
      obtain ⟨hca, hcd⟩ := checkEll_pair_inv he hc
      rw [bindings_pair he, bindings_acc, List.map_append, bindings_keys m env a x hca h1, bindings_keys m env d y hcd h2, vars_pair he]

theorem zip_fst_snd {α β : Type} : ∀ (l : List (α × β)), (l.map Prod.fst).zip (l.map Prod.snd) = l
  | [] => rfl
  | p :: l => by simp [zip_fst_snd l]

/-- two lists of the same length with related elements. -/
inductive All2 {α β : Type} (R : α → β → Prop) : List α → List β → Prop where
  | nil : All2 R [] []
  | cons {x : α} {y : β} {xs : List α} {ys : List β} (h : R x y) (t : All2 R xs ys) : All2 R (x :: xs) (y :: ys)

theorem All2.imp {α β : Type} {R Q : α → β → Prop} (h : ∀ x y, R x y → Q x y) : {xs : List α} → {ys : List β} →
    All2 R xs ys → All2 Q xs ys
  | _, _, .nil => .nil
  | _, _, .cons h1 h2 => .cons (h _ _ h1) (All2.imp h h2)

theorem All2.eq {α : Type} : {xs ys : List α} → All2 (fun x y => y = x) xs ys → ys = xs
  | _, _, .nil => rfl
  | _, _, .cons h1 h2 => by rw [h1, All2.eq h2]

theorem mapE_ok {α β : Type} {f : β → Except Err Sx} {g : α → β} {R : α → Sx → Prop} : ∀ (l : List α),
    (∀ x ∈ l, ∃ y, f (g x) = .ok y ∧ R x y) → ∃ ys, mapE f (l.map g) = .ok ys ∧ All2 R l ys
  | [], _ => ⟨[], rfl, .nil⟩
  | x :: l, h => by
    obtain ⟨y, h1, h2⟩ := h x (by simp)
    obtain ⟨ys, h3, h4⟩ := mapE_ok (f := f) (g := g) (R := R) l (fun x hx => h x (by simp [hx]))
    exact ⟨y :: ys, by simp [mapE, h1, h3], .cons h2 h4⟩

theorem rebuilt_listS {env : List (Key × Key)} {t t' : Sx} (ht : Rebuilt env t t') : ∀ {xs ys : List Sx},
    All2 (Rebuilt env) xs ys → Rebuilt env (listS xs t) (listS ys t')
  | _, _, .nil => ht
  | _, _, .cons h1 h2 => .pair h1 (rebuilt_listS ht h2)

/-- the heart of the matter: bindings that give the variables of `p` the values of the match. -/
theorem rebuild (c : Ctx) (env : List (Key × Key)) (penv : List (Key × Nat)) (hp : ∀ k ∈ penv.map Prod.fst, k ∉ c.m.literals)
    (hfresh : ∀ k, c.idn ≤ k → assv (.num k) env = none) (htop : ∀ k ∈ c.top.map Prod.fst, k ∉ c.m.literals)
    (hev : ∀ k ∈ c.ellVars, k ∉ c.m.literals) :
    ∀ (p s : Sx) (n : Nat) (b : List (Key × Sx)), checkEll c.m false p = true → (checkDepths c.m penv p n).isSome = true →
      matches_ c.m env p s = true → (vars c.m p).Nodup → (∀ k ∈ b.map Prod.fst, k ∉ c.m.literals) →
      (∀ k ∈ vars c.m p, assv k b = assv k (bindings c.m p s [])) →
      (∀ k ∈ listIds c.m c.m.notLit p false [], k ∈ c.ellVars) →
      ∃ s', expand c p b = .ok s' ∧ Rebuilt env s s' ∧ (c.m.literals = [] → s' = s)
  | .nil, s, n, b, _, _, hm, _, _, _, _ => by
    simp only [matches_, decide_eq_true_eq] at hm
    exact ⟨.nil, rfl, hm ▸ .same _, fun _ => hm.symm⟩
  | .atom k, s, n, b, _, _, hm, _, _, _, _ => by
    simp only [matches_, decide_eq_true_eq] at hm
    exact ⟨.atom k, rfl, hm ▸ .same _, fun _ => hm.symm⟩
  | .sid name id loc, s, n, b, _, _, hm, _, hb, hv, _ => by
    by_cases hl : id ∈ c.m.literals
    · have h1 : assv id b = none := assv_none (fun h => hb id h hl)
      have h2 : assv id c.top = none := assv_none (fun h => htop id h hl)
      have hnl : c.m.notLit id = false := by simp [Macro.notLit, hl]
      simp only [matches_, hnl, Bool.false_or] at hm
      cases s with
      | sid name' id' loc' =>
        simp only [decide_eq_true_eq] at hm
        refine ⟨_, by simp only [expand, h1, h2]; rfl, .sid ?_, fun h => by rw [h] at hl; simp at hl⟩
        rw [← hm]
        simp only [lookupSid]
        rw [hfresh _ (Nat.le_add_right _ _)]
        rfl
      | _ => simp at hm
    · have hnl : c.m.notLit id = true := by simp [Macro.notLit, hl]
      have := hv id (by simp [vars, listIds, hnl])
      simp only [bindings, hnl, if_true, assv] at this
      exact ⟨s, by simp [expand, this], .same _, fun _ => rfl⟩
  | .vec x, s, n, b, hc, hd, hm, hn, hb, hv, he => by
    simp only [checkEll, Bool.and_eq_true] at hc
    cases s with
    | vec y =>
      obtain ⟨y', h1, h2, h3⟩ := rebuild c env penv hp hfresh htop hev x y n b hc.2 (by simpa [checkDepths] using hd)
        (by simpa [matches_] using hm) (by simpa [vars, listIds] using hn) hb
        (by simpa [vars, listIds, bindings] using hv) (by simpa [listIds] using he)
      exact ⟨.vec y', by simp [expand, h1], .vec h2, fun h => by rw [h3 h]⟩
    | _ => simp [matches_] at hm
  | .pair a d, s, n, b, hc, hd, hm, hn, hb, hv, hel => by
    rcases pairCase c.m d with ⟨e, r, rfl, he⟩ | he
    · obtain ⟨xs, t, rfl, h1, h2, h3, h4, h5⟩ := matches_ell_inv he hc hm
      obtain ⟨hca, hcr⟩ := checkEll_ell_inv he hc
      rw [checkDepths_ell he] at hd
      obtain ⟨ca, hda⟩ : ∃ ca, checkDepths c.m penv a (n + 1) = some ca := by
        rcases h : checkDepths c.m penv a (n + 1) with _ | ca
        · simp [h] at hd
        · exact ⟨ca, rfl⟩
      obtain ⟨cr, hdr⟩ : ∃ cr, checkDepths c.m penv r n = some cr := by
        rcases h : checkDepths c.m penv r n with _ | ca
        · simp [hda, h] at hd
        · exact ⟨ca, rfl⟩
      have hcat : ca = true := by
        cases ca with
        | true => rfl
        | false => simp [hda, hdr] at hd
      subst hcat
      rw [vars_ell he] at hn hv
      rw [listIds_ell he, listIds_acc] at hel
      have hnda := (List.nodup_append.mp hn).1
      have hndr := (List.nodup_append.mp hn).2.1
      have hdisj := (List.nodup_append.mp hn).2.2
      -- the variables to iterate over
      have hvars : listIds c.m (fun id => decide (id ∈ c.ellVars)) a true [] = vars c.m a := by
        simp only [vars]
        rw [listIds_filter c.m (fun id => decide (id ∈ c.ellVars)), listIds_filter c.m c.m.notLit]
        apply List.filter_congr
        intro k hk
        by_cases hkl : c.m.notLit k = true
        · have hk' : k ∈ vars c.m a := by
            simp only [vars]; rw [listIds_filter]; exact List.mem_filter.mpr ⟨hk, hkl⟩
          rw [hkl]
          exact decide_eq_true (hel k (List.mem_append_left _ hk'))
        · have : k ∉ c.ellVars := fun h => hkl (by simpa [Macro.notLit] using hev k h)
          simp [this, hkl]
      -- the table of values
      have hkeys : ∀ x ∈ xs, (bindings c.m a x []).map Prod.fst = vars c.m a := fun x hx => bindings_keys c.m env a x hca (h1 x hx)
      have hrows : ∀ row ∈ xs.map (fun x => (bindings c.m a x []).map Prod.snd), row.length = (vars c.m a).length := by
        intro row hrow
        obtain ⟨x, hx, rfl⟩ := List.mem_map.mp hrow
        have h := congrArg List.length (hkeys x hx)
        simpa using h
      have hbind : bindings c.m (.pair a (.pair e r)) (listS xs t) [] =
          transBind (vars c.m a) (xs.map (fun x => (bindings c.m a x []).map Prod.snd)) ++ bindings c.m r t [] := by
        rw [bindings_ell he, h3, h4, h5]; rfl
      have htk := transBind_keys (vars c.m a) _ hrows
      have hvl := valLists_trans (b := b) (vars c.m a) _ hrows hnda (by
        intro v hv'
        rw [hv v (List.mem_append_left _ hv'), hbind]
        exact assv_append_left (by rw [htk]; exact hv'))
      -- there is one
      obtain ⟨v, hvm⟩ : ∃ v, v ∈ vars c.m a := by
        obtain ⟨id, hid, k, _, hk⟩ := checkDepths_true c.m penv a (n + 1) hda
        refine ⟨id, ?_⟩
        simp only [vars]; rw [listIds_filter]
        refine List.mem_filter.mpr ⟨hid, ?_⟩
        have : id ∈ penv.map Prod.fst := by
          by_cases h : id ∈ penv.map Prod.fst
          · exact h
          · rw [assv_none h] at hk; cases hk
        simpa [Macro.notLit] using hp id this
      obtain ⟨j, hj⟩ : ∃ j, (vars c.m a).length = j + 1 := by
        cases hlen : (vars c.m a).length with
        | zero => rw [List.length_eq_zero_iff.mp hlen] at hvm; simp at hvm
        | succ j => exact ⟨j, rfl⟩
      -- the repeated part
      obtain ⟨ys, hys, hpos⟩ := mapE_ok (f := fun vals => expand c a ((vars c.m a).zip vals))
        (g := fun x => (bindings c.m a x []).map Prod.snd)
        (R := fun x y => Rebuilt env x y ∧ (c.m.literals = [] → y = x)) xs (by
          intro x hx
          have hz : (vars c.m a).zip ((bindings c.m a x []).map Prod.snd) = bindings c.m a x [] := by
            rw [← hkeys x hx]; exact zip_fst_snd _
          obtain ⟨y, i1, i2, i3⟩ := rebuild c env penv hp hfresh htop hev a x (n + 1) (bindings c.m a x []) hca (by simp [hda])
            (h1 x hx) hnda (by rw [hkeys x hx]; exact fun k hk => vars_notLit hk) (fun _ _ => rfl)
            (fun k hk => hel k (List.mem_append_left _ (listIds_inc _ _ _ k hk)))
          exact ⟨y, by simp only [hz]; exact i1, i2, i3⟩)
      -- the rest
      obtain ⟨t', j1, j2, j3⟩ := rebuild c env penv hp hfresh htop hev r t n b hcr (by simp [hdr]) h2 hndr hb (by
          intro k hk
          rw [hv k (List.mem_append_right _ hk), hbind]
          exact assv_append_right (by rw [htk]; exact fun hk' => hdisj k hk' k hk rfl))
        (fun k hk => hel k (List.mem_append_right _ hk))
      refine ⟨listS ys t', ?_, rebuilt_listS j2 (hpos.imp fun _ _ h => h.1), fun hl => ?_⟩
      · rw [expand]
        simp only [he, if_true, hvars, hvl, hj, cols]
        rw [if_pos, applyMapList_cols j _ (by intro r hr; rw [hrows r hr, hj]), hys]
        · simp only [j1]
        · rw [List.all_eq_true]
          intro col hcol
          have := cols_length j _ col hcol
          simp only [List.length_map] at this ⊢
          exact decide_eq_true this
      · rw [j3 hl]
        have : ys = xs := (hpos.imp (fun x y h => h.2 hl)).eq
        rw [this]
    · obtain ⟨x, y, rfl, h1, h2⟩ := (matches_pair he env s).mp hm
      obtain ⟨hca, hcd⟩ := checkEll_pair_inv he hc
      rw [checkDepths_pair he] at hd
      have hda : (checkDepths c.m penv a n).isSome = true := by
        rcases h : checkDepths c.m penv a n with _ | ca
        · simp [h] at hd
        · rfl
      have hdd : (checkDepths c.m penv d n).isSome = true := by
        rcases h : checkDepths c.m penv a n with _ | ca
        · simp [h] at hd
        · rcases h' : checkDepths c.m penv d n with _ | cd
          · simp [h, h'] at hd
          · rfl
      rw [vars_pair he] at hn hv
      rw [listIds_pair he, listIds_acc] at hel
      have hdisj := (List.nodup_append.mp hn).2.2
      have hka := bindings_keys c.m env a x hca h1
      rw [bindings_pair he, bindings_acc] at hv
      obtain ⟨x', i1, i2, i3⟩ := rebuild c env penv hp hfresh htop hev a x n b hca hda h1 (List.nodup_append.mp hn).1 hb (by
          intro k hk
          rw [hv k (List.mem_append_left _ hk)]
          exact assv_append_left (by rw [hka]; exact hk))
        (fun k hk => hel k (List.mem_append_left _ hk))
      obtain ⟨y', j1, j2, j3⟩ := rebuild c env penv hp hfresh htop hev d y n b hcd hdd h2 (List.nodup_append.mp hn).2.1 hb (by
          intro k hk
          rw [hv k (List.mem_append_right _ hk)]
          exact assv_append_right (by rw [hka]; exact fun hk' => hdisj k hk' k hk rfl))
        (fun k hk => hel k (List.mem_append_right _ hk))
      exact ⟨.pair x' y', by rw [expand_pair he rfl, i1, j1], .pair i2 j2, fun h => by rw [i3 h, j3 h]⟩

end Verif.Macros

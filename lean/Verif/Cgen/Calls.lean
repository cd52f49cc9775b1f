import Verif.Cgen.Lets
/-
Calls: moving the operands into the argument registers, and entering procedures.
-/
namespace Verif.Cgen
open Verif.Core Sys
variable {W : Type} {M : Sem W} {T : Texts} {Q : PrimName → Nat → List Nat} {P : Prog} {G : Glob}

/-! ### moves -/

/-- The operands in `as` go to the registers from `sh.getD 0` on; writing a register does not disturb the operands that are still to be moved. -/
theorem moves_ok {all : List Exp} {as : List CExp} {ρ : Env} {renv : Renv} {n o : Nat} {dd : Dest} {sh : Option Nat} (hlen : all.length = o + as.length)
    (stable : ∀ k j, k < j → ∀ r v w e a, all[o + j]? = some e → as[j]? = some a → ArgX M T Q P G renv n ρ r v e a → ArgX M T Q P G renv n ρ (r.set (sh.getD 0 + k) w) v e a) :
    ∀ (m k : Nat) (r : Regs) (σ : Store W) (σt : CStore W) (d : Nat → Val), k + m = as.length →
    (∀ j, k ≤ j → ∀ e a, all[o + j]? = some e → as[j]? = some a → ArgX M T Q P G renv n ρ r (d (o + j)) e a) →
    (∀ j, j < k → ∃ w, r (sh.getD 0 + j) = some w ∧ VR G (d (o + j)) w) → SR G σ σt →
    (∀ κ, (srcSys M T Q).Fails (.args .call all d ((List.range' (o + k) m).filter (safeAt T all)) ρ κ σ)) ∨
    ∃ ws d1 σ1 σt1 r1, (∀ κ, (srcSys M T Q).Reaches (.args .call all d ((List.range' (o + k) m).filter (safeAt T all)) ρ κ σ) ws (.args .call all d1 [] ρ κ σ1)) ∧
      (cSys M Q P).Reaches (.move dd sh k (as.drop k) r σt) ws (.move dd sh as.length [] r1 σt1) ∧ SR G σ1 σt1 ∧ (∀ j, j < o → d1 j = d j) ∧
      (∀ j, j < as.length → ∃ w, r1 (sh.getD 0 + j) = some w ∧ VR G (d1 (o + j)) w) := by
  intro m
  induction m with
  | zero =>
    intro k r σ σt d hk _ hd hs
    have : k = as.length := by omega
    subst this
    right
    refine ⟨[], d, σ, σt, r, fun κ => .refl _, ?_, hs, fun _ _ => rfl, hd⟩
    rw [List.drop_length]; exact .refl _
  | succ m ih =>
    intro k r σ σt d hk ha hd hs
    have hka : k < as.length := by omega
    have hko : o + k < all.length := by omega
    have hga : as[k]? = some as[k] := List.getElem?_eq_getElem hka
    have hge : all[o + k]? = some all[o + k] := List.getElem?_eq_getElem hko
    rw [range'_filter_cons, List.drop_eq_getElem_cons hka]
    rcases ha k (Nat.le_refl _) _ _ hge hga with ⟨hsafe, hce, k', hcode, her, hkn⟩ | ⟨hsafe, j, w, hcode, hr, hv, hj1, hj2⟩
    · have hf : safeAt T all (o + k) = true := by simp [safeAt, hge, hsafe]
      simp only [hf, if_true, List.cons_append, List.nil_append]
      rcases hce _ ρ r σ σt her hs with hfail | ⟨ws, v, σ1, w, σt1, r1, h1, h2, hvw, hs1, _, hr1, _⟩
      · left; intro κ
        exact srcFail (s' := .ev all[o + k] ρ (.args .call all d (o + k) ((List.range' (o + k + 1) m).filter (safeAt T all)) ρ κ) σ) (by simp only [Core.step, hge]) (hfail _)
      · obtain rfl := hr1 hsafe
        rcases ih (k + 1) (r1.set (sh.getD 0 + k) w) σ1 σt1 (Core.upd d (o + k) v) (by omega) (fun j hj e a he ha' => by
            have := stable k j (by omega) r1 (d (o + j)) w e a he ha' (ha j (by omega) e a he ha')
            simpa [Core.upd, show ¬ j = k by omega] using this) (fun j hj => by
            by_cases e : j = k
            · subst e; exact ⟨w, by simp [Regs.set], by simpa [Core.upd] using hvw⟩
            · obtain ⟨w', k1, k2⟩ := hd j (by omega)
              exact ⟨w', by simp [Regs.set, e, k1], by simpa [Core.upd, e] using k2⟩) hs1 with hfail | ⟨ws2, d1, σ2, σt2, r2, g1, g2, g3, g4, g5⟩
        · left; intro κ
          refine srcFail (s' := .ev all[o + k] ρ (.args .call all d (o + k) ((List.range' (o + k + 1) m).filter (safeAt T all)) ρ κ) σ) (by simp only [Core.step, hge]) ?_
          exact (h1 _).fails (srcFail (s' := .args .call all (Core.upd d (o + k) v) ((List.range' (o + k + 1) m).filter (safeAt T all)) ρ κ σ1) rfl (hfail κ))
        · right
          refine ⟨ws ++ ws2, d1, σ2, σt2, r2, fun κ => ?_, ?_, g3, fun j hj => ?_, g5⟩
          · refine srcCons (s1 := .ev all[o + k] ρ (.args .call all d (o + k) ((List.range' (o + k + 1) m).filter (safeAt T all)) ρ κ) σ) (by simp only [Core.step, hge]) rfl ?_
            exact (h1 _).trans (srcCons (s1 := .args .call all (Core.upd d (o + k) v) ((List.range' (o + k + 1) m).filter (safeAt T all)) ρ κ σ1) rfl rfl (g1 κ))
          · refine tgtCons (s1 := .ev as[k] [] (.move dd sh k (as.drop (k + 1))) r1 σt) rfl rfl ?_
            rw [hcode]
            exact (h2 [] _ (Or.inl hsafe)).trans (tgtCons (s1 := .move dd sh (k + 1) (as.drop (k + 1)) (r1.set (sh.getD 0 + k) w) σt1) rfl rfl g2)
          · rw [g4 j hj]; simp [Core.upd, show j ≠ o + k by omega]
    · have hf : safeAt T all (o + k) = false := by simp [safeAt, hge, hsafe]
      simp only [hf, Bool.false_eq_true, if_false, List.nil_append]
      rcases ih (k + 1) (r.set (sh.getD 0 + k) w) σ σt d (by omega) (fun j hj e a he ha' =>
            stable k j (by omega) r (d (o + j)) w e a he ha' (ha j (by omega) e a he ha')) (fun j hj => by
            by_cases e : j = k
            · subst e; exact ⟨w, by simp [Regs.set], hv⟩
            · obtain ⟨w', k1, k2⟩ := hd j (by omega)
              exact ⟨w', by simp [Regs.set, e, k1], k2⟩) hs with hfail | ⟨ws2, d1, σ2, σt2, r2, g1, g2, g3, g4, g5⟩
      · exact Or.inl hfail
      · right
        refine ⟨ws2, d1, σ2, σt2, r2, g1, ?_, g3, g4, g5⟩
        refine tgtCons (s1 := .ev as[k] [] (.move dd sh k (as.drop (k + 1))) r σt) rfl rfl ?_
        rw [hcode]
        refine tgtCons (s1 := .ret w [] (.move dd sh k (as.drop (k + 1))) r σt) (by simp [cstep, hr]) rfl ?_
        exact tgtCons (s1 := .move dd sh (k + 1) (as.drop (k + 1)) (r.set (sh.getD 0 + k) w) σt) rfl rfl g2

/-! ### when the moves do not disturb each other -/

theorem stable_slow {renv : Renv} {n k : Nat} {ρ : Env} {r : Regs} {v : Val} {w : CVal} {e : Exp} {a : CExp} (h : ArgX M T Q P G renv n ρ r v e a) :
    ArgX M T Q P G renv n ρ (r.set (n + k) w) v e a := h.below (.set _ _ _ _ (by omega))

theorem depFrom_zero {sp : List (Option Id)} {es : List Exp} : depFrom sp 0 es = es.any (dep sp) := by
  induction es with
  | nil => rfl
  | cons e es ih => simp [depFrom, ih]

theorem dep_free (T : Texts) {sp : List (Option Id)} {x : Id} (hx : some x ∈ sp) : ∀ e, isSafe T e = true → Free x e → dep sp e = true := by
  intro e
  induction e using isSafe.induct (motive_2 := fun es => areSafe T es = true → ∀ e ∈ es, Free x e → dep sp e = true) with
  | case1 y => intro _ hf; cases hf; simpa [dep] using hx
  | case2 a b c iha ihb ihc =>
    intro h hf
    simp only [isSafe, Bool.and_eq_true] at h
    cases hf with
    | iteA _ _ h' => simp [dep, iha h.1.1 h']
    | iteB _ _ h' => simp [dep, ihb h.1.2 h']
    | iteC _ _ h' => simp [dep, ihc h.2 h']
  | case3 eff p es ih =>
    intro h hf
    simp only [isSafe, Bool.and_eq_true] at h
    cases hf with
    | prim _ _ hm h' => simp only [dep, depFrom_zero, List.any_eq_true]; exact ⟨_, hm, ih h.2 _ hm h'⟩
  | case4 e h1 h2 h3 =>
    intro h
    cases e <;> first | (exact absurd rfl (h1 _)) | (exact absurd rfl (h2 _ _ _)) | (exact absurd rfl (h3 _ _ _)) | (simp [isSafe] at h)
  | case5 => rename_i hm _; simp at hm
  | case6 e es ih1 ih2 =>
    rename_i h e' he' hf
    simp only [areSafe, Bool.and_eq_true] at h
    rcases List.mem_cons.1 he' with rfl | he'
    · exact ih1 h.1 hf
    · exact ih2 h.2 e' he' hf

/-- what `cg-fast-goto?` has checked. -/
theorem fastLoop_spec : ∀ (es : List Exp) (regs : Renv) (sp : List (Option Id)), fastLoop es regs sp = true →
    es.length ≤ regs.length ∧ (∀ (k : Nat), k < es.length → ∃ x, regs[k]? = some (some x)) ∧
    (∀ (j : Nat) e, es[j]? = some e → ∃ sp', (∀ y ∈ sp, y ∈ sp') ∧ (∀ (k : Nat) y, k < j → regs[k]? = some y → y ∈ sp') ∧ (sp'.isEmpty = true ∨ dep sp' e = false)) := by
  intro es
  induction es with
  | nil => intro regs sp _; exact ⟨Nat.zero_le _, by simp, by simp⟩
  | cons e es ih =>
    intro regs sp h
    cases regs with
    | nil => simp [fastLoop] at h
    | cons y regs =>
      cases y with
      | none => simp [fastLoop] at h
      | some x =>
        simp only [fastLoop] at h
        split at h
        · rename_i hc
          obtain ⟨h1, h2, h3⟩ := ih regs (some x :: sp) h
          refine ⟨by simpa using h1, fun k hk => ?_, fun j e' he' => ?_⟩
          · cases k with
            | zero => exact ⟨x, rfl⟩
            | succ k => simpa using h2 k (by simpa using hk)
          · cases j with
            | zero =>
              simp only [List.getElem?_cons_zero, Option.some.injEq] at he'
              subst he'
              refine ⟨sp, fun y hy => hy, fun k y hk => by omega, ?_⟩
              simpa using hc
            | succ j =>
              obtain ⟨sp', g1, g2, g3⟩ := h3 j e' (by simpa using he')
              refine ⟨sp', fun y hy => g1 y (List.mem_cons_of_mem _ hy), fun k y hk hy => ?_, g3⟩
              cases k with
              | zero => simp only [List.getElem?_cons_zero, Option.some.injEq] at hy; subst hy; exact g1 _ (List.mem_cons_self ..)
              | succ k => exact g2 k y (by omega) (by simpa using hy)
        · cases h

theorem pos_get {x : Option Id} : ∀ {renv : Renv} {p : Nat}, pos x renv = some p → renv[p]? = some x := by
  intro renv
  induction renv with
  | nil => intro p h; simp [pos] at h
  | cons y ys ih =>
    intro p h
    by_cases e : y = x
    · simp [pos, e] at h; subst h; simp [e]
    · rw [pos, if_neg e] at h
      cases hp : pos x ys with
      | none => rw [hp] at h; simp at h
      | some q => rw [hp] at h; simp at h; subst h; simpa using ih hp

theorem pos_tmps {x : Id} {renv : Renv} {k : Nat} : pos (some x) (List.replicate k none ++ renv) = (pos (some x) renv).map (· + k) := by
  have := pos_out (x := x) (l := List.replicate k none) renv (by simp)
  simpa using this

theorem stable_fast {renv : Renv} {es : List Exp} (hf : fastGoto renv es = true) {n k j : Nat} (hkj : k < j) {ρ : Env} {r : Regs} {v : Val} {w : CVal} {e : Exp} {a : CExp} (he : es[j]? = some e)
    (h : ArgX M T Q P G renv n ρ r v e a) : ArgX M T Q P G renv n ρ (r.set (0 + k) w) v e a := by
  obtain ⟨h1, h2, h3⟩ := fastLoop_spec _ _ _ hf
  have hj : j < es.length := (List.getElem?_eq_some_iff.1 he).1
  rw [List.length_reverse] at h1
  obtain ⟨x, hx⟩ := h2 k (by omega)
  obtain ⟨sp, _, g2, g3⟩ := h3 j e he
  have hxs := g2 k _ hkj hx
  have hdep : dep sp e = false := by
    rcases g3 with g3 | g3
    · rw [List.isEmpty_iff] at g3; subst g3; simp at hxs
    · exact g3
  rw [List.getElem?_reverse (by omega)] at hx
  rcases h with ⟨h1', h2', k', h3', h4', h5'⟩ | ⟨h1', i, w', h2', h3', h4', h5', h6'⟩
  · refine Or.inl ⟨h1', h2', k', h3', ⟨h4'.top, fun y hy hpy => ?_⟩, h5'⟩
    obtain ⟨p, v', w', e1, e2, e3, e4⟩ := h4'.reg y hy hpy
    refine ⟨p, v', w', e1, e2, ?_, e4⟩
    rw [← e3]
    -- the register of a free variable is not written
    have hp : ∃ q, pos (some y) renv = some q ∧ p = q + k' := by
      rw [pos_tmps] at e1
      cases hq : pos (some y) renv with
      | none => rw [hq] at e1; simp at e1
      | some q => rw [hq] at e1; simp at e1; exact ⟨q, rfl, e1.symm⟩
    obtain ⟨q, hq, rfl⟩ := hp
    have hql := pos_lt hq
    have hne : (List.replicate k' none ++ renv).length - (q + k') - 1 ≠ 0 + k := by
      intro eq
      simp only [List.length_append, List.length_replicate] at eq
      have : q = renv.length - 1 - k := by omega
      rw [← this, pos_get hq] at hx
      injection hx with hx
      injection hx with hx
      subst hx
      rw [dep_free T hxs _ h1' hy] at hdep
      cases hdep
    simp only [Regs.set, if_neg hne]
  · exact Or.inr ⟨h1', i, w', h2', by simp [Regs.set, show i ≠ k by omega, h3'], h4', h5', h6'⟩

/-! ### operands of calls -/

/-- The code for the operands of a call and the moves.  `o` is 1 if the operator is not among the operands. -/
theorem operands_ok {all es : List Exp} {ρ : Env} {renv : Renv} {o : Nat} {dd : Dest} {r : Regs} {σ : Store W} {σt : CStore W} {mid : List Nat} {d2 : (Nat → Val) → Store W → (Nat → Val)} (hlen : all.length = o + es.length)
    (hes : ∀ e ∈ es, ValueOk M T Q P G e ∧ (isSafe T e = true → CexpOk M T Q P G e)) (hall : ∀ (i : Nat), es[i]? = all[o + i]?)
    (her : ER G renv ρ r (fun x => ∃ e ∈ es, Free x e)) (hs : SR G σ σt)
    (hmid : ∀ d σ1, (∃ σt1, SR G σ1 σt1) → (∀ κ todo, (srcSys M T Q).Fails (.args .call all d (mid ++ todo) ρ κ σ1)) ∨
      ((∀ κ todo, (srcSys M T Q).Reaches (.args .call all d (mid ++ todo) ρ κ σ1) [] (.args .call all (d2 d σ1) todo ρ κ σ1)) ∧ (∀ j, o ≤ j → d2 d σ1 j = d j))) :
    (∀ κ, (srcSys M T Q).Fails (.args .call all (fun _ => .trap) ((List.range' o es.length).filter (fun i => !safeAt T all i) ++ (mid ++ (List.range' o es.length).filter (safeAt T all))) ρ κ σ)) ∨
    ∃ ws d1 σ1 σt1 r1 d0 σ0, (∀ κ, (srcSys M T Q).Reaches (.args .call all (fun _ => .trap) ((List.range' o es.length).filter (fun i => !safeAt T all i) ++ (mid ++ (List.range' o es.length).filter (safeAt T all))) ρ κ σ) ws
        (.args .call all d1 [] ρ κ σ1)) ∧
      (∀ rest, (cSys M Q P).Reaches (.run ((cgArgs (G.ctx T) es renv).1 ++
          (.call dd (if fastGoto renv es then none else some (cgArgs (G.ctx T) es renv).2.2.length) (cgArgs (G.ctx T) es renv).2.1 :: rest)) r σt) ws
        (.move dd (if fastGoto renv es then none else some (cgArgs (G.ctx T) es renv).2.2.length) es.length [] r1 σt1)) ∧
      SR G σ1 σt1 ∧ (∃ σt0, SR G σ0 σt0) ∧ (∀ j, j < o → d1 j = d2 d0 σ0 j) ∧
      (∀ j, j < es.length → ∃ w, r1 ((if fastGoto renv es then none else some (cgArgs (G.ctx T) es renv).2.2.length).getD 0 + j) = some w ∧ VR G (d1 (o + j)) w) := by
  have hal := cgArgs_length (C := G.ctx T) es renv
  rcases argsCode_ok (M := M) (T := T) (Q := Q) (P := P) (G := G) (op := .call) (all := all) (ρ := ρ) (renv := renv) es 0 o r σ σt (fun _ => .trap) hes
      (fun i => Or.inl (hall i)) her hs with hf | ⟨ws, d1, σ1, σt1, r1, h1, h2, h3, h4, h5, h6⟩
  · exact Or.inl (fun κ => hf κ _)
  simp only [List.replicate_zero, List.nil_append] at h2 h6
  rcases hmid d1 σ1 ⟨σt1, h3⟩ with hf | ⟨hm1, hm2⟩
  · exact Or.inl (fun κ => (h1 κ _).fails (hf κ _))
  generalize hsh : (if fastGoto renv es then none else some (cgArgs (G.ctx T) es renv).2.2.length) = sh
  have stable : ∀ k j, k < j → ∀ r v w e a, all[o + j]? = some e → (cgArgs (G.ctx T) es renv).2.1[j]? = some a →
      ArgX M T Q P G renv (cgArgs (G.ctx T) es renv).2.2.length ρ r v e a → ArgX M T Q P G renv (cgArgs (G.ctx T) es renv).2.2.length ρ (r.set (sh.getD 0 + k) w) v e a := by
    intro k j hkj r v w e a he ha hx
    subst hsh
    split
    · rename_i hfast
      exact stable_fast hfast hkj (by rw [hall]; exact he) hx
    · exact stable_slow hx
  rcases moves_ok (dd := dd) (sh := sh) (hlen.trans (by rw [hal])) stable es.length 0 r1 σ1 σt1 (d2 d1 σ1) (by rw [hal, Nat.zero_add]) (fun j _ e a he ha => by
      rw [hm2 _ (by omega)]
      exact h6 j e a (by rw [hall]; exact he) ha) (fun j hj => by omega) h3 with hf | ⟨ws2, d3, σ2, σt2, r2, g1, g2, g3, g4, g5⟩
  · left; intro κ
    exact (h1 κ _).fails ((hm1 κ _).fails (hf κ))
  · right
    refine ⟨ws ++ ws2, d3, σ2, σt2, r2, d1, σ1, fun κ => ?_, fun rest => ?_, g3, ⟨σt1, h3⟩, g4, fun j hj => g5 j (by rw [hal]; exact hj)⟩
    · refine (h1 κ _).trans ?_
      have := (hm1 κ ((List.range' o es.length).filter (safeAt T all))).trans (g1 κ)
      simpa using this
    · refine (h2 _).trans ?_
      rw [hal] at g2
      exact tgtCons (s1 := .move dd sh 0 (cgArgs (G.ctx T) es renv).2.1 r1 σt1) rfl rfl (by simpa using g2)

/-! ### closures -/

theorem vars_run {all : List Exp} {ρ : Env} {σ : Store W} (hv : ∀ (i : Nat) e, all[i]? = some e → ∃ x v, e = .var x ∧ x.isGlobal = false ∧ ρ.lookup x = some v) :
    ∀ (m k : Nat) (d : Nat → Val), k + m = all.length → (∀ j x, j < k → all[j]? = some (.var x) → ρ.lookup x = some (d j)) →
    ∃ d1, (∀ κ, (srcSys M T Q).Reaches (.args .call all d (List.range' k m) ρ κ σ) [] (.args .call all d1 [] ρ κ σ)) ∧
      ∀ (j : Nat) x, all[j]? = some (.var x) → ρ.lookup x = some (d1 j) := by
  intro m
  induction m with
  | zero =>
    intro k d hk hd
    refine ⟨d, fun κ => .refl _, fun j x hj => hd j x ?_ hj⟩
    have := (List.getElem?_eq_some_iff.1 hj).1; omega
  | succ m ih =>
    intro k d hk hd
    have hg : all[k]? = some all[k] := List.getElem?_eq_getElem (by omega)
    obtain ⟨x, v, h1, h2, h3⟩ := hv k _ hg
    obtain ⟨d1, g1, g2⟩ := ih (k + 1) (Core.upd d k v) (by omega) (fun j y hj hy => by
      by_cases e : j = k
      · subst e
        rw [hg, h1] at hy
        injection hy with hy; injection hy with hy; subst hy
        simpa [Core.upd] using h3
      · simpa [Core.upd, e] using hd j y (by omega) hy)
    refine ⟨d1, fun κ => ?_, g2⟩
    rw [List.range'_succ]
    refine srcCons (s1 := .ev (.var x) ρ (.args .call all d k (List.range' (k + 1) m) ρ κ) σ) (by simp only [Core.step, hg, h1]) rfl ?_
    refine srcCons (s1 := .ret v (.args .call all d k (List.range' (k + 1) m) ρ κ) σ) (by simp [Core.step, h2, h3]) rfl ?_
    exact srcCons (s1 := .args .call all (Core.upd d k v) (List.range' (k + 1) m) ρ κ σ) rfl rfl (g1 κ)

theorem idxOf_some {x : Id} : ∀ {l : List Id}, x ∈ l → ∃ i, idxOf x l = some i ∧ i < l.length := by
  intro l
  induction l with
  | nil => intro h; simp at h
  | cons y l ih =>
    intro h
    by_cases e : x = y
    · exact ⟨0, by simp [idxOf, e], by simp⟩
    · obtain ⟨i, hi, hl⟩ := ih ((List.mem_cons.1 h).resolve_left e)
      exact ⟨i + 1, by simp [idxOf, e, hi], by simpa using hl⟩

theorem order_vars {all : List Exp} (h : ∀ e ∈ all, ∃ x, e = .var x) : cgOrder T Q .call all = List.range' 0 all.length := by
  have hlet : isLet all = false := by
    cases all with
    | nil => rfl
    | cons e all => obtain ⟨x, rfl⟩ := h e (List.mem_cons_self ..); rfl
  have hsafe : ∀ i ∈ List.range all.length, safeAt T all i = true := fun i hi => by
    have hi' := List.mem_range.1 hi
    obtain ⟨x, hx⟩ := h _ (List.getElem_mem hi')
    simp [safeAt, List.getElem?_eq_getElem hi', hx, isSafe]
  simp only [cgOrder, hlet, Bool.false_eq_true, if_false]
  rw [filter_all hsafe, filter_none (p := fun i => !safeAt T all i) (fun i hi => by simp [hsafe i hi]), List.nil_append, List.range_eq_range']

/-- a closure passes its arguments and captured values to its label. -/
theorem curry_run (hlab : ∀ l ∈ G.labs, l.isLabel = true) {l : Id} {ps xs : List Id} {ρ : Env} {vs : List Val} {σ : Store W} {fv : Nat → Val} (hl : l ∈ G.labs) (hps : ps.Nodup) (hpp : ∀ x ∈ ps, plain x)
    (hxp : ∀ x ∈ xs, plain x) (hxs : ∀ x ∈ xs, x ∉ ps) (ht : Top G ρ) (hfv : ∀ (i : Nat) x, xs[i]? = some x → ρ.lookup x = some (fv i)) (hlen : ps.length = vs.length) :
    ∃ i, idxOf l G.labs = some i ∧ ∀ κ, (srcSys M T Q).Reaches (.ap (.clos ps (curryBody l ps xs) ρ) vs κ σ) [] (.ap (.rclos G.labs G.lams i .nil) (vs ++ (List.range xs.length).map fv) κ σ) := by
  obtain ⟨i, hi, _⟩ := idxOf_some hl
  have hlp : l.isGlobal = false := by have := hlab l hl; simp [Id.isLabel] at this; exact this.1
  have hlu : (bindAll ps vs ρ).lookup l = some (.rclos G.labs G.lams i .nil) := ht.bind hlab hpp vs l i hi
  generalize hall : Exp.var l :: (ps.map Exp.var ++ xs.map Exp.var) = all
  have lk1 : ∀ (j : Nat) x, ps[j]? = some x → ∃ v, vs[j]? = some v ∧ (bindAll ps vs ρ).lookup x = some v := fun j x hx => by
    have hj := (List.getElem?_eq_some_iff.1 hx).1
    have hg : vs[j]? = some (vs[j]'(by omega)) := List.getElem?_eq_getElem (by omega)
    exact ⟨_, hg, lookup_in hps hx hg⟩
  have lk2 : ∀ (j : Nat) x, xs[j]? = some x → (bindAll ps vs ρ).lookup x = some (fv j) := fun j x hx => by
    rw [lookup_out vs (hxs x (List.mem_of_getElem? hx))]; exact hfv j x hx
  have hvar : ∀ e ∈ all, ∃ x v, e = .var x ∧ x.isGlobal = false ∧ (bindAll ps vs ρ).lookup x = some v := by
    intro e he
    rw [← hall] at he
    simp only [List.mem_cons, List.mem_append, List.mem_map] at he
    rcases he with rfl | ⟨x, hx, rfl⟩ | ⟨x, hx, rfl⟩
    · exact ⟨l, _, rfl, hlp, hlu⟩
    · obtain ⟨j, hj⟩ := List.getElem?_of_mem hx
      obtain ⟨v, _, h2⟩ := lk1 j x hj
      exact ⟨x, v, rfl, (hpp x hx).1, h2⟩
    · obtain ⟨j, hj⟩ := List.getElem?_of_mem hx
      exact ⟨x, _, rfl, (hxp x hx).1, lk2 j x hj⟩
  obtain ⟨d1, g1, g2⟩ := vars_run (M := M) (T := T) (Q := Q) (all := all) (ρ := bindAll ps vs ρ) (σ := σ) (fun i e he => hvar e (List.mem_of_getElem? he)) all.length 0 (fun _ => .trap)
    (by omega) (fun j x hj => by omega)
  have hord : cgOrder T Q .call all = List.range' 0 all.length := order_vars (fun e he => by obtain ⟨x, _, h, _⟩ := hvar e he; exact ⟨x, h⟩)
  have hlen' : all.length = 1 + (ps.length + xs.length) := by rw [← hall]; simp; omega
  have hvals : Core.vals d1 all.length = .rclos G.labs G.lams i .nil :: (vs ++ (List.range xs.length).map fv) := by
    apply List.ext_getElem?
    intro j
    rw [Core.vals, List.getElem?_map]
    by_cases hj : j < all.length
    · rw [List.getElem?_range hj, Option.map_some]
      cases j with
      | zero =>
        have := g2 0 l (by rw [← hall]; rfl)
        rw [hlu] at this
        rw [← this]; rfl
      | succ j =>
        rw [List.getElem?_cons_succ]
        by_cases hjp : j < ps.length
        · obtain ⟨v, k1, k2⟩ := lk1 j ps[j] (List.getElem?_eq_getElem hjp)
          have := g2 (j + 1) ps[j] (by rw [← hall, List.getElem?_cons_succ, List.getElem?_append_left (by simpa using hjp)]; simp [List.getElem?_eq_getElem hjp])
          rw [List.getElem?_append_left (by omega), k1, ← this, k2]
        · have hjx : j - ps.length < xs.length := by omega
          have := g2 (j + 1) xs[j - ps.length] (by
            rw [← hall, List.getElem?_cons_succ, List.getElem?_append_right (by simp; omega)]; simp [List.getElem?_eq_getElem hjx])
          rw [List.getElem?_append_right (by omega), List.getElem?_map, List.getElem?_range (by omega), ← this, lk2 _ _ (List.getElem?_eq_getElem hjx), Option.map_some, ← hlen]
    · rw [List.getElem?_eq_none (by simpa using hj), Option.map_none, Eq.comm, List.getElem?_eq_none_iff]
      simp; omega
  refine ⟨i, hi, fun κ => ?_⟩
  refine srcCons (s1 := .ev (curryBody l ps xs) (bindAll ps vs ρ) κ σ) (by simp [Core.step, hlen]) rfl ?_
  refine srcCons (s1 := .args .call all (fun _ => .trap) (List.range' 0 all.length) (bindAll ps vs ρ) κ σ) (by simp only [curryBody, Core.step, hall, hord]) rfl ?_
  refine (g1 κ).snoc ?_ rfl
  simp only [srcSys, coreSys, Core.step, hvals]

end Verif.Cgen

import Verif.Stackfn.Lets
/-
Bodies: calls and jumps.
-/
namespace Verif.Stackfn
open Verif.Core
variable {W : Type} {G : Prog W}

/-! ### assignments to parameters -/

theorem varIds_eq : ∀ {es : List Exp} {ys : List Id}, varIds es = some ys → es = ys.map .var
  | [], ys, h => by simp only [varIds, Option.some.injEq] at h; subst h; rfl
  | e :: es, ys, h => by
    unfold varIds at h
    split at h
    · rename_i heq; cases heq
    · rename_i x es' heq
      injection heq with h1 h2; subst h1; subst h2
      rw [Option.map_eq_some_iff] at h
      obtain ⟨zs, h3, rfl⟩ := h
      rw [varIds_eq h3]; rfl
    · cases h

theorem cgCexps_vars (ys : List Id) : cgCexps (ys.map .var) = ys.map .var := by
  induction ys with
  | nil => rfl
  | cons y ys ih => simp only [List.map_cons, cgCexps, cgCexp, ih]

/-- from variables with known values. -/
theorem assigns_exec {M : Sem W} {F : Callee W} {σ : Store W} : ∀ (ps ts : List Id) (fr : Frame), ps.length = ts.length → ps.Nodup → (∀ t ∈ ts, t ∉ ps) → (∀ t ∈ ts, t.isGlobal = false) →
    (∀ t ∈ ts, ∃ v, fr t = some v) → ∃ fr', execs M F (assigns ps (ts.map .var)) fr σ = .ok (.next fr' σ) ∧ (∀ (i : Nat) p, ps[i]? = some p → ∃ t, ts[i]? = some t ∧ fr' p = fr t) ∧
      ∀ y, y ∉ ps → fr' y = fr y
  | [], ts, fr, _, _, _, _, _ => ⟨fr, by simp [assigns, execs], by simp, fun _ _ => rfl⟩
  | p :: ps, [], _, h, _, _, _, _ => by simp at h
  | p :: ps, t :: ts, fr, hl, hn, hd, hg, hv => by
    obtain ⟨v, h1⟩ := hv t (by simp)
    rw [List.nodup_cons] at hn
    have hset : ∀ u ∈ t :: ts, (fr.set p (some v)) u = fr u := fun u hu => by
      rw [Frame.set, if_neg]; rintro rfl; exact hd _ hu (by simp)
    obtain ⟨fr', h2, h3, h4⟩ := assigns_exec (M := M) (F := F) (σ := σ) ps ts (fr.set p (some v)) (by simpa using hl) hn.2 (fun u hu h => hd u (by simp [hu]) (by simp [h])) (fun u hu => hg u (by simp [hu]))
      (fun u hu => by rw [hset u (by simp [hu])]; exact hv u (by simp [hu]))
    refine ⟨fr', ?_, ?_, ?_⟩
    · simp only [List.map_cons, assigns, execs, exec, evalC, hg t (by simp), Bool.false_eq_true, if_false, h1, Res.bind, put]
      exact h2
    · intro i q hq
      cases i with
      | zero =>
        simp at hq; subst hq
        exact ⟨t, rfl, by rw [h4 _ hn.1, h1]; simp [Frame.set]⟩
      | succ i =>
        obtain ⟨u, h5, h6⟩ := h3 i q (by simpa using hq)
        exact ⟨u, by simpa using h5, by rw [h6, hset u (by simp [List.mem_of_getElem? h5])]⟩
    · intro y hy
      rw [List.mem_cons, not_or] at hy
      rw [h4 y hy.2, Frame.set, if_neg hy.1]

/-- from variables that are operands of a call. -/
theorem assigns_ok {M : Sem W} {F : Callee W} {n : Nat} {ES : List Exp} {ρ : Env} {κ : Kont} {σ : Store W} : ∀ (ps ys : List Id) (i : Nat) (d : Nat → Val) (fr : Frame), ps.length = ys.length →
    ps.Nodup → (∀ y ∈ ys, y ∉ ps) → (∀ y ∈ ys, y.isGlobal = false → ∃ v, ρ.lookup y = some v ∧ fr y = some v) → (∀ (j : Nat) y, ys[j]? = some y → ES[i + j]? = some (.var y)) →
    Sim M n (.args .call ES d (List.range' i ys.length) ρ κ σ) (execs M F (assigns ps (ys.map .var)) fr σ) (fun fl s => ∃ fr' d', fl = .next fr' σ ∧ s = .args .call ES d' [] ρ κ σ ∧
      (∀ (j : Nat) p, ps[j]? = some p → fr' p = some (d' (i + j))) ∧ (∀ j, j < i → d' j = d j) ∧ ∀ y, y ∉ ps → fr' y = fr y)
  | [], ys, i, d, fr, hl, _, _, _, _ => by
    cases ys with
    | nil => exact Sim.ok ⟨fr, d, rfl, rfl, by simp, fun _ _ => rfl, fun _ _ => rfl⟩
    | cons y ys => simp at hl
  | p :: ps, [], _, _, _, h, _, _, _, _ => by simp at h
  | p :: ps, y :: ys, i, d, fr, hl, hn, hd, hv, hE => by
    rw [List.nodup_cons] at hn
    rw [List.length_cons, List.range'_succ]
    refine Sim.step' (any_arg (by simpa using hE 0 y rfl) _ _ _) ?_
    have key : ∀ v, Sim M n (.ret v (.args .call ES d i (List.range' (i + 1) ys.length) ρ κ) σ) (execs M F (assigns ps (ys.map .var)) (fr.set p (some v)) σ) (fun fl s => ∃ fr' d', fl = .next fr' σ ∧ s = .args .call ES d' [] ρ κ σ ∧
      (∀ (j : Nat) q, (p :: ps)[j]? = some q → fr' q = some (d' (i + j))) ∧ (∀ j, j < i → d' j = d j) ∧ ∀ y, y ∉ p :: ps → fr' y = fr y) := by
      intro v
      refine Sim.step' (any_ret _ _ _ _ _ _ _ _ _) ?_
      refine (assigns_ok ps ys (i + 1) (upd d i v) (fr.set p (some v)) (by simpa using hl) hn.2 (fun u hu h => hd u (by simp [hu]) (by simp [h])) ?_ ?_).imp ?_
      · intro u hu hg
        obtain ⟨w, h1, h2⟩ := hv u (by simp [hu]) hg
        refine ⟨w, h1, ?_⟩
        rw [Frame.set, if_neg, h2]
        rintro rfl; exact hd _ (by simp [hu] : u ∈ y :: ys) (by simp)
      · intro j u hu
        rw [show i + 1 + j = i + (j + 1) by omega]; exact hE (j + 1) u (by simpa using hu)
      · rintro fl s ⟨fr', d', rfl, rfl, h1, h2, h3⟩
        refine ⟨fr', d', rfl, rfl, ?_, ?_, ?_⟩
        · intro j q hq
          cases j with
          | zero =>
            simp at hq; subst hq
            rw [h3 _ hn.1, Nat.add_zero, h2 i (by omega)]; simp [Frame.set, upd]
          | succ j =>
            rw [h1 j q (by simpa using hq)]; congr 2; omega
        · intro j hj
          rw [h2 j (by omega), upd, if_neg (by omega)]
        · intro u hu
          rw [List.mem_cons, not_or] at hu
          rw [h3 u hu.2, Frame.set, if_neg hu.1]
    simp only [List.map_cons, assigns, execs, exec, evalC]
    cases hg : y.isGlobal with
    | true =>
      simp only [if_true]
      cases hv' : σ.glob y with
      | none => exact Sim.stuck ⟨fun ord => by simp [Core.step, hg, hv'], by intro v w; simp⟩
      | some v => exact Sim.step' (any_var_glob hg hv' _ _) (key v)
    | false =>
      obtain ⟨v, h1, h2⟩ := hv y (by simp) hg
      simp only [Bool.false_eq_true, if_false, h2]
      exact Sim.step' (any_var_loc hg h1 _ _) (key v)

/-! ### temporaries for all operands -/

theorem temps_length (k n : Nat) : (temps k n).length = n := by
  induction n generalizing k with
  | zero => rfl
  | succ n ih => simp [temps, ih]

theorem temps_get : ∀ (k n i : Nat), i < n → (temps k n)[i]? = some (lexId (k + i))
  | k, 0, i, h => by omega
  | k, n + 1, 0, _ => rfl
  | k, n + 1, i + 1, h => by
    rw [temps, List.getElem?_cons_succ, temps_get (k + 1) n i (by omega)]
    congr 2; omega

theorem temps_mem {k n : Nat} {x : Id} (h : x ∈ temps k n) : ∃ j, x = lexId j ∧ k ≤ j ∧ j < k + n := by
  induction n generalizing k with
  | zero => simp [temps] at h
  | succ n ih =>
    rw [temps, List.mem_cons] at h
    rcases h with rfl | h
    · exact ⟨k, rfl, Nat.le_refl _, by omega⟩
    · obtain ⟨j, h1, h2, h3⟩ := ih h
      exact ⟨j, h1, by omega, by omega⟩

theorem temps_nodup (k n : Nat) : (temps k n).Nodup := by
  induction n generalizing k with
  | zero => simp [temps]
  | succ n ih =>
    rw [temps, List.nodup_cons]
    refine ⟨fun h => ?_, ih (k + 1)⟩
    obtain ⟨j, h1, h2, h3⟩ := temps_mem h
    have := lexId_inj h1; omega

theorem decls_append {T : Texts} {f : Id} : ∀ (a b : List Id) (c d : List Exp), a.length = c.length → decls T f (a ++ b) (c ++ d) = decls T f a c ++ decls T f b d
  | [], b, [], d, _ => rfl
  | [], b, _ :: _, d, h => by simp at h
  | _ :: _, b, [], d, h => by simp at h
  | x :: a, b, e :: c, d, h => by simp [decls, decls_append a b c d (by simpa using h)]

theorem decls_rev {T : Texts} {f : Id} : ∀ (ids : List Id) (es : List Exp) (i : Nat), ids.length = es.length → decls T f ids.reverse es.reverse = declsI T f (pairs ids es i).reverse
  | [], [], _, _ => rfl
  | [], _ :: _, _, h => by simp at h
  | _ :: _, [], _, h => by simp at h
  | x :: ids, e :: es, i, h => by
    have h' : ids.length = es.length := by simpa using h
    rw [List.reverse_cons, List.reverse_cons, decls_append _ _ _ _ (by simpa using h'), decls_rev ids es (i + 1) h']
    simp [pairs, declsI, decls]

theorem inits_rev {T : Texts} {f : Id} {Γ : Labels} : ∀ (es : List Exp) (k i n : Nat), cgRevApp T f es k Γ n = initsI T f (pairs (temps k es.length) es i).reverse Γ n
  | [], _, _, _ => by simp [pairs, temps, cgRevApp, initsI]
  | e :: es, k, i, n => by
    simp only [cgRevApp, List.length_cons, temps, pairs, List.reverse_cons]
    rw [initsI_append, ← inits_rev es (k + 1) (i + 1) n]
    by_cases hc : isCexp T f e = true
    · simp [initsI, hc]
    · simp [initsI, hc]

/-- the values of operands in temporaries. -/
theorem temps_ok {n : Nat} {e0 : Exp} {es : List Exp} {xs ls : List Id} {Γ : Labels} {N : Nat} {ρ : Env} {κ : Kont} {σ : Store W} {fr : Frame} {val : Val} {rest : List Stmt}
    {post : Flow W → State W → Prop} (hC : ∀ m ≤ n, (G.at m).OK) (hE : StatE G es xs ls Γ N) (he : ∀ e ∈ es, BodyOK G e) (hr : Agr xs ρ fr) (hg : σ.glob G.f = some G.clos)
    (he0 : ∀ κ' (σ' : Store W), σ'.glob G.f = some G.clos → ∃ m, Runs G.M m (.ev e0 ρ κ' σ') (.ret val κ' σ'))
    (hk : ∀ d' fr' σ', σ'.glob = σ.glob → (∀ i, i < es.length → fr' (lexId (N + i)) = some (d' (i + 1))) → d' 0 = val → Same (bindersAll es) N fr fr' → Agr xs ρ fr' →
      Sim G.M (n + 1) (.args .call (e0 :: es) d' [] ρ κ σ') (G.ex n rest fr' σ') post) :
    Sim G.M (n + 1) (.ev (.app e0 es) ρ κ σ) (G.ex n [.block (decls G.T G.f (temps N es.length).reverse es.reverse ++ ((cgRevApp G.T G.f es N Γ (N + es.length)).1 ++ rest))] fr σ) post := by
  have hlen : (temps N es.length).length = es.length := temps_length _ _
  have hm := pairs_mem (temps N es.length) es 1
  have hL : ∀ a ∈ (pairs (temps N es.length) es 1).reverse, a.e ∈ es := fun a ha => (hm a (List.mem_reverse.1 ha)).1
  have hid : ∀ a ∈ (pairs (temps N es.length) es 1).reverse, ∃ j, a.id = lexId j ∧ N ≤ j ∧ j < N + es.length := fun a ha => temps_mem (hm a (List.mem_reverse.1 ha)).2.1
  have hpp : ((pairs (temps N es.length) es 1).reverse.map Item.pos).Perm (List.range' 1 es.length) := by
    rw [List.map_reverse, pairs_pos _ _ _ hlen]; exact List.reverse_perm _
  have hSL : StatL G (pairs (temps N es.length) es 1).reverse xs ls Γ (N + es.length) := by
    refine hE.items (by omega) hL ?_ ?_ ?_ ?_ ?_
    · intro a ha h
      obtain ⟨j, h1, h2, h3⟩ := hid a ha
      rw [h1] at h; have := hE.xts _ h; rw [lexId_ts] at this; omega
    · intro a ha h
      obtain ⟨j, h1, h2, h3⟩ := hid a ha
      rw [h1] at h; have := hE.bts _ h; rw [lexId_ts] at this; omega
    · intro a ha
      obtain ⟨j, h1, h2, h3⟩ := hid a ha
      rw [h1, lexId_ts]; omega
    · rw [List.map_reverse, pairs_id _ _ _ hlen]; exact List.nodup_reverse.2 (temps_nodup _ _)
    · exact hpp.nodup_iff.2 List.nodup_range'
  show Sim _ _ _ (execs _ _ _ _ _) _
  rw [execs_block]
  refine Sim.step' (any_app _ es (0 :: (cpos G.T G.f (pairs (temps N es.length) es 1).reverse ++ (xpos G.T G.f (pairs (temps N es.length) es 1).reverse ++ [])))
    (by rw [List.length_cons]; exact order_perm _ _ _ _ hpp) _ _ _) ?_
  refine Sim.step' (any_arg (e := e0) rfl _ _ _) ?_
  obtain ⟨m0, hm0⟩ := he0 (.args .call (e0 :: es) (fun _ => .trap) 0 (cpos G.T G.f (pairs (temps N es.length) es 1).reverse ++ (xpos G.T G.f (pairs (temps N es.length) es 1).reverse ++ [])) ρ κ) σ hg
  refine (Sim.runs (n := n + 1) hm0 ?_).mono (by omega)
  refine Sim.step' (any_ret _ _ _ _ _ _ _ _ _) ?_
  rw [decls_rev _ es 1 hlen, inits_rev es N 1]
  refine items_ok (op := .call) (ES := e0 :: es) (ρ := ρ) (κ := κ) (todo := []) hC _ _ fr σ _ post hSL (fun a ha => he a.e (hL a ha)) (fun a ha => by
        obtain ⟨-, -, j, h1, h2, -⟩ := hm a (List.mem_reverse.1 ha)
        rw [h1, show 1 + j = j + 1 by omega]; simpa using h2) hr hg (fun d' fr' σ' hg' hv hd hs hr' => ?_)
  refine hk d' fr' σ' hg' ?_ ?_ ?_ hr'
  · intro i hi
    have := hv _ (List.mem_reverse.2 (mem_pairs (temps N es.length) es 1 i _ es[i] (temps_get N es.length i hi) (List.getElem?_eq_getElem hi)))
    simp only at this
    rw [this]; congr 2; omega
  · rw [hd 0 (fun h => by have := hpp.mem_iff.1 h; simp at this)]; simp [upd]
  · intro y hy ht
    refine hs y ?_ (by omega)
    rw [List.mem_append, not_or]
    refine ⟨fun h => ?_, fun h => hy (bindersI_sub hL h)⟩
    obtain ⟨a, ha, e1⟩ := List.mem_map.1 h
    obtain ⟨j, h1, h2, h3⟩ := hid a ha
    rw [← e1, h1, lexId_ts] at ht; omega

/-- **Jumps.** -/
theorem jump_ok {n : Nat} {e0 : Exp} {es : List Exp} {g : Id} {ps xs ls : List Id} {Γ : Labels} {N : Nat} {ρ : Env} {κ : Kont} {σ : Store W} {fr : Frame} {val : Val}
    {xsL : List Id} {ρL : Env} (B : List Id) (N' : Nat) (fr0 : Frame)
    (hC : ∀ m ≤ n, (G.at m).OK) (hE : StatE G es xs ls Γ N) (he : ∀ e ∈ es, BodyOK G e) (hr : Agr xs ρ fr) (hg : σ.glob G.f = some G.clos)
    (he0 : ∀ κ' (σ' : Store W), σ'.glob G.f = some G.clos → ∃ m, Runs G.M m (.ev e0 ρ κ' σ') (.ret val κ' σ'))
    (hp : params g Γ = some ps) (har : ps.length = es.length) (hts : ∀ p ∈ ps, p.ts < N) (hn : ps.Nodup) (hx : xsL ⊆ xs) (hlk : ∀ x ∈ xsL, ρ.lookup x = ρL.lookup x) (hpx : ∀ p ∈ ps, p ∉ xsL)
    (hj : ∀ (fr : Frame) vs κ σ, σ.glob G.f = some G.clos → ps.length = vs.length → Agr xsL ρL fr → (∀ (i : Nat) p, ps[i]? = some p → fr p = vs[i]?) →
      Sim G.M n (.ap val vs κ σ) (G.jump n (.id g) fr σ) (Ret κ σ)) :
    Sim G.M (n + 1) (.ev (.app e0 es) ρ κ σ) (G.ex n (appCode G.T G.f g es .ret Γ N (cgRevApp G.T G.f es N Γ (N + es.length))).1 fr σ) (Post G n .ret B N' κ fr0 σ) := by
  -- after the assignments
  have fin : ∀ (d' : Nat → Val) (fr' fr2 : Frame) (σ' : Store W), σ'.glob = σ.glob → d' 0 = val → Agr xs ρ fr2 → (∀ y, y ∉ ps → fr' y = fr2 y) → (∀ (j : Nat) p, ps[j]? = some p → fr' p = some (d' (1 + j))) →
      Sim G.M (n + 1) (.args .call (e0 :: es) d' [] ρ κ σ') (execs G.M (callee G.M G.P n) [.goto (.id g)] fr' σ') (Post G n .ret B N' κ fr0 σ) := by
    intro d' fr' fr2 σ' hg' hd hr2 hf hpv
    rw [execs_one, exec]
    refine Sim.ok ⟨by simp, ?_⟩
    show Sim _ _ _ (G.jump n (.id g) fr' σ') _
    refine Sim.step (any_call (f := val) (vs := (List.range' 1 es.length).map d') (by rw [List.length_cons, vals_cons, hd]) _ _ _) ?_
    refine (hj fr' _ κ σ' (by rw [hg']; exact hg) (by simp [har]) ?_ ?_).imp (fun r t h => ⟨h.1, h.2.trans hg'⟩)
    · intro x hxl
      obtain ⟨v, h1, h2⟩ := hr2 x (hx hxl)
      exact ⟨v, by rw [← hlk x hxl]; exact h1, by rw [hf x (fun h => hpx x h hxl)]; exact h2⟩
    · intro i p hip
      have hi : i < es.length := by rw [← har]; exact (List.getElem?_eq_some_iff.1 hip).1
      rw [hpv i p hip]
      simp [hi]
  unfold appCode
  rw [hp]
  simp only
  split
  · rename_i hv
    rw [Option.any_eq_true] at hv
    obtain ⟨ys, h1, h2⟩ := hv
    have h2 : ∀ y ∈ ys, y ∉ ps := fun y hy => by simpa using List.all_eq_true.1 h2 y hy
    have h1 := varIds_eq h1
    subst h1
    rw [cgCexps_vars, jumpTo]
    refine Sim.step' (any_app e0 (ys.map .var) (0 :: List.range' 1 ys.length) (by rw [List.length_cons, List.range_eq_range', List.range'_succ, List.length_map]) _ _ _) ?_
    refine Sim.step' (any_arg (e := e0) rfl _ _ _) ?_
    obtain ⟨m0, hm0⟩ := he0 (.args .call (e0 :: ys.map .var) (fun _ => .trap) 0 (List.range' 1 ys.length) ρ κ) σ hg
    refine (Sim.runs (n := n + 1) hm0 ?_).mono (by omega)
    refine Sim.step' (any_ret _ _ _ _ _ _ _ _ _) ?_
    show Sim _ _ _ (execs _ _ _ _ _) _
    refine sim_seq (Q := fun fr' σ' s => σ' = σ ∧ ∃ d', s = .args .call (e0 :: ys.map .var) d' [] ρ κ σ ∧ d' 0 = val ∧ (∀ (j : Nat) p, ps[j]? = some p → fr' p = some (d' (1 + j))) ∧ ∀ y, y ∉ ps → fr' y = fr y)
      ((assigns_ok ps ys 1 _ fr (by simpa using har) hn h2 ?_ ?_).imp ?_) ?_
    · intro y hy hyg
      have := agStacks_mem hE.ag (.var y) (by simp [hy])
      simp only [agStack, Bool.or_eq_true, List.contains_iff_mem] at this
      rcases this with h | h
      · exact hr y h
      · rw [(hC n (Nat.le_refl _)).known y h] at hyg; cases hyg
    · intro j y hy
      rw [show 1 + j = j + 1 by omega]; simp [hy]
    · rintro fl s ⟨fr', d', rfl, rfl, h3, h4, h5⟩
      exact ⟨fr', σ, rfl, rfl, d', rfl, by rw [h4 0 (by omega)]; simp [upd], h3, h5⟩
    · rintro fr' σ' s ⟨rfl, d', rfl, h3, h4, h5⟩
      exact fin d' fr' fr σ' rfl h3 hr h5 h4
  · refine temps_ok (val := val) hC hE he hr hg he0 (fun d' fr2 σ' hg' hv hd hs hr2 => ?_)
    rw [jumpTo]
    have htl : ∀ t ∈ temps N es.length, t ∉ ps := fun t ht h => by
      obtain ⟨j, rfl, h2, h3⟩ := temps_mem ht
      have := hts _ h; rw [lexId_ts] at this; omega
    obtain ⟨fr', h1, h2, h3⟩ := assigns_exec (M := G.M) (F := callee G.M G.P n) (σ := σ') ps (temps N es.length) fr2 (by rw [temps_length, har]) hn htl (fun t ht => by
        obtain ⟨j, rfl, -, -⟩ := temps_mem ht; exact lexId_local j) (fun t ht => by
        obtain ⟨j, rfl, h4, h5⟩ := temps_mem ht
        have := hv (j - N) (by omega)
        rw [show N + (j - N) = j by omega] at this
        exact ⟨_, this⟩)
    show Sim _ _ _ (execs _ _ _ _ _) _
    rw [execs_append, h1]
    show Sim _ _ _ (execs _ _ _ _ _) _
    refine fin d' fr' fr2 σ' hg' hd hr2 h3 (fun j p hjp => ?_)
    obtain ⟨t, h4, h5⟩ := h2 j p hjp
    have hj' : j < es.length := by rw [← har]; exact (List.getElem?_eq_some_iff.1 hjp).1
    rw [temps_get _ _ _ hj'] at h4
    injection h4 with h4; subst h4
    rw [h5, hv j hj']; congr 2; omega

/-! ### calls -/

theorem evalCs_temps {M : Sem W} {F : Callee W} {fr : Frame} {σ : Store W} {d : Nat → Val} : ∀ (k N i : Nat), (∀ j, j < k → fr (lexId (N + j)) = some (d (i + j))) →
    evalCs M F fr ((temps N k).map .var) σ = .ok ((List.range' i k).map d, σ)
  | 0, _, _, _ => by simp [temps, evalCs]
  | k + 1, N, i, h => by
    have h0 := h 0 (by omega)
    rw [Nat.add_zero, Nat.add_zero] at h0
    have := evalCs_temps (M := M) (F := F) (fr := fr) (σ := σ) (d := d) k (N + 1) (i + 1) (fun j hj => by
      rw [show N + 1 + j = N + (j + 1) by omega, show i + 1 + j = i + (j + 1) by omega]; exact h (j + 1) (by omega))
    simp only [temps, List.map_cons, evalCs, evalC, lexId_local, Bool.false_eq_true, if_false, h0, Res.bind, this, List.range'_succ]

theorem areCexp_vars (T : Texts) (f : Id) (ys : List Id) : areCexp T f (ys.map .var) = true := by
  induction ys with
  | nil => rfl
  | cons y ys ih => simp [areCexp, isCexp, ih]

theorem call_ok {g : Id} {es : List Exp} (he : ∀ e ∈ es, BodyOK G e) : BodyOK G (.app (.var g) es) := by
  intro n t xs ls Γ N ρ κ σ fr hS hD
  have ag := hS.ag; have sn := hS.sn
  simp only [agStack, Bool.and_eq_true, Bool.or_eq_true, decide_eq_true_eq] at ag
  simp only [sane, Bool.and_eq_true] at sn
  have hE : StatE G es xs ls Γ N := ⟨ag.2, sn.2, by simpa [binders] using hS.nd, fun x h => hS.lc x (by simp [binders, h]), fun x h => hS.bts x (by simp [binders, h]),
    fun x hx h => hS.dis x hx (by simp [binders, h]), hS.xts⟩
  rw [cgBody]
  cases hp : params g Γ with
  | none =>
    simp only [appCode, hp]
    show Sim _ _ _ (execs _ _ _ _ _) _
    rw [execs_one, exec]; trivial
  | some ps =>
    have har : ps.length = es.length := by
      have := sn.1
      simpa only [arity, hp, decide_eq_true_eq] using this
    by_cases ht : t = .ret
    · subst ht
      obtain ⟨h1, h2, xsL, ρL, val, h3, h4, h5, h6, h7, h8⟩ := hD.labs rfl g ps hp
      refine jump_ok (val := val) (binders _) N fr hD.calls hE he hD.agr hD.glob ?_ hp har h2 h6 h3 h4 h5 (h8 n (Nat.le_refl _))
      intro κ' σ' hg
      rcases h7 with ⟨rfl, rfl⟩ | ⟨h7, h7'⟩
      · exact ⟨1, .one (any_var_glob (hD.calls n (Nat.le_refl _)).glob hg _ _)⟩
      · exact ⟨1, .one (any_var_loc h7 h7' _ _)⟩
    · have hgf : g = G.f := by
        rcases ag.1 with h | h
        · exact h
        · exact absurd h.1 ht
      subst hgf
      have hj : ∀ args, jumpTo G.f G.f ps args t = [.put t (.call args)] := by
        intro args
        cases t with
        | ret => exact absurd rfl ht
        | var x => simp [jumpTo]
        | void => simp [jumpTo]
      unfold appCode
      rw [hp]
      simp only [hj]
      split
      · rename_i hv
        rw [Option.any_eq_true] at hv
        obtain ⟨ys, h1, h2⟩ := hv
        have h1 := varIds_eq h1
        subst h1
        exact cexp_put (e := .app (.var G.f) (ys.map .var)) (by simp [isCexp, areCexp_vars]) hS hD
      · refine temps_ok (val := G.clos) hD.calls hE he hD.agr hD.glob (fun κ' σ' hg => ⟨1, .one (any_var_glob (hD.calls n (Nat.le_refl _)).glob hg _ _)⟩) (fun d' fr2 σ' hg' hv hd hs hr2 => ?_)
        refine sim_put hg' (hs.weak (fun x h => by simp [binders, h]) (Nat.le_refl _)) ?_
        rw [evalC, evalCs_temps es.length N 1 (fun j hj => by rw [hv j hj]; congr 2; omega)]
        refine Sim.step (any_call (f := G.clos) (vs := (List.range' 1 es.length).map d') (by rw [List.length_cons, vals_cons, hd]) _ _ _) ?_
        exact (hD.calls n (Nat.le_refl _)).call _ κ σ' (by rw [hg']; exact hD.glob)

/-! ### groups of procedures -/

theorem params_mem {g : Id} {ps : List Id} : ∀ {Γ : Labels}, params g Γ = some ps → (g, ps) ∈ Γ
  | [], h => by simp [params] at h
  | (h', qs) :: Γ, h => by
    rw [params] at h
    split at h
    · rename_i e; subst e; injection h with h; subst h; simp
    · exact List.mem_cons_of_mem _ (params_mem h)

theorem params_append {g : Id} {A Γ : Labels} {ps : List Id} (h : params g (A ++ Γ) = some ps) : (g, ps) ∈ A ∨ ((∀ qs, (g, qs) ∉ A) ∧ params g Γ = some ps) := by
  induction A with
  | nil => exact .inr ⟨by simp, h⟩
  | cons a A ih =>
    obtain ⟨h', qs⟩ := a
    rw [List.cons_append, params] at h
    split at h
    · rename_i e; subst e; injection h with h; subst h; simp
    · rename_i hne
      rcases ih h with h1 | ⟨h1, h2⟩
      · exact .inl (by simp [h1])
      · refine .inr ⟨fun qs' hm => ?_, h2⟩
        rcases List.mem_cons.1 hm with e | hm
        · injection e with e1 e2; exact hne e1.symm
        · exact h1 _ hm

/-- labels of a group, or from outside. -/
theorem params_register {g : Id} {ids : List Id} {lams : List Exp} {Γ : Labels} {ps : List Id} (hl : ids.length = lams.length) (hlam : ∀ l ∈ lams, ∃ ps b, l = .lam ps b)
    (h : params g (register ids lams Γ) = some ps) : (∃ (i : Nat) (b : Exp), ids[i]? = some g ∧ lams[i]? = some (.lam ps b)) ∨ (g ∉ ids ∧ params g Γ = some ps) := by
  rcases params_append h with h | ⟨h1, h2⟩
  · rw [List.mem_reverse] at h
    obtain ⟨i, hi⟩ := List.getElem?_of_mem h
    rw [List.getElem?_zip_eq_some] at hi
    obtain ⟨h1, h2⟩ := hi
    rw [List.getElem?_map, Option.map_eq_some_iff] at h2
    obtain ⟨l, h3, h4⟩ := h2
    obtain ⟨qs, b, rfl⟩ := hlam l (List.mem_of_getElem? h3)
    simp only [lamIds] at h4; subst h4
    exact .inl ⟨i, b, h1, h3⟩
  · refine .inr ⟨fun hm => ?_, h2⟩
    obtain ⟨i, hi⟩ := List.getElem?_of_mem hm
    have hlt : i < lams.length := by rw [← hl]; exact (List.getElem?_eq_some_iff.1 hi).1
    refine h1 (lamIds lams[i]) (List.mem_reverse.2 (List.mem_of_getElem? (i := i) ?_))
    rw [List.getElem?_zip_eq_some]
    exact ⟨hi, by simp [List.getElem?_map, List.getElem?_eq_getElem hlt]⟩

/-- A group of procedures and where it is. -/
structure Grp (G : Prog W) (ids : List Id) (lams : List Exp) (xs ls B : List Id) (Γ : Labels) (N : Nat) : Prop where
  nd : ids.Nodup
  len : ids.length = lams.length
  lam : ∀ l ∈ lams, ∃ ps b, l = .lam ps b
  lc : ∀ x ∈ B, x.isGlobal = false
  idB : ids ⊆ B
  xB : ∀ x ∈ xs, x ∉ B
  ts : ∀ x ∈ B, x.ts < N
  xts : ∀ x ∈ xs, x.ts < N
  psn : ∀ ps b, .lam ps b ∈ lams → (ps ++ binders b).Nodup ∧ ps ++ binders b ⊆ B ∧ ∀ x ∈ ps ++ binders b, x ∉ ids
  ag : ∀ ps b, .lam ps b ∈ lams → agStack G.f G.known b (ps ++ xs) (ids ++ ls) true = true
  sn : ∀ ps b, .lam ps b ∈ lams → sane b (register ids lams Γ) true = true

/-- Jumps to the labels of the group. -/
def New (G : Prog W) (k : Nat) (ids : List Id) (lams : List Exp) (xs : List Id) (ρ : Env) : Prop :=
  ∀ (i : Nat) g ps b, ids[i]? = some g → lams[i]? = some (.lam ps b) → ∀ (fr : Frame) vs κ σ, σ.glob G.f = some G.clos → ps.length = vs.length → Agr xs (.fix ids lams ρ) fr →
    (∀ (i : Nat) p, ps[i]? = some p → fr p = vs[i]?) → Sim G.M k (.ap (.rclos ids lams i ρ) vs κ σ) (G.jump k (.id g) fr σ) (Ret κ σ)

/-- all labels in the scope of the group. -/
theorem Grp.labs {ids : List Id} {lams : List Exp} {xs ls B : List Id} {Γ : Labels} {N N' n m : Nat} {ρ ρ' : Env} {B' ys : List Id} (hG : Grp G ids lams xs ls B Γ N)
    (old : Labs G n B xs ρ Γ N) (new : ∀ k ≤ m, New G k ids lams xs ρ) (hm : m ≤ n) (hB : B' ⊆ B) (hB' : ∀ x ∈ ids, x ∉ B') (hN : N ≤ N') (hys : xs ⊆ ys)
    (hlk : ∀ y, y ∈ xs ∨ y ∉ B ∨ y ∈ ids → ρ'.lookup y = (Env.fix ids lams ρ).lookup y) : Labs G m B' ys ρ' (register ids lams Γ) N' := by
  intro g ps hp
  have hfix : ∀ y, y ∉ ids → (Env.fix ids lams ρ).lookup y = ρ.lookup y := fun y hy => by rw [Env.lookup, idxOf_none hy]
  rcases params_register hG.len hG.lam hp with ⟨i, b, h1, h2⟩ | ⟨h1, h2⟩
  · have hgm : g ∈ ids := List.mem_of_getElem? h1
    obtain ⟨h3, h4, h5⟩ := hG.psn ps b (List.mem_of_getElem? h2)
    refine ⟨hB' g hgm, fun p hpm => ?_, xs, .fix ids lams ρ, .rclos ids lams i ρ, hys, fun x hx => hlk x (.inl hx), fun p hpm hx => hG.xB p hx (h4 (by simp [hpm])), (List.nodup_append.1 h3).1,
      .inr ⟨hG.lc g (hG.idB hgm), ?_⟩, ?_⟩
    · have := hG.ts p (h4 (by simp [hpm])); omega
    · rw [hlk g (.inr (.inr hgm)), Env.lookup, idxOf_some hG.nd h1]
    · intro k hk fr vs κ σ e1 e2 e3 e4
      exact new k hk i g ps b h1 h2 fr vs κ σ e1 e2 e3 e4
  · refine (old.env (ρ' := ρ') hB hN hys hm ?_) g ps h2
    rintro y (hy | hy)
    · rw [hlk y (.inl hy), hfix y (fun h => hG.xB y hy (hG.idB h))]
    · rw [hlk y (.inr (.inl hy)), hfix y (fun h => hy (hG.idB h))]

/-- the labels of the group, by induction on the fuel. -/
theorem Grp.new {ids : List Id} {lams : List Exp} {xs ls B : List Id} {Γ : Labels} {N n : Nat} {ρ : Env} (hG : Grp G ids lams xs ls B Γ N) (hC : ∀ m ≤ n, (G.at m).OK)
    (old : Labs G n B xs ρ Γ N) (hb : ∀ ps b, .lam ps b ∈ lams → BodyOK G b)
    (hf : ∀ (i : Nat) g ps b, ids[i]? = some g → lams[i]? = some (.lam ps b) → findLabel (.id g) G.P.code = none ∨
      ∃ M rest, N ≤ M ∧ findLabel (.id g) G.P.code = some ((cgBody G.T G.f b .ret (register ids lams Γ) M).1 ++ rest) ∧ Loc G (binders b) (cgBody G.T G.f b .ret (register ids lams Γ) M).1) :
    ∀ m ≤ n, ∀ k ≤ m, New G k ids lams xs ρ := by
  intro m
  induction m with
  | zero =>
    intro hm k hk i g ps b h1 h2 fr vs κ σ _ _ _ _
    obtain rfl : k = 0 := by omega
    rcases hf i g ps b h1 h2 with h | ⟨M, rest, h3, h4, h5⟩
    · simp only [Prog.jump, h]; trivial
    · simp only [Prog.jump, h4, run]; exact ⟨0, _, Nat.le_refl _, .refl _⟩
  | succ m ih =>
    intro hm k hk
    by_cases hk' : k ≤ m
    · exact ih (by omega) k hk'
    obtain rfl : k = m + 1 := by omega
    intro i g ps b h1 h2 fr vs κ σ hg hl hr hv
    rcases hf i g ps b h1 h2 with h | ⟨M, rest, h3, h4, h5⟩
    · simp only [Prog.jump, h]; trivial
    simp only [Prog.jump, h4]
    rw [run_succ]
    have hmem := List.mem_of_getElem? h2
    obtain ⟨h6, h7, h8⟩ := hG.psn ps b hmem
    rw [List.nodup_append] at h6
    have hpd : ∀ x ∈ xs, x ∉ ps := fun x hx h => hG.xB x hx (h7 (by simp [h]))
    refine Sim.step' (any_rclos h2 hl _ _ _) ?_
    refine Sim.bind (sim_cut (B' := binders b) (N' := M) (fr1 := fr) (hb ps b hmem m .ret (ps ++ xs) (ids ++ ls) (register ids lams Γ) M _ κ σ fr ?_ ?_)) (fun fl s h => h.2)
    · refine ⟨by simpa using hG.ag ps b hmem, by simpa using hG.sn ps b hmem, h6.2.1, fun x hx => hG.lc x (h7 (by simp [hx])), fun x hx => ?_, ?_, ?_, by simp⟩
      · have := hG.ts x (h7 (by simp [hx])); omega
      · intro x hx h
        rcases List.mem_append.1 hx with hx | hx
        · exact h6.2.2 x hx x h rfl
        · exact hG.xB x hx (h7 (by simp [h]))
      · intro x hx
        rcases List.mem_append.1 hx with hx | hx
        · have := hG.ts x (h7 (by simp [hx])); omega
        · have := hG.xts x hx; omega
    · refine ⟨fun k hk => hC k (by omega), agr_bind h6.1 hl hv hpd hr, hg, fun _ => ?_, fun _ => h5⟩
      refine hG.labs old (fun k hk => ih (by omega) k hk) (by omega) (fun x hx => h7 (by simp [hx])) (fun x hx h => h8 x (by simp [h]) hx) h3 (by simp) ?_
      rintro y (hy | hy | hy)
      · exact bindAll_lookup_not (hpd y hy)
      · exact bindAll_lookup_not (fun h => hy (h7 (by simp [h])))
      · exact bindAll_lookup_not (fun h => h8 y (by simp [h]) hy)

theorem decls_none {M : Sem W} {F : Callee W} {σ : Store W} : ∀ (ps : List Id) (fr : Frame), ∃ fr', execs M F (ps.map (Stmt.decl · none)) fr σ = .ok (.next fr' σ) ∧ ∀ y, y ∉ ps → fr' y = fr y
  | [], fr => ⟨fr, rfl, fun _ _ => rfl⟩
  | p :: ps, fr => by
    obtain ⟨fr', h1, h2⟩ := decls_none (M := M) (F := F) (σ := σ) ps (fr.set p none)
    refine ⟨fr', by simp only [List.map_cons, execs, exec, Res.bind]; exact h1, fun y hy => ?_⟩
    rw [List.mem_cons, not_or] at hy
    rw [h2 y hy.2, Frame.set, if_neg hy.1]

theorem agLams_mem {f : Id} {known : Id → Bool} : ∀ {lams : List Exp} {xs ls : List Id}, agLams f known lams xs ls = true → ∀ l ∈ lams, ∃ ps b, l = .lam ps b ∧ agStack f known b (ps ++ xs) ls true = true
  | [], _, _, _, l, hl => by cases hl
  | e :: lams, xs, ls, h, l, hl => by
    unfold agLams at h
    split at h
    · rename_i heq; cases heq
    · rename_i ps b es heq
      injection heq with h1 h2; subst h1; subst h2
      rw [Bool.and_eq_true] at h
      rcases List.mem_cons.1 hl with rfl | hl
      · exact ⟨ps, b, rfl, h.1⟩
      · exact agLams_mem h.2 l hl
    · cases h

theorem saneLams_mem : ∀ {lams : List Exp} {Γ : Labels}, saneLams lams Γ = true → ∀ ps b, .lam ps b ∈ lams → sane b Γ true = true
  | [], _, _, _, _, hl => by cases hl
  | e :: lams, Γ, h, ps, b, hl => by
    unfold saneLams at h
    split at h
    · rename_i heq; cases heq
    · rename_i ps' b' es heq
      injection heq with h1 h2; subst h1; subst h2
      rw [Bool.and_eq_true] at h
      rcases List.mem_cons.1 hl with e | hl
      · injection e with e1 e2; subst e2; exact h.1
      · exact saneLams_mem h.2 ps b hl
    · cases h

/-- where the code for a procedure of a group is. -/
theorem cgLams_find {T : Texts} {f : Id} {u : Id → Bool} {d : Option Nat} {t : Tgt} {Γ : Labels} : ∀ (ids : List Id) (lams : List Exp) (n : Nat), ids.Nodup → (bindersAll lams).Nodup →
    (∀ x ∈ ids, x ∉ bindersAll lams) → ∀ (i : Nat) g ps b, ids[i]? = some g → lams[i]? = some (.lam ps b) → findLabel (.id g) (cgLams T f u d ids lams t Γ n).1 = none ∨
      ∃ M rest, n ≤ M ∧ findLabel (.id g) (cgLams T f u d ids lams t Γ n).1 = some ((cgBody T f b t Γ M).1 ++ rest) ∧
        ∀ x ∈ binders b, findLabel (.id x) (cgLams T f u d ids lams t Γ n).1 = (findLabel (.id x) (cgBody T f b t Γ M).1).map (· ++ rest)
  | [], _, _, _, _, _, _, _, _, _, h, _ => by simp at h
  | _ :: _, [], _, _, _, _, _, _, _, _, _, h => by simp at h
  | y :: ids, l :: lams, n, hn, hb, hd, i, g, ps, b, h1, h2 => by
    rw [List.nodup_cons] at hn
    simp only [bindersAll, List.nodup_append] at hb
    have hd2 : ∀ x ∈ ids, x ∉ bindersAll lams := fun x hx h => hd x (by simp [hx]) (by simp [bindersAll, h])
    cases i with
    | zero =>
      simp at h1 h2; subst h1; subst h2
      simp only [cgLams]
      by_cases hu : u y = true
      · simp only [hu, if_true]
        refine .inr ⟨n, gotoDone d ++ (cgLams T f u d ids lams t Γ (cgBody T f b t Γ n).2).1, Nat.le_refl _, ?_, fun x hx => ?_⟩
        · simp [findLabel, findStmt]
        · have hxy : y ≠ x := fun e => hd y (by simp) (by simp [bindersAll, binders, e, hx])
          have hxi : x ∉ ids := fun h => hd x (by simp [h]) (by simp [bindersAll, binders, hx])
          have hxl : x ∉ bindersAll lams := fun h => hb.2.2 x (by simp [binders, hx]) x h rfl
          rw [findLabel_left ((cg_labels T f x).2.1 u d ids lams t Γ _ hxi hxl), findLabel, findStmt, if_neg (by intro e; injection e with e; exact hxy e), findLabel_left (findLabel_gotoDone d), Option.map_map]
          congr 1; funext c; simp
      · simp only [hu]
        exact .inl ((cg_labels T f y).2.1 u d ids lams t Γ n hn.1 (fun h => hd y (by simp) (by simp [bindersAll, h])))
    | succ i =>
      have h1' : ids[i]? = some g := by simpa using h1
      have h2' : lams[i]? = some (.lam ps b) := by simpa using h2
      have hg : g ∈ ids := List.mem_of_getElem? h1'
      have hm := List.mem_of_getElem? h2'
      have skip : ∀ (k : List Stmt) (m : Nat), n ≤ m → (∀ x, x ∉ y :: binders l → findLabel (.id x) k = none) →
          findLabel (.id g) (k ++ (cgLams T f u d ids lams t Γ m).1) = none ∨
          ∃ M rest, n ≤ M ∧ findLabel (.id g) (k ++ (cgLams T f u d ids lams t Γ m).1) = some ((cgBody T f b t Γ M).1 ++ rest) ∧
            ∀ x ∈ binders b, findLabel (.id x) (k ++ (cgLams T f u d ids lams t Γ m).1) = (findLabel (.id x) (cgBody T f b t Γ M).1).map (· ++ rest) := by
        intro k m hnm hk
        have hgk : findLabel (.id g) k = none := hk g (by
          rw [List.mem_cons, not_or]
          exact ⟨fun e => hn.1 (e ▸ hg), fun h => hd g (by simp [hg]) (by simp [bindersAll, h])⟩)
        rcases cgLams_find ids lams m hn.2 hb.2.1 hd2 i g ps b h1' h2' with h | ⟨M, rest, h3, h4, h5⟩
        · exact .inl (by rw [findLabel_right hgk, h])
        · refine .inr ⟨M, rest, by omega, by rw [findLabel_right hgk, h4], fun x hx => ?_⟩
          have hx' : x ∈ bindersAll lams := mem_bindersAll.2 ⟨_, hm, by simp [binders, hx]⟩
          rw [findLabel_right (hk x ?_), h5 x hx]
          rw [List.mem_cons, not_or]
          exact ⟨fun e => hd y (by simp) (by simp [bindersAll, ← e, hx']), fun h => hb.2.2 x h x hx' rfl⟩
      cases l with
      | lam qs b' =>
        simp only [cgLams]
        split
        · refine skip (.label (.id y) :: ((cgBody T f b' t Γ n).1 ++ gotoDone d)) _ ((cg_mono T f).1 b' t Γ n) (fun x hx => ?_)
          rw [List.mem_cons, not_or] at hx
          rw [findLabel, findStmt, if_neg (by intro e; injection e with e; exact hx.1 e.symm)]
          exact findLabel_none ((cg_labels T f x).1 b' t Γ n (fun h => hx.2 (by simp [binders, h]))) (findLabel_gotoDone d)
        · exact skip [] n (Nat.le_refl _) (fun x _ => rfl)
      | _ => exact .inl (by simp [cgLams, findLabel])

theorem fix_ok {ids : List Id} {lams : List Exp} {b : Exp} (hb : BodyOK G b) (hl : ∀ ps b, .lam ps b ∈ lams → BodyOK G b) : BodyOK G (.fix ids lams b) := by
  intro n t xs ls Γ N ρ κ σ fr hS hD
  have ag := hS.ag; have sn := hS.sn; have nd := hS.nd
  simp only [agStack, Bool.and_eq_true] at ag
  simp only [sane, Bool.and_eq_true, decide_eq_true_eq] at sn
  simp only [binders, List.nodup_append] at nd
  obtain ⟨⟨⟨rfl, hlen⟩, snb⟩, snl⟩ := sn
  simp only [decide_true] at ag
  have hlam := agLams_mem ag.2
  have hI : ids ⊆ binders (.fix ids lams b) := fun x h => by simp [binders, h]
  have hB : binders b ⊆ binders (.fix ids lams b) := fun x h => by simp [binders, h]
  have hLB : bindersAll lams ⊆ binders (.fix ids lams b) := fun x h => by simp [binders, h]
  have hG : Grp G ids lams xs ls (binders (.fix ids lams b)) Γ (N + 1) := {
    nd := nd.1
    len := hlen
    lam := fun l h => by obtain ⟨ps, b, h, -⟩ := hlam l h; exact ⟨ps, b, h⟩
    lc := hS.lc
    idB := hI
    xB := hS.dis
    ts := fun x hx => by have := hS.bts x hx; omega
    xts := fun x hx => by have := hS.xts x hx; omega
    psn := fun ps b' h => ⟨by simpa [binders] using nodup_bindersAll nd.2.1.1 _ h, fun x hx => hLB (mem_bindersAll.2 ⟨_, h, by simpa [binders] using hx⟩),
      fun x hx hi => nd.2.2 x hi x (by simp only [List.mem_append]; exact .inl (mem_bindersAll.2 ⟨_, h, by simpa [binders] using hx⟩)) rfl⟩
    ag := fun ps b' h => by
      obtain ⟨ps', b'', e, h'⟩ := hlam _ h
      injection e with e1 e2; subst e1; subst e2; exact h'
    sn := fun ps b' h => saneLams_mem snl ps b' h }
  have hlo := hD.loc rfl
  have e1 : cgBody G.T G.f (.fix ids lams b) .ret Γ N = ([.block ((lams.map lamIds).flatten.map (Stmt.decl · none) ++ ((cgBody G.T G.f b .ret (register ids lams Γ) (N + 1)).1 ++ [] ++
      (cgLams G.T G.f (fun g => tc g b || tcLams g lams) none ids lams .ret (register ids lams Γ) (cgBody G.T G.f b .ret (register ids lams Γ) (N + 1)).2).1 ++ []))],
      (cgLams G.T G.f (fun g => tc g b || tcLams g lams) none ids lams .ret (register ids lams Γ) (cgBody G.T G.f b .ret (register ids lams Γ) (N + 1)).2).2) := by
    rw [cgBody]; simp [gotoDone, labelDone]
  rw [e1] at hlo ⊢
  simp only [List.append_nil] at hlo ⊢
  have mono := (cg_mono G.T G.f).1 b .ret (register ids lams Γ) (N + 1)
  generalize hcl : cgLams G.T G.f (fun g => tc g b || tcLams g lams) none ids lams .ret (register ids lams Γ) (cgBody G.T G.f b .ret (register ids lams Γ) (N + 1)).2 = cl at hlo ⊢
  have hold : Labs G n (binders (.fix ids lams b)) xs ρ Γ (N + 1) := (hD.labs rfl).mono (List.Subset.refl _) (by omega)
  have hnew := hG.new (ρ := ρ) hD.calls hold hl (fun i g ps b' h1 h2 => by
    have hg : g ∈ ids := List.mem_of_getElem? h1
    obtain ⟨k, hk⟩ := hlo
    have find : ∀ x, x ∈ ids ∨ x ∈ bindersAll lams → findLabel (.id x) G.P.code = (findLabel (.id x) cl.1).map (· ++ k) := by
      intro x hx
      have hxb : x ∉ binders b := fun h => by
        rcases hx with hx | hx
        · exact nd.2.2 x hx x (by simp [h]) rfl
        · exact nd.2.1.2.2 x hx x h rfl
      rw [hk x (hx.elim (fun h => hI h) (fun h => hLB h)), findLabel_block, findLabel_right (findLabel_map _), findLabel_right ((cg_labels G.T G.f x).1 b _ _ _ hxb)]
    have hfl := cgLams_find (T := G.T) (f := G.f) (u := fun g => tc g b || tcLams g lams) (d := none) (t := .ret) (Γ := register ids lams Γ) ids lams
      (cgBody G.T G.f b .ret (register ids lams Γ) (N + 1)).2 nd.1 nd.2.1.1 (fun x hx h => nd.2.2 x hx x (by simp [h]) rfl) i g ps b' h1 h2
    rw [hcl] at hfl
    rcases hfl with h | ⟨M, rest, h3, h4, h5⟩
    · exact .inl (by rw [find g (.inl hg), h]; rfl)
    · refine .inr ⟨M, rest ++ k, by omega, by rw [find g (.inl hg), h4]; simp, rest ++ k, fun x hx => ?_⟩
      rw [find x (.inr (mem_bindersAll.2 ⟨_, List.mem_of_getElem? h2, by simp [binders, hx]⟩)), h5 x hx, Option.map_map]
      congr 1; funext c; simp) n (Nat.le_refl _)
  obtain ⟨fr1, hd1, hd2⟩ := decls_none (M := G.M) (F := callee G.M G.P n) (σ := σ) (lams.map lamIds).flatten fr
  show Sim _ _ _ (execs _ _ _ _ _) _
  rw [execs_block, execs_append, hd1]
  show Sim _ _ _ (execs _ _ _ _ _) _
  refine Sim.step' (any_fix _ _ _ _ _ _) ?_
  have hfix : ∀ y ∈ xs, (Env.fix ids lams ρ).lookup y = ρ.lookup y := fun y hy => by rw [Env.lookup, idxOf_none (fun h => hS.dis y hy (hI h))]
  have hps : ∀ y ∈ xs, y ∉ (lams.map lamIds).flatten := by
    intro y hy h
    rw [List.mem_flatten] at h
    obtain ⟨qs, h1, h2⟩ := h
    obtain ⟨l, h3, rfl⟩ := List.mem_map.1 h1
    obtain ⟨ps, b', rfl, -⟩ := hlam l h3
    exact hS.dis y hy (hLB (mem_bindersAll.2 ⟨_, h3, by simp only [lamIds] at h2; simp [binders, h2]⟩))
  refine sim_cut (B := binders b) (N := N + 1) (fr0 := fr1) (hb n .ret xs (ids ++ ls) (register ids lams Γ) (N + 1) _ κ σ fr1 ?_ ?_)
  · exact ⟨by simpa using ag.1, by simpa using snb, nd.2.1.2.1, fun x hx => hS.lc x (hB hx), fun x hx => hG.ts x (hB hx), fun x hx h => hS.dis x hx (hB h), hG.xts, by simp⟩
  · refine ⟨hD.calls, ?_, hD.glob, fun _ => ?_, fun _ => ?_⟩
    · intro x hx
      obtain ⟨v, h1, h2⟩ := hD.agr x hx
      exact ⟨v, by rw [hfix x hx]; exact h1, by rw [hd2 x (hps x hx)]; exact h2⟩
    · exact hG.labs hold hnew (Nat.le_refl _) hB (fun x hx h => nd.2.2 x hx x (by simp [h]) rfl) (Nat.le_refl _) (List.Subset.refl _) (fun y _ => rfl)
    · refine hlo.sub hB cl.1 (fun x hx => ?_)
      have hn1 : findLabel (.id x) cl.1 = none := by
        rw [← hcl]
        exact (cg_labels G.T G.f x).2.1 _ none ids lams .ret _ _ (fun h => nd.2.2 x h x (by simp [hx]) rfl) (fun h => nd.2.1.2.2 x h x hx rfl)
      rw [findLabel_block, findLabel_right (findLabel_map _), findLabel_left hn1]

theorem loop_ok {x y : Id} {ps : List Id} {b : Exp} {es : List Exp} (hb : BodyOK G b) (he : ∀ e ∈ es, BodyOK G e) : BodyOK G (.app (.fix [x] [.lam ps b] (.var y)) es) := by
  intro n t xs ls Γ N ρ κ σ fr hS hD
  have ag := hS.ag; have sn := hS.sn; have nd := hS.nd
  simp only [agStack, Bool.and_eq_true, decide_eq_true_eq] at ag
  simp only [sane, Bool.and_eq_true, decide_eq_true_eq] at sn
  simp only [binders, bindersAll, List.append_nil, List.nodup_append, List.mem_append, List.mem_singleton] at nd
  obtain ⟨⟨⟨rfl, rfl⟩, age⟩, agb⟩ := ag
  have hBd : binders (.app (.fix [x] [.lam ps b] (.var x)) es) = x :: (ps ++ (binders b ++ bindersAll es)) := by simp [binders, bindersAll]
  have hXB : x ∈ binders (.app (.fix [x] [.lam ps b] (.var x)) es) := by rw [hBd]; simp
  have hB : binders b ⊆ binders (.app (.fix [x] [.lam ps b] (.var x)) es) := fun z h => by rw [hBd]; simp [h]
  have hP : ps ⊆ binders (.app (.fix [x] [.lam ps b] (.var x)) es) := fun z h => by rw [hBd]; simp [h]
  have hEB : bindersAll es ⊆ binders (.app (.fix [x] [.lam ps b] (.var x)) es) := fun z h => by rw [hBd]; simp [h]
  have nxp : ∀ z ∈ ps ++ binders b, z ≠ x := fun z hz e => nd.1.2.2 x rfl z (List.mem_append.1 hz) e.symm
  have nbe : ∀ z, z ∈ ps ++ binders b → z ∉ bindersAll es := fun z hz h => nd.2.2 z (.inr (List.mem_append.1 hz)) z h rfl
  have nxe : x ∉ bindersAll es := fun h => nd.2.2 x (.inl rfl) x h rfl
  have hG : Grp G [x] [.lam ps b] xs ls (binders (.app (.fix [x] [.lam ps b] (.var x)) es)) Γ (N + 1) := {
    nd := by simp
    len := rfl
    lam := fun l h => by rw [List.mem_singleton] at h; exact ⟨ps, b, h⟩
    lc := hS.lc
    idB := fun z hz => by rw [List.mem_singleton] at hz; subst hz; exact hXB
    xB := hS.dis
    ts := fun z hz => by have := hS.bts z hz; omega
    xts := fun z hz => by have := hS.xts z hz; omega
    psn := fun ps' b' h => by
      rw [List.mem_singleton] at h; injection h with h1 h2; subst h1; subst h2
      refine ⟨List.nodup_append.2 nd.1.2.1, fun z hz => ?_, fun z hz h => nxp z hz (List.mem_singleton.1 h)⟩
      rcases List.mem_append.1 hz with h | h
      · exact hP h
      · exact hB h
    ag := fun ps' b' h => by
      rw [List.mem_singleton] at h; injection h with h1 h2; subst h1; subst h2; exact agb
    sn := fun ps' b' h => by
      rw [List.mem_singleton] at h; injection h with h1 h2; subst h1; subst h2; exact sn.2 }
  have hlo := hD.loc rfl
  simp only [cgBody, if_true, gotoDone, labelDone, List.append_nil] at hlo ⊢
  have hE : StatE G es xs (x :: ls) (register [x] [.lam ps b] Γ) (N + 1) := ⟨age, sn.1.2, nd.2.1, fun z h => hS.lc z (hEB h), fun z h => by have := hS.bts z (hEB h); omega,
    fun z hz h => hS.dis z hz (hEB h), hG.xts⟩
  have mono1 := (cg_mono G.T G.f).2.2.2.2.1 es (N + 1) (register [x] [.lam ps b] Γ) (N + 1 + es.length)
  have mono := appCode_mono G.T G.f x es .ret (register [x] [.lam ps b] Γ) (N + 1) (cgRevApp G.T G.f es (N + 1) (register [x] [.lam ps b] Γ) (N + 1 + es.length)) (by omega)
  have hcb : ∀ z, z ∉ bindersAll es → findLabel (.id z) (appCode G.T G.f x es .ret (register [x] [.lam ps b] Γ) (N + 1) (cgRevApp G.T G.f es (N + 1) (register [x] [.lam ps b] Γ) (N + 1 + es.length))).1 = none :=
    fun z hz => findLabel_appCode ((cg_labels G.T G.f z).2.2.2.2.1 es _ _ _ hz)
  generalize hcbd : appCode G.T G.f x es .ret (register [x] [.lam ps b] Γ) (N + 1) (cgRevApp G.T G.f es (N + 1) (register [x] [.lam ps b] Γ) (N + 1 + es.length)) = cb at hlo hcb mono ⊢
  have hold : Labs G n (binders (.app (.fix [x] [.lam ps b] (.var x)) es)) xs ρ Γ (N + 1) := (hD.labs rfl).mono (List.Subset.refl _) (by omega)
  have hnew := hG.new (ρ := ρ) hD.calls hold (fun ps' b' h => by
      rw [List.mem_singleton] at h; injection h with h1 h2; subst h2; exact hb) (fun i g ps' b' h1 h2 => by
    obtain ⟨k, hk⟩ := hlo
    cases i with
    | succ i => simp at h1
    | zero =>
      simp at h1 h2
      subst h1; obtain ⟨rfl, rfl⟩ := h2
      refine .inr ⟨cb.2, k, mono, ?_, k, fun z hz => ?_⟩
      · rw [hk x hXB, findLabel_block, findLabel_right (findLabel_map _), findLabel_right (hcb x nxe)]
        simp [findLabel, findStmt]
      · rw [hk z (hB hz), findLabel_block, findLabel_right (findLabel_map _), findLabel_right (hcb z (nbe z (by simp [hz]))), findLabel, findStmt,
          if_neg (by intro e; injection e with e; exact nxp z (by simp [hz]) e.symm)]) n (Nat.le_refl _)
  obtain ⟨fr1, hd1, hd2⟩ := decls_none (M := G.M) (F := callee G.M G.P n) (σ := σ) ps fr
  show Sim _ _ _ (execs _ _ _ _ _) _
  rw [execs_block, execs_append, hd1]
  show Sim _ _ _ (execs _ _ _ _ _) _
  have hfix : ∀ z ∈ xs, (Env.fix [x] [.lam ps b] ρ).lookup z = ρ.lookup z := fun z hz => by rw [Env.lookup, idxOf_none (fun h => hS.dis z hz (hG.idB h))]
  have hr1 : Agr xs ρ fr1 := by
    intro z hz
    obtain ⟨v, h1, h2⟩ := hD.agr z hz
    exact ⟨v, h1, by rw [hd2 z (fun h => hS.dis z hz (hP h))]; exact h2⟩
  refine sim_cut (B := []) (N := 0) (fr0 := fr1) ?_
  rw [← hcbd]
  refine jump_ok (val := .rclos [x] [.lam ps b] 0 ρ) (ps := ps) (xsL := xs) (ρL := .fix [x] [.lam ps b] ρ) _ _ _ hD.calls hE he hr1 hD.glob ?_ (by simp [register, params, lamIds]) sn.1.1
    (fun p hp => hG.ts p (hP hp)) (List.nodup_append.1 (List.nodup_append.2 nd.1.2.1)).1 (List.Subset.refl _) (fun z hz => (hfix z hz).symm) (fun p hp h => hS.dis p h (hP hp)) ?_
  · intro κ' σ' hg
    exact ⟨2, .step (any_fix _ _ _ _ _ _) (.one (any_var_loc (hS.lc x hXB) (by simp [Env.lookup, idxOf]) _ _))⟩
  · intro fr' vs κ' σ' h1 h2 h3 h4
    exact hnew n (Nat.le_refl _) 0 x ps b rfl rfl fr' vs κ' σ' h1 h2 h3 h4

/-! ### all bodies -/

theorem ag_app {f : Id} {known : Id → Bool} {g : Exp} {es : List Exp} {xs ls : List Id} {t : Bool} (h : agStack f known (.app g es) xs ls t = true) :
    (∃ ids b, g = .lam ids b) ∨ (∃ x, g = .var x) ∨ ∃ x ps b y, g = .fix [x] [.lam ps b] (.var y) := by
  unfold agStack at h
  split at h
  all_goals first
    | (rename_i heq; injection heq with h1 h2; subst h1; simp; done)
    | (rename_i heq; cases heq; done)
    | (cases h; done)
    | skip

/-- **Bodies.** -/
theorem body_ok : ∀ e : Exp, BodyOK G e
  | .var x => var_ok x
  | .ite a b c => ite_ok (body_ok a) (body_ok b) (body_ok c)
  | .prim eff p es => prim_ok (fun e he => body_ok e)
  | .fix ids lams b => fix_ok (body_ok b) (fun ps b' h => body_ok b')
  | .app g es => by
    intro n t xs ls Γ N ρ κ σ fr hS hD
    rcases ag_app hS.ag with ⟨ids, b, hg⟩ | ⟨x, hg⟩ | ⟨x, ps, b, y, hg⟩
    · have hlt : sizeOf b < sizeOf g := by rw [hg]; simp; omega
      rw [hg] at hS hD ⊢
      exact app_lam_ok (body_ok b) (fun e he => body_ok e) n t xs ls Γ N ρ κ σ fr hS hD
    · rw [hg] at hS hD ⊢
      exact call_ok (fun e he => body_ok e) n t xs ls Γ N ρ κ σ fr hS hD
    · have hlt : sizeOf b < sizeOf g := by rw [hg]; simp; omega
      rw [hg] at hS hD ⊢
      exact loop_ok (body_ok b) (fun e he => body_ok e) n t xs ls Γ N ρ κ σ fr hS hD
  | .set x e => fun n t xs ls Γ N ρ κ σ fr hS hD => by have := hS.ag; simp [agStack] at this
  | .lam ids b => fun n t xs ls Γ N ρ κ σ fr hS hD => by have := hS.ag; simp [agStack] at this
  | .letcc x b => fun n t xs ls Γ N ρ κ σ fr hS hD => by have := hS.ag; simp [agStack] at this
  | .withcc k e => fun n t xs ls Γ N ρ κ σ fr hS hD => by have := hS.ag; simp [agStack] at this
termination_by e => sizeOf e
decreasing_by
  all_goals simp_wf
  all_goals first
    | omega
    | (have := List.sizeOf_lt_of_mem he; omega)
    | (have := List.sizeOf_lt_of_mem h; simp at this; omega)

end Verif.Stackfn

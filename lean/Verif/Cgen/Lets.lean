import Verif.Cgen.Values
/-
Code for `let`, `if`, and assignments to global variables.
-/
namespace Verif.Cgen
open Verif.Core Sys
variable {W : Type} {M : Sem W} {T : Texts} {Q : PrimName → Nat → List Nat} {P : Prog} {G : Glob}

/-! ### environments -/

theorem lookup_out {x : Id} {ρ : Env} : ∀ {ids : List Id} (vs : List Val), x ∉ ids → (bindAll ids vs ρ).lookup x = ρ.lookup x := by
  intro ids
  induction ids with
  | nil => intro vs _; cases vs <;> rfl
  | cons y ids ih =>
    intro vs h
    cases vs with
    | nil => rfl
    | cons v vs =>
      simp only [List.mem_cons, not_or] at h
      simp [bindAll, Env.lookup, h.1, ih vs h.2]

theorem lookup_in {x : Id} {ρ : Env} {v : Val} : ∀ {ids : List Id} {vs : List Val} {i : Nat}, ids.Nodup → ids[i]? = some x → vs[i]? = some v → (bindAll ids vs ρ).lookup x = some v := by
  intro ids
  induction ids with
  | nil => intro vs i _ h; simp at h
  | cons y ids ih =>
    intro vs i hn hi hv
    have hn' := List.nodup_cons.1 hn
    cases vs with
    | nil => simp at hv
    | cons u vs =>
      cases i with
      | zero => simp at hi hv; subst hi hv; simp [bindAll, Env.lookup]
      | succ i =>
        simp only [List.getElem?_cons_succ] at hi hv
        have : x ≠ y := by rintro rfl; exact hn'.1 (List.mem_of_getElem? hi)
        simp [bindAll, Env.lookup, this, ih hn'.2 hi hv]

theorem pos_out {x : Id} : ∀ {l : List (Option Id)} (renv : Renv), some x ∉ l → pos (some x) (l ++ renv) = (pos (some x) renv).map (· + l.length) := by
  intro l
  induction l with
  | nil => intro renv _; simp
  | cons y l ih =>
    intro renv h
    simp only [List.mem_cons, not_or] at h
    simp only [List.cons_append, pos, if_neg (Ne.symm h.1), ih renv h.2, Option.map_map, List.length_cons]
    congr 1

theorem pos_in {x : Id} : ∀ {l : List (Option Id)} (renv : Renv) {i : Nat}, l.Nodup → l[i]? = some (some x) → pos (some x) (l ++ renv) = some i := by
  intro l
  induction l with
  | nil => intro renv i _ h; simp at h
  | cons y l ih =>
    intro renv i hn hi
    have hn' := List.nodup_cons.1 hn
    cases i with
    | zero => simp at hi; subst hi; simp [pos]
    | succ i =>
      simp only [List.getElem?_cons_succ] at hi
      have : y ≠ some x := by rintro rfl; exact hn'.1 (List.mem_of_getElem? hi)
      simp [pos, this, ih renv hn'.2 hi]

theorem idxOf_mem {x : Id} : ∀ {l : List Id} {i : Nat}, idxOf x l = some i → x ∈ l := by
  intro l
  induction l with
  | nil => intro i h; simp [idxOf] at h
  | cons y l ih =>
    intro i h
    by_cases e : x = y
    · simp [e]
    · rw [idxOf, if_neg e] at h
      cases hp : idxOf x l with
      | none => rw [hp] at h; simp at h
      | some j => exact List.mem_cons_of_mem _ (ih hp)

theorem Top.bind {ρ : Env} (hlab : ∀ l ∈ G.labs, l.isLabel = true) (h : Top G ρ) {ids : List Id} (hp : ∀ x ∈ ids, plain x) (vs : List Val) : Top G (bindAll ids vs ρ) := by
  intro l i hl
  rw [lookup_out vs (fun hm => by have := (hp l hm).2; rw [hlab l (idxOf_mem hl)] at this; cases this)]
  exact h l i hl

/-- registers for the variables of a `let`. -/
theorem ER.binds (hlab : ∀ l ∈ G.labs, l.isLabel = true) {renv : Renv} {ρ : Env} {r : Regs} {S S' : Id → Prop} {ids : List Id} {vs : List Val} (h : ER G renv ρ r S') (hn : ids.Nodup) (hp : ∀ x ∈ ids, plain x)
    (hv : ∀ i, i < ids.length → ∃ v w, vs[i]? = some v ∧ r (renv.length + i) = some w ∧ VR G v w) (hS : ∀ x, S x → x ∈ ids ∨ S' x) :
    ER G (ids.reverse.map some ++ renv) (bindAll ids vs ρ) r S := by
  refine ⟨h.top.bind hlab hp vs, fun x hx hpx => ?_⟩
  by_cases hm : x ∈ ids
  · obtain ⟨i, hi, hxi⟩ := List.getElem_of_mem hm
    obtain ⟨v, w, h1, h2, h3⟩ := hv i hi
    have hg : ids[i]? = some x := by rw [List.getElem?_eq_getElem hi, hxi]
    refine ⟨ids.length - 1 - i, v, w, pos_in renv (List.Nodup.map (fun _ _ => Option.some.inj) (List.nodup_reverse.2 hn)) ?_, lookup_in hn hg h1, ?_, h3⟩
    · rw [List.getElem?_map, List.getElem?_reverse (by omega), show ids.length - 1 - (ids.length - 1 - i) = i by omega, hg]; rfl
    · rw [← h2]; congr 1; simp; omega
  · obtain ⟨p, v, w, h1, h2, h3, h4⟩ := h.reg x ((hS x hx).resolve_left hm) hpx
    have := pos_lt h1
    refine ⟨p + ids.length, v, w, ?_, by rw [lookup_out vs hm]; exact h2, ?_, h4⟩
    · rw [pos_out renv (by simpa using hm), h1]; simp
    · rw [← h3]; congr 1; simp; omega

/-! ### the operands of `let` -/

theorem cgLets_renv {C : Ctx} : ∀ (es : List Exp) (ids : List Id) (renv : Renv), ids.length = es.length → (cgLets C es ids renv).2 = ids.reverse.map some ++ renv := by
  intro es
  induction es with
  | nil => intro ids renv h; cases ids with | nil => rfl | cons => simp at h
  | cons e es ih =>
    intro ids renv h
    cases ids with
    | nil => simp at h
    | cons x ids => simp only [cgLets]; rw [ih ids (some x :: renv) (by simpa using h)]; simp

theorem lets_ok {all : List Exp} {ρ : Env} : ∀ (es : List Exp) (ids : List Id) (renv : Renv) (o : Nat) (r : Regs) (σ : Store W) (σt : CStore W) (d : Nat → Val),
    ids.length = es.length → (∀ e ∈ es, ValueOk M T Q P G e) → (∀ x ∈ ids, ∀ e ∈ es, ¬ Free x e) →
    (∀ (i : Nat), es[i]? = all[o + i]? ∨ es.length ≤ i) → ER G renv ρ r (fun x => ∃ e ∈ es, Free x e) → SR G σ σt →
    (∀ κ, (srcSys M T Q).Fails (.args .call all d (List.range' o es.length) ρ κ σ)) ∨
    ∃ ws d1 σ' σt' r', (∀ κ, (srcSys M T Q).Reaches (.args .call all d (List.range' o es.length) ρ κ σ) ws (.args .call all d1 [] ρ κ σ')) ∧
      (∀ rest, (cSys M Q P).Reaches (.run ((cgLets (G.ctx T) es ids renv).1 ++ rest) r σt) ws (.run rest r' σt')) ∧
      SR G σ' σt' ∧ Below renv.length r r' ∧ (∀ j, j < o → d1 j = d j) ∧
      (∀ i, i < es.length → ∃ w, r' (renv.length + i) = some w ∧ VR G (d1 (o + i)) w) := by
  intro es
  induction es with
  | nil =>
    intro ids renv o r σ σt d _ _ _ _ _ hs
    refine Or.inr ⟨[], d, σ, σt, r, fun κ => .refl _, fun rest => ?_, hs, .refl _ _, fun _ _ => rfl, by simp⟩
    simp only [cgLets]; exact .refl _
  | cons e es ih =>
    intro ids renv o r σ σt d hlen hes hfree hall her hs
    cases ids with
    | nil => simp at hlen
    | cons x ids =>
    have ho : all[o]? = some e := by
      rcases hall 0 with h | h
      · simpa using h.symm
      · simp at h
    have hall' : ∀ (i : Nat), es[i]? = all[o + 1 + i]? ∨ es.length ≤ i := fun i => by
      rcases hall (i + 1) with h | h
      · left; rw [show o + 1 + i = o + (i + 1) by omega, ← h]; rfl
      · right; simpa using h
    have ere : ER G renv ρ r (fun x => Free x e) := her.sub (fun x hx _ => ⟨e, List.mem_cons_self .., hx⟩)
    have her' : ER G renv ρ r (fun x => ∃ e ∈ es, Free x e) := her.sub (fun x ⟨e', h1, h2⟩ _ => ⟨e', List.mem_cons_of_mem _ h1, h2⟩)
    simp only [List.length_cons, List.range'_succ, cgLets]
    rcases hes e (List.mem_cons_self ..) renv (.reg renv.length) ρ r σ σt ere hs with hf | ⟨ws, v, σ1, w, σt1, r1, h1, h2, h3, h4, h5⟩
    · left; intro κ
      exact srcFail (s' := .ev e ρ (.args .call all d o (List.range' (o + 1) es.length) ρ κ) σ) (by simp [Core.step, ho]) (hf _)
    · have h6 : Below renv.length r (r1.set renv.length w) := h5.trans (.set _ _ _ _ (Nat.le_refl _)) (Nat.le_refl _)
      have her2 : ER G (some x :: renv) ρ (r1.set renv.length w) (fun x => ∃ e ∈ es, Free x e) :=
        (her'.below h6).skip x (fun ⟨e', h1, h2⟩ => hfree x (List.mem_cons_self ..) e' (List.mem_cons_of_mem _ h1) h2)
      rcases ih ids (some x :: renv) (o + 1) (r1.set renv.length w) σ1 σt1 (Core.upd d o v) (by simpa using hlen) (fun e' h => hes e' (List.mem_cons_of_mem _ h))
          (fun y hy e' he' => hfree y (List.mem_cons_of_mem _ hy) e' (List.mem_cons_of_mem _ he')) hall' her2 h4 with hf | ⟨ws2, d1, σ2, σt2, r2, g1, g2, g3, g4, g5, g6⟩
      · left; intro κ
        refine srcFail (s' := .ev e ρ (.args .call all d o (List.range' (o + 1) es.length) ρ κ) σ) (by simp [Core.step, ho]) ?_
        exact (h1 _).fails (srcFail (s' := .args .call all (Core.upd d o v) (List.range' (o + 1) es.length) ρ κ σ1) rfl (hf κ))
      · right
        refine ⟨ws ++ ws2, d1, σ2, σt2, r2, fun κ => ?_, fun rest => ?_, g3, h6.trans g4 (by simp), fun j hj => ?_, fun i hi => ?_⟩
        · refine srcCons (s1 := .ev e ρ (.args .call all d o (List.range' (o + 1) es.length) ρ κ) σ) (by simp [Core.step, ho]) rfl ?_
          exact (h1 _).trans (srcCons (s1 := .args .call all (Core.upd d o v) (List.range' (o + 1) es.length) ρ κ σ1) rfl rfl (g1 κ))
        · rw [List.append_assoc]
          exact (h2 _).trans (g2 rest)
        · rw [g5 j (by omega)]; simp [Core.upd, show j ≠ o by omega]
        · cases i with
          | zero =>
            refine ⟨w, ?_, ?_⟩
            · rw [g4 _ (by simp)]; simp [Regs.set]
            · rw [Nat.add_zero, g5 o (by omega)]; simpa [Core.upd] using h3
          | succ i =>
            obtain ⟨w', k1, k2⟩ := g6 i (by simpa using hi)
            exact ⟨w', by rw [← k1]; congr 1; simp; omega, by rwa [show o + (i + 1) = o + 1 + i by omega]⟩

/-! ### shapes of expressions -/

theorem Value.inv_lam {cl : Id → Option Id} {labs : List Id} {e : Exp} (h : Value M T cl labs e) : ∀ {ps : List Id} {b : Exp}, e = .lam ps b →
    ∃ l xs, b = curryBody l ps xs ∧ l ∈ labs ∧ ps.Nodup ∧ (∀ x ∈ ps, plain x) ∧ (∀ x ∈ xs, plain x) ∧ (∀ x ∈ xs, x ∉ ps) := by
  intro ps b e0
  cases h with
  | curry h1 h2 h3 h4 h5 => injection e0 with e1 e2; subst e1; exact ⟨_, _, e2.symm, h1, h2, h3, h4, h5⟩
  | _ => simp [letExp] at e0

theorem curryBody_inj {l l' : Id} {ps xs xs' : List Id} (h : curryBody l ps xs = curryBody l' ps xs') : l = l' ∧ xs = xs' := by
  simp only [curryBody, Exp.app.injEq, Exp.var.injEq, List.append_cancel_left_eq] at h
  exact ⟨h.1, List.map_injective_iff.2 (fun _ _ => Exp.var.inj) h.2⟩

theorem Value.inv_set {cl : Id → Option Id} {labs : List Id} {e : Exp} (h : Value M T cl labs e) : ∀ {x : Id} {a : Exp}, e = .set x a →
    x.isGlobal = true ∧ Value M T cl labs a ∧ (∀ l, cl x = some l → ∃ ps, a = .lam ps (curryBody l ps [])) := by
  intro x a e0
  cases h with
  | set h1 h2 h3 => injection e0 with e1 e2; subst e1 e2; exact ⟨h1, h2, h3⟩
  | _ => simp [letExp] at e0

theorem bgcOf_some {e : Exp} {g l : Id} (h : bgcOf e = some (g, l)) : ∃ ps b, e = .set g (.lam ps b) ∧ curryOf (.lam ps b) = some (l, ps, []) := by
  unfold bgcOf at h
  split at h
  · split at h
    · rename_i x e _ _ l' ids h1 h2
      simp only [Option.some.injEq, Prod.mk.injEq] at h
      obtain ⟨rfl, rfl⟩ := h
      cases e with
      | lam ps b =>
        refine ⟨ps, b, rfl, ?_⟩
        have : ids = ps := by
          unfold curryOf at h2
          split at h2
          · rename_i heq
            injection heq with e1 e2; subst e1
            split at h2
            · simp only [Option.some.injEq, Prod.mk.injEq] at h2; exact h2.2.1.symm
            · cases h2
          · cases h2
        rw [h2, this]
      | _ => simp [curryOf] at h2
    · cases h
  · cases h

/-- the value stored in a constant global variable. -/
theorem const_ok {x : Id} {e : Exp} {ρ : Env} {σ σ1 : Store W} {ws : List W} {v : Val} (hv : Value M T G.cl G.labs e) (hc : ∀ l, G.cl x = some l → ∃ ps, e = .lam ps (curryBody l ps []))
    (ht : Top G ρ) (h : ∀ κ, (srcSys M T Q).Reaches (.ev e ρ κ σ) ws (.ret v κ σ1)) :
    ∀ l, G.cl x = some l → ∃ ps ρ, v = .clos ps (curryBody l ps []) ρ ∧ l ∈ G.labs ∧ ps.Nodup ∧ (∀ x ∈ ps, plain x) ∧ Top G ρ := by
  intro l hl
  obtain ⟨ps, rfl⟩ := hc l hl
  obtain ⟨l', xs, h1, h2, h3, h4, _⟩ := hv.inv_lam rfl
  obtain ⟨rfl, rfl⟩ := curryBody_inj h1
  obtain ⟨_, rfl, _⟩ := src_unique h (fun κ => .one (A := srcSys M T Q) (s1 := .ret (.clos ps (curryBody l ps []) ρ) κ σ) rfl rfl)
  exact ⟨ps, ρ, rfl, h2, h3, h4, ht⟩

/-! ### assignments -/

theorem value_set (hQ : ∀ p n, (Q p n).Perm (List.range n)) {x : Id} {e : Exp} (hx : x.isGlobal = true) (hv : Value M T G.cl G.labs e) (hc : ∀ l, G.cl x = some l → ∃ ps, e = .lam ps (curryBody l ps []))
    (he : ValueOk M T Q P G e) : ValueOk M T Q P G (.set x e) := by
  intro renv t ρ r σ σt her hs
  rcases he renv (.glob x) ρ r σ σt (her.sub (fun y hy _ => .set x hy)) hs with hf | ⟨ws, v, σ1, w, σt1, r1, h1, h2, h3, h4, h5⟩
  · left; intro κ
    exact srcFail (s' := .ev e ρ (.set x κ) σ) (by simp [Core.step, hx]) (hf _)
  · right
    refine ⟨ws, .atom 1, _, .atom 1, _, r1, fun κ => ?_, fun rest => ?_, .atom 1, h4.set_glob x h3 (const_ok hv hc her.top h1), h5⟩
    · refine srcCons (s1 := .ev e ρ (.set x κ) σ) (by simp [Core.step, hx]) rfl ?_
      exact (h1 _).snoc rfl rfl
    · rw [cgTo]
      simp only [hx, if_true, List.append_assoc]
      refine Reaches.trans (h2 _) (ws' := []) ?_ |> fun h => by simpa using h
      have hq : Q .void 0 = [] := List.Perm.eq_nil (by simpa using hQ .void 0)
      have gen : ∀ t' : Tgt, (cSys M Q P).Reaches (.run ([Stmt.set t' (cgCexp T renv voidExp)] ++ rest) (Tgt.regs (.glob x) w r1) (Tgt.store (.glob x) w σt1)) []
          (.run rest (t'.regs (.atom 1) r1) (t'.store (.atom 1) (Tgt.store (.glob x) w σt1))) := by
        intro t'
        refine tgtCons (s1 := .ev (cgCexp T renv voidExp) [] (.set t' rest) r1 (Tgt.store (.glob x) w σt1)) rfl rfl ?_
        refine tgtCons (s1 := .args false renv.length .void [] (fun _ => .trap) [] [] (.set t' rest) r1 (Tgt.store (.glob x) w σt1)) (by simp [cgCexp, voidExp, noEffect, cgCexps, cstep, hq]) rfl ?_
        refine tgtCons (s1 := .ret (.atom 1) [] (.set t' rest) r1 (Tgt.store (.glob x) w σt1)) (by simp [cstep, doPrim, vals]) rfl ?_
        exact .one rfl (by cases t' <;> rfl)
      cases t with
      | void => exact .refl _
      | reg i => exact gen (.reg i)
      | glob y => exact gen (.glob y)

/-! ### tests -/

/-- the code of a test with branches `A` and `B`. -/
def testCode (C : Ctx) (renv : Renv) (a : Exp) (A B : List Stmt) : List Stmt :=
  if isCexp C.texts a then [.ite (cgCexp C.texts renv a) A B] else cgTo C a renv (.reg renv.length) ++ [.ite (.reg renv.length) A B]

theorem test_ok {a : Exp} (ha : ValueOk M T Q P G a) (hca : isCexp T a = true → CexpOk M T Q P G a) {renv : Renv} {ρ : Env} {r : Regs} {σ : Store W} {σt : CStore W}
    (her : ER G renv ρ r (fun x => Free x a)) (hs : SR G σ σt) :
    (∀ κ, (srcSys M T Q).Fails (.ev a ρ κ σ)) ∨
    ∃ ws v σ' σt' r', (∀ κ, (srcSys M T Q).Reaches (.ev a ρ κ σ) ws (.ret v κ σ')) ∧
      (∀ A B rest, (cSys M Q P).Reaches (.run (testCode (G.ctx T) renv a A B ++ rest) r σt) ws (.run ((if v.isFalse then B else A) ++ rest) r' σt')) ∧
      SR G σ' σt' ∧ Below renv.length r r' := by
  cases hc : isCexp T a
  · rcases ha renv (.reg renv.length) ρ r σ σt her hs with hf | ⟨ws, v, σ1, w, σt1, r1, h1, h2, h3, h4, h5⟩
    · exact Or.inl hf
    · right
      refine ⟨ws, v, σ1, σt1, r1.set renv.length w, h1, fun A B rest => ?_, h4, h5.trans (.set _ _ _ _ (Nat.le_refl _)) (Nat.le_refl _)⟩
      have : isCexp (G.ctx T).texts a = false := hc
      simp only [testCode, this, Bool.false_eq_true, if_false, List.append_assoc]
      refine Reaches.trans (h2 _) (ws' := []) ?_ |> fun h => by simpa using h
      refine tgtCons (s1 := .ev (.reg renv.length) [] (.branch A B rest) (r1.set renv.length w) σt1) rfl rfl ?_
      refine tgtCons (s1 := .ret w [] (.branch A B rest) (r1.set renv.length w) σt1) (by simp [cstep, Regs.set]) rfl ?_
      exact .one (by simp only [cSys, cstep, h3.isFalse]) rfl
  · rcases hca hc renv ρ r σ σt her hs with hf | ⟨ws, v, σ1, w, σt1, r1, h1, h2, h3, h4, h5, _, _⟩
    · exact Or.inl hf
    · right
      refine ⟨ws, v, σ1, σt1, r1, h1, fun A B rest => ?_, h4, h5⟩
      have : isCexp (G.ctx T).texts a = true := hc
      simp only [testCode, this, if_true]
      refine tgtCons (s1 := .ev (cgCexp T renv a) [] (.branch A B rest) r σt) rfl rfl ?_
      refine (h2 [] _ (Or.inr rfl)).snoc ?_ rfl
      simp only [cSys, cstep, h3.isFalse]

theorem cgTo_ite {C : Ctx} {a b c : Exp} {renv : Renv} {t : Tgt} (h : isCexp C.texts (.ite a b c) = false) :
    cgTo C (.ite a b c) renv t = testCode C renv a (cgTo C b renv t) (cgTo C c renv t) := by
  rw [cgTo]
  simp only [h, Bool.false_eq_true, if_false, testCode]

theorem value_ite {a b c : Exp} (hc : isCexp T (.ite a b c) = false) (ha : ValueOk M T Q P G a) (hca : isCexp T a = true → CexpOk M T Q P G a) (hb : ValueOk M T Q P G b) (hcc : ValueOk M T Q P G c) :
    ValueOk M T Q P G (.ite a b c) := by
  intro renv t ρ r σ σt her hs
  rcases test_ok ha hca (her.sub (fun x hx _ => .iteA b c hx)) hs with hf | ⟨ws, v, σ1, σt1, r1, h1, h2, h3, h4⟩
  · left; intro κ
    exact srcFail (s' := .ev a ρ (.ite b c ρ κ) σ) rfl (hf _)
  · obtain ⟨x, hx, hx1, hx2, hx3⟩ : ∃ x, (if v.isFalse then c else b) = x ∧ ValueOk M T Q P G x ∧ (∀ y, Free y x → Free y (.ite a b c)) ∧
        (if v.isFalse then cgTo (G.ctx T) c renv t else cgTo (G.ctx T) b renv t) = cgTo (G.ctx T) x renv t := by
      cases v.isFalse
      · exact ⟨b, rfl, hb, fun y hy => .iteB _ _ hy, rfl⟩
      · exact ⟨c, rfl, hcc, fun y hy => .iteC _ _ hy, rfl⟩
    rcases hx1 renv t ρ r1 σ1 σt1 ((her.sub (fun y hy _ => hx2 y hy)).below h4) h3 with hf | ⟨ws2, v2, σ2, w2, σt2, r2, g1, g2, g3, g4, g5⟩
    · left; intro κ
      exact srcFail (s' := .ev a ρ (.ite b c ρ κ) σ) rfl ((h1 _).fails (srcFail (s' := .ev x ρ κ σ1) (by simp only [Core.step, hx]) (hf κ)))
    · right
      refine ⟨ws ++ ws2, v2, σ2, w2, σt2, r2, fun κ => ?_, fun rest => ?_, g3, g4, h4.trans g5 (Nat.le_refl _)⟩
      · refine srcCons (s1 := .ev a ρ (.ite b c ρ κ) σ) rfl rfl ((h1 _).trans (srcCons (s1 := .ev x ρ κ σ1) (by simp only [Core.step, hx]) rfl (g1 κ)))
      · rw [cgTo_ite hc]
        refine (h2 _ _ rest).trans ?_
        rw [hx3]
        exact g2 rest

/-! ### let -/

/-- the `let` that is compiled like its operand. -/
def isIdLet (ids : List Id) (b : Exp) : Prop := ∃ x, ids = [x] ∧ b = .var x

theorem isVar_iff {x : Id} {b : Exp} : isVar x b = true ↔ b = .var x := by
  cases b <;> simp [isVar, eq_comm]

theorem free_let_body {x : Id} {ids : List Id} {es : List Exp} {b : Exp} (hx : x ∉ ids) (h : Free x b) : Free x (letExp ids es b) := .appF _ (.lam hx h)
theorem free_let_rand {x : Id} {ids : List Id} {es : List Exp} {b e : Exp} (he : e ∈ es) (h : Free x e) : Free x (letExp ids es b) := .appA _ he h

theorem let_order {ids : List Id} {es : List Exp} {b : Exp} (hlen : ids.length = es.length) : cgOrder T Q .call (.lam ids b :: es) = 0 :: List.range' 1 es.length := by
  have : isLet (.lam ids b :: es) = true := by simp [isLet, hlen]
  simp only [cgOrder, this, if_true, List.length_cons, List.range_eq_range', List.range'_succ]

/-- the source evaluates the operands, then the body. -/
theorem let_src {ids : List Id} {es : List Exp} {b : Exp} {ρ : Env} {σ σ1 : Store W} {ws : List W} {d1 : Nat → Val} (hlen : ids.length = es.length)
    (h : ∀ κ, (srcSys M T Q).Reaches (.args .call (.lam ids b :: es) (Core.upd (fun _ => .trap) 0 (.clos ids b ρ)) (List.range' 1 es.length) ρ κ σ) ws
      (.args .call (.lam ids b :: es) d1 [] ρ κ σ1)) (h0 : d1 0 = .clos ids b ρ) (κ : Kont) :
    (srcSys M T Q).Reaches (.ev (letExp ids es b) ρ κ σ) ws (.ev b (bindAll ids ((List.range' 1 es.length).map d1) ρ) κ σ1) := by
  refine srcCons (s1 := .args .call (.lam ids b :: es) (fun _ => .trap) (0 :: List.range' 1 es.length) ρ κ σ) (by simp only [letExp, Core.step, let_order hlen]) rfl ?_
  refine srcCons (s1 := .ev (.lam ids b) ρ (.args .call (.lam ids b :: es) (fun _ => .trap) 0 (List.range' 1 es.length) ρ κ) σ) rfl rfl ?_
  refine srcCons (s1 := .ret (.clos ids b ρ) (.args .call (.lam ids b :: es) (fun _ => .trap) 0 (List.range' 1 es.length) ρ κ) σ) rfl rfl ?_
  refine srcCons (s1 := .args .call (.lam ids b :: es) (Core.upd (fun _ => .trap) 0 (.clos ids b ρ)) (List.range' 1 es.length) ρ κ σ) rfl rfl ?_
  have hv : Core.vals d1 (.lam ids b :: es).length = .clos ids b ρ :: (List.range' 1 es.length).map d1 := by
    simp only [Core.vals, List.length_cons, List.range_eq_range', List.range'_succ, List.map_cons, h0]
  refine Reaches.trans (h κ) (ws' := []) ?_ |> fun h => by simpa using h
  refine srcCons (s1 := .ap (.clos ids b ρ) ((List.range' 1 es.length).map d1) κ σ1) (by simp only [Core.step, hv]) rfl ?_
  exact .one (by simp [srcSys, coreSys, Core.step, hlen]) rfl

theorem let_fail {ids : List Id} {es : List Exp} {b : Exp} {ρ : Env} {σ : Store W} (hlen : ids.length = es.length)
    (h : ∀ κ, (srcSys M T Q).Fails (.args .call (.lam ids b :: es) (Core.upd (fun _ => .trap) 0 (.clos ids b ρ)) (List.range' 1 es.length) ρ κ σ)) (κ : Kont) :
    (srcSys M T Q).Fails (.ev (letExp ids es b) ρ κ σ) := by
  refine srcFail (s' := .args .call (.lam ids b :: es) (fun _ => .trap) (0 :: List.range' 1 es.length) ρ κ σ) (by simp only [letExp, Core.step, let_order hlen]) ?_
  refine srcFail (s' := .ev (.lam ids b) ρ (.args .call (.lam ids b :: es) (fun _ => .trap) 0 (List.range' 1 es.length) ρ κ) σ) rfl ?_
  refine srcFail (s' := .ret (.clos ids b ρ) (.args .call (.lam ids b :: es) (fun _ => .trap) 0 (List.range' 1 es.length) ρ κ) σ) rfl ?_
  exact srcFail (s' := .args .call (.lam ids b :: es) (Core.upd (fun _ => .trap) 0 (.clos ids b ρ)) (List.range' 1 es.length) ρ κ σ) rfl (h κ)

/-- evaluation of a single operand, for both machines. -/
theorem one_src {x : Id} {e b : Exp} {ρ : Env} {σ σ1 : Store W} {ws : List W} {v : Val} (h : ∀ κ, (srcSys M T Q).Reaches (.ev e ρ κ σ) ws (.ret v κ σ1)) (κ : Kont) :
    (srcSys M T Q).Reaches (.ev (letExp [x] [e] b) ρ κ σ) ws (.ev b (.bind x v ρ) κ σ1) := by
  have := let_src (M := M) (T := T) (Q := Q) (ids := [x]) (es := [e]) (b := b) (ρ := ρ) (σ := σ) (σ1 := σ1) (ws := ws)
    (d1 := Core.upd (Core.upd (fun _ => .trap) 0 (.clos [x] b ρ)) 1 v) rfl (fun κ => by
      refine srcCons (s1 := .ev e ρ (.args .call [.lam [x] b, e] (Core.upd (fun _ => .trap) 0 (.clos [x] b ρ)) 1 [] ρ κ) σ) rfl rfl ?_
      exact (h _).snoc rfl rfl) rfl κ
  simpa [bindAll, Core.upd] using this

theorem one_fail {x : Id} {e b : Exp} {ρ : Env} {σ : Store W} (h : ∀ κ, (srcSys M T Q).Fails (.ev e ρ κ σ)) (κ : Kont) : (srcSys M T Q).Fails (.ev (letExp [x] [e] b) ρ κ σ) :=
  let_fail (ids := [x]) (es := [e]) rfl (fun κ => srcFail (s' := .ev e ρ (.args .call [.lam [x] b, e] (Core.upd (fun _ => .trap) 0 (.clos [x] b ρ)) 1 [] ρ κ) σ) rfl (h _)) κ

/-- The code for a `let` is the code for its operands followed by the code for its body. -/
theorem let_ok (hQ : ∀ p n, (Q p n).Perm (List.range n)) (hlab : ∀ l ∈ G.labs, l.isLabel = true) (hcn : (G.cases.map Curry.label).Nodup) {ids : List Id} {es : List Exp} {b : Exp} (hlen : ids.length = es.length) (hn : ids.Nodup) (hp : ∀ x ∈ ids, plain x)
    (hv : ∀ e ∈ es, Value M T G.cl G.labs e) (hfree : ∀ x ∈ ids, ∀ e ∈ es, ¬ Free x e) (hes : ∀ e ∈ es, ValueOk M T Q P G e) (hcs : ∀ c ∈ curriesAll es, c ∈ G.cases)
    (hid : ¬ isIdLet ids b) {renv : Renv} {ρ : Env} {r : Regs} {σ : Store W} {σt : CStore W} (her : ER G renv ρ r (fun x => Free x (letExp ids es b))) (hs : SR G σ σt) :
    (∀ κ, (srcSys M T Q).Fails (.ev (letExp ids es b) ρ κ σ)) ∨
    ∃ ws ρ' σ' σt' r' renv' code, (∀ κ, (srcSys M T Q).Reaches (.ev (letExp ids es b) ρ κ σ) ws (.ev b ρ' κ σ')) ∧
      (∀ t, cgTo (G.ctx T) (letExp ids es b) renv t = code ++ cgTo (G.ctx T) b renv' t) ∧
      (∀ rest, (cSys M Q P).Reaches (.run (code ++ rest) r σt) ws (.run rest r' σt')) ∧
      ER G renv' ρ' r' (fun x => Free x b) ∧ SR G σ' σt' ∧ Below renv.length r r' ∧ renv.length ≤ renv'.length := by
  -- the general case
  have general : (∀ t, cgTo (G.ctx T) (letExp ids es b) renv t = (cgLets (G.ctx T) es ids renv).1 ++ cgTo (G.ctx T) b (cgLets (G.ctx T) es ids renv).2 t) →
      (∀ κ, (srcSys M T Q).Fails (.ev (letExp ids es b) ρ κ σ)) ∨
      ∃ ws ρ' σ' σt' r' renv' code, (∀ κ, (srcSys M T Q).Reaches (.ev (letExp ids es b) ρ κ σ) ws (.ev b ρ' κ σ')) ∧
        (∀ t, cgTo (G.ctx T) (letExp ids es b) renv t = code ++ cgTo (G.ctx T) b renv' t) ∧
        (∀ rest, (cSys M Q P).Reaches (.run (code ++ rest) r σt) ws (.run rest r' σt')) ∧
        ER G renv' ρ' r' (fun x => Free x b) ∧ SR G σ' σt' ∧ Below renv.length r r' ∧ renv.length ≤ renv'.length := by
    intro hcode
    rcases lets_ok (M := M) (T := T) (Q := Q) (P := P) (G := G) (all := .lam ids b :: es) (ρ := ρ) es ids renv 1 r σ σt (Core.upd (fun _ => .trap) 0 (.clos ids b ρ)) hlen hes hfree
        (fun i => Or.inl (by rw [Nat.add_comm]; rfl)) (her.sub (fun x ⟨e, h1, h2⟩ _ => free_let_rand h1 h2)) hs with hf | ⟨ws, d1, σ1, σt1, r1, h1, h2, h3, h4, h5, h6⟩
    · exact Or.inl (let_fail hlen hf)
    · right
      refine ⟨ws, _, σ1, σt1, r1, _, _, let_src hlen h1 (by rw [h5 0 (by omega)]; rfl), hcode, h2, ?_, h3, h4, by rw [cgLets_renv es ids renv hlen]; simp⟩
      rw [cgLets_renv es ids renv hlen]
      refine ER.binds (S' := fun x => x ∉ ids ∧ Free x b) hlab ((her.sub (fun x hx _ => free_let_body hx.1 hx.2)).below h4) hn hp (fun i hi => ?_) (fun x hx => ?_)
      · obtain ⟨w, k1, k2⟩ := h6 i (by omega)
        refine ⟨_, w, ?_, k1, k2⟩
        rw [List.getElem?_map, List.getElem?_range' (by omega)]; simp
      · by_cases hm : x ∈ ids
        · exact Or.inl hm
        · exact Or.inr ⟨hm, hx⟩
  match ids, es, hlen with
  | [], [], _ => exact general (fun t => by rw [letExp, cgTo.eq_def]; simp [cgLets])
  | [x], [e], _ =>
    have hnv : isVar x b = false := by
      cases h : isVar x b
      · rfl
      · exact absurd ⟨x, rfl, isVar_iff.1 h⟩ hid
    cases href : referenced x b
    · -- not used
      have hnf : ¬ Free x b := fun h => by rw [(c47_referenced x b).1.2 h] at href; cases href
      have hval := hv e (List.mem_cons_self ..)
      have body : ∀ (r' : Regs) (v : Val), Below renv.length r r' → ER G renv (.bind x v ρ) r' (fun y => Free y b) := by
        intro r' v hb
        refine ⟨(her.top.bind hlab hp [v] : Top G (bindAll [x] [v] ρ)), fun y hy hpy => ?_⟩
        have hyx : y ≠ x := by rintro rfl; exact hnf hy
        obtain ⟨p, u, w, k1, k2, k3, k4⟩ := (her.below hb).reg y (free_let_body (by simpa using hyx) hy) hpy
        exact ⟨p, u, w, k1, by simp [Env.lookup, hyx, k2], k3, k4⟩
      cases hbg : bgcOf e with
      | none =>
        rcases hes e (List.mem_cons_self ..) renv .void ρ r σ σt (her.sub (fun y hy _ => free_let_rand (List.mem_cons_self ..) hy)) hs with hf | ⟨ws, v, σ1, w, σt1, r1, h1, h2, h3, h4, h5⟩
        · exact Or.inl (one_fail hf)
        · right
          refine ⟨ws, .bind x v ρ, σ1, σt1, r1, renv, cgTo (G.ctx T) e renv .void, one_src h1, fun t => ?_, h2, body r1 v h5, h4, h5, Nat.le_refl _⟩
          rw [letExp, cgTo.eq_def]; simp [hnv, href, hbg]
      | some gl =>
        obtain ⟨g, l⟩ := gl
        obtain ⟨ps, bb, rfl, hcur⟩ := bgcOf_some hbg
        obtain ⟨hg, hvl, hcc⟩ := hval.inv_set rfl
        obtain ⟨l', xs, rfl, hl', hps, hpp, hxp, hxs⟩ := hvl.inv_lam rfl
        rw [curryOf_curry (hlab l' hl')] at hcur
        simp only [Option.some.injEq, Prod.mk.injEq, List.map_eq_nil_iff, true_and] at hcur
        obtain ⟨rfl, rfl⟩ := hcur
        have hcm : (⟨l', ps.length, 0⟩ : Curry) ∈ G.cases := hcs _ (by simp [curriesAll, curries, curryOf_curry (hlab l' hl')])
        obtain ⟨n, hn1, hn2⟩ := caseNo_mem hcn hcm
        have hvr : VR G (.clos ps (curryBody l' ps []) ρ) (.blk (n + 1) []) :=
          .clos (fun _ => .trap) (fun _ => .trap) hn2 hl' hps hpp (by simp) (by simp) her.top rfl (by simp) (by simp) (by simp)
        have hsrc : ∀ κ, (srcSys M T Q).Reaches (.ev (.lam ps (curryBody l' ps [])) ρ κ σ) [] (.ret (.clos ps (curryBody l' ps []) ρ) κ σ) := fun κ => .one rfl rfl
        right
        refine ⟨[], .bind x (.atom 1) ρ, { σ with glob := fun y => if y = g then some (.clos ps (curryBody l' ps []) ρ) else σ.glob y },
          { σt with glob := fun y => if y = g then some (.blk (n + 1) []) else σt.glob y }, r, renv, [.static g (n + 1)],
          one_src (fun κ => ?_), fun t => ?_, fun rest => .one rfl rfl, body r _ (.refl _ _), hs.set_glob g hvr (const_ok hvl hcc her.top hsrc), .refl _ _, Nat.le_refl _⟩
        · refine srcCons (s1 := .ev (.lam ps (curryBody l' ps [])) ρ (.set g κ) σ) (by simp [Core.step, hg]) rfl ?_
          exact (hsrc _).snoc rfl rfl
        · rw [letExp, cgTo.eq_def]; simp [hnv, href, hbg, Glob.ctx, hn1]
    · exact general (fun t => by rw [letExp, cgTo.eq_def]; simp [hnv, href, cgLets])
  | x :: y :: ids, e :: e' :: es, hlen =>
    refine general (fun t => ?_)
    rw [letExp, cgTo.eq_def]
    simp only [hlen, if_true]

theorem value_let (hQ : ∀ p n, (Q p n).Perm (List.range n)) (hlab : ∀ l ∈ G.labs, l.isLabel = true) (hcn : (G.cases.map Curry.label).Nodup) {ids : List Id} {es : List Exp} {b : Exp} (hlen : ids.length = es.length) (hn : ids.Nodup) (hp : ∀ x ∈ ids, plain x)
    (hv : ∀ e ∈ es, Value M T G.cl G.labs e) (hfree : ∀ x ∈ ids, ∀ e ∈ es, ¬ Free x e) (hes : ∀ e ∈ es, ValueOk M T Q P G e) (hcs : ∀ c ∈ curriesAll es, c ∈ G.cases)
    (hb : ValueOk M T Q P G b) : ValueOk M T Q P G (letExp ids es b) := by
  intro renv t ρ r σ σt her hs
  by_cases hid : isIdLet ids b
  · obtain ⟨x, rfl, rfl⟩ := hid
    match es, hlen with
    | [e], _ =>
    have hpx := hp x (List.mem_cons_self ..)
    have hcode : cgTo (G.ctx T) (letExp [x] [e] (.var x)) renv t = cgTo (G.ctx T) e renv t := by
      rw [letExp, cgTo.eq_def]; simp [isVar]
    rcases hes e (List.mem_cons_self ..) renv t ρ r σ σt (her.sub (fun y hy _ => free_let_rand (List.mem_cons_self ..) hy)) hs with hf | ⟨ws, v, σ1, w, σt1, r1, h1, h2, h3, h4, h5⟩
    · exact Or.inl (one_fail hf)
    · right
      refine ⟨ws, v, σ1, w, σt1, r1, fun κ => ?_, fun rest => by rw [hcode]; exact h2 rest, h3, h4, h5⟩
      exact (one_src h1 κ).snoc (by simp [srcSys, coreSys, Core.step, hpx.1, Env.lookup]) rfl
  · rcases let_ok hQ hlab hcn hlen hn hp hv hfree hes hcs hid her hs with hf | ⟨ws, ρ1, σ1, σt1, r1, renv', code, h1, h2, h3, h4, h5, h6, h7⟩
    · exact Or.inl hf
    · rcases hb renv' t ρ1 r1 σ1 σt1 h4 h5 with hf | ⟨ws2, v2, σ2, w2, σt2, r2, g1, g2, g3, g4, g5⟩
      · left; intro κ; exact (h1 κ).fails (hf κ)
      · right
        refine ⟨ws ++ ws2, v2, σ2, w2, σt2, r2, fun κ => (h1 κ).trans (g1 κ), fun rest => ?_, g3, g4, h6.trans g5 h7⟩
        rw [h2, List.append_assoc]
        exact (h3 _).trans (g2 rest)

/-! ### all expressions without calls -/

theorem curriesAll_mem {es : List Exp} {c : Curry} : c ∈ curriesAll es ↔ ∃ e ∈ es, c ∈ curries e := by
  induction es with
  | nil => simp [curriesAll]
  | cons e es ih => simp [curriesAll, ih]

theorem value_ok (hQ : ∀ p n, (Q p n).Perm (List.range n)) (hT : TypesOk M T) (hlab : ∀ l ∈ G.labs, l.isLabel = true) (hcn : (G.cases.map Curry.label).Nodup) {e : Exp}
    (hv : Value M T G.cl G.labs e) : (∀ c ∈ curries e, c ∈ G.cases) → ValueOk M T Q P G e := by
  induction hv with
  | @var x hx => intro _ renv t ρ r σ σt her hs; rw [cgTo]; exact cexpTo_ok hQ (cexp_var hx) her hs
  | set hx hv hc ih => intro h; exact value_set hQ hx hv hc (ih h)
  | @ite a b c h1 h2 h3 h4 iha ihb ihc =>
    intro h
    simp only [curries, List.mem_append, or_imp, forall_and] at h
    cases hc : isCexp T (.ite a b c)
    · exact value_ite hc (iha h.1.1) (fun hca => cexp_ok hQ hT h1 hca) (ihb h.1.2) (ihc h.2)
    · intro renv t ρ r σ σt her hs
      have : isCexp (G.ctx T).texts (.ite a b c) = true := hc
      rw [cgTo, if_pos this]
      exact cexpTo_ok hQ (cexp_ok hQ hT (.ite h1 h2 h3 h4) hc) her hs
  | @prim eff p es hp hes hsafe ih =>
    intro h
    cases hc : isCexp T (.prim eff p es)
    · exact value_prim hQ hp hc (fun e he => ⟨ih e he (fun c hc => h c (by rw [curries]; exact curriesAll_mem.2 ⟨e, he, hc⟩)), fun hs => cexp_ok hQ hT (hes e he) (isSafe_isCexp T e hs)⟩)
    · intro renv t ρ r σ σt her hs
      have : isCexp (G.ctx T).texts (.prim eff p es) = true := hc
      rw [cgTo, if_pos this]
      exact cexpTo_ok hQ (cexp_ok hQ hT (.prim hp hes hsafe) hc) her hs
  | @curry l ps xs hl hps hpp hxp hxs =>
    intro h
    exact value_curry hcn hl hlab hps hpp hxp hxs (h _ (by simp [curries, curryOf_curry (hlab l hl)]))
  | @letE ids es b hlen hn hp hes hfree hb ihes ihb =>
    intro h
    simp only [letExp, curries, hlen, if_true, List.mem_append, or_imp, forall_and] at h
    exact value_let hQ hlab hcn hlen hn hp hes hfree (fun e he => ihes e he (fun c hc => h.2 c (curriesAll_mem.2 ⟨e, he, hc⟩))) h.2 (ihb h.1)

end Verif.Cgen

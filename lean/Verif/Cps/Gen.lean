import Verif.Cps.Rel
import Verif.Core.Uniq
/-
The conversion satisfies the relations of `Rel` (C34).
-/
namespace Verif.Cps
open Verif.Core

mutual
/-- Programs given to CPS conversion, with time stamps below `n`: no assignments to local variables (removed
before), no `halt`, groups of procedures are lambda expressions, the continuation operand of a `withcc` is a local
variable, a lambda expression, `ktrap()` (as in 0.sf:210), or a complex expression. -/
def Src (n : Nat) : Exp → Prop
  | .var x => x.ts < n
  | .set x e => x.isGlobal = true ∧ Src n e
  | .ite a b c => Src n a ∧ Src n b ∧ Src n c
  | .prim _ p es => p ≠ .halt ∧ SrcAll n es
  | .app f es => Src n f ∧ SrcAll n es
  | .lam ids b => (∀ x ∈ ids, x.isGlobal = false ∧ x.ts < n) ∧ Src n b
  | .fix ids lams b => (∀ x ∈ ids, x.isGlobal = false ∧ x.ts < n) ∧ SrcLams n lams ∧ Src n b
  | .letcc x b => x.isGlobal = false ∧ x.ts < n ∧ Src n b
  | .withcc c e => ((∃ x, c = .var x ∧ x.isGlobal = false) ∨ (∃ ids b, c = .lam ids b) ∨ (∃ eff, c = .prim eff .ktrap []) ∨ simple c = false) ∧ Src n c ∧ Src n e
/-- lists of them. -/
def SrcAll (n : Nat) : List Exp → Prop
  | [] => True
  | e :: es => Src n e ∧ SrcAll n es
/-- lists of lambda expressions. -/
def SrcLams (n : Nat) : List Exp → Prop
  | [] => True
  | .lam ids b :: ls => ((∀ x ∈ ids, x.isGlobal = false ∧ x.ts < n) ∧ Src n b) ∧ SrcLams n ls
  | _ :: _ => False
end

theorem srcAll_iff {n : Nat} : ∀ {es : List Exp}, SrcAll n es ↔ ∀ e ∈ es, Src n e := by
  intro es
  induction es with
  | nil => simp [SrcAll]
  | cons e es ih => simp [SrcAll, ih]

theorem srcLams_iff {n : Nat} : ∀ {ls : List Exp}, SrcLams n ls ↔ ∀ l ∈ ls, Src n l ∧ ∃ ids b, l = .lam ids b := by
  intro ls
  induction ls with
  | nil => simp [SrcLams]
  | cons l ls ih =>
    cases l <;> simp [SrcLams, Src, ih]

mutual
theorem Src.mono {n m : Nat} (h : n ≤ m) : (e : Exp) → Src n e → Src m e
  | .var x, w => by simp only [Src] at w ⊢; omega
  | .set x e, w => by simp only [Src] at w ⊢; exact ⟨w.1, Src.mono h e w.2⟩
  | .ite a b c, w => by simp only [Src] at w ⊢; exact ⟨Src.mono h a w.1, Src.mono h b w.2.1, Src.mono h c w.2.2⟩
  | .prim _ p es, w => by simp only [Src] at w ⊢; exact ⟨w.1, SrcAll.mono h es w.2⟩
  | .app f es, w => by simp only [Src] at w ⊢; exact ⟨Src.mono h f w.1, SrcAll.mono h es w.2⟩
  | .lam ids b, w => by
    simp only [Src] at w ⊢
    exact ⟨fun x hx => ⟨(w.1 x hx).1, by have := (w.1 x hx).2; omega⟩, Src.mono h b w.2⟩
  | .fix ids ls b, w => by
    simp only [Src] at w ⊢
    exact ⟨fun x hx => ⟨(w.1 x hx).1, by have := (w.1 x hx).2; omega⟩, SrcLams.mono h ls w.2.1, Src.mono h b w.2.2⟩
  | .letcc x b, w => by simp only [Src] at w ⊢; exact ⟨w.1, by have := w.2.1; omega, Src.mono h b w.2.2⟩
  | .withcc c e, w => by simp only [Src] at w ⊢; exact ⟨w.1, Src.mono h c w.2.1, Src.mono h e w.2.2⟩
theorem SrcAll.mono {n m : Nat} (h : n ≤ m) : (es : List Exp) → SrcAll n es → SrcAll m es
  | [], _ => by simp [SrcAll]
  | e :: es, w => by simp only [SrcAll] at w ⊢; exact ⟨Src.mono h e w.1, SrcAll.mono h es w.2⟩
theorem SrcLams.mono {n m : Nat} (h : n ≤ m) : (ls : List Exp) → SrcLams n ls → SrcLams m ls
  | [], _ => by simp [SrcLams]
  | .lam ids b :: ls, w => by
    simp only [SrcLams] at w ⊢
    exact ⟨⟨fun x hx => ⟨(w.1.1 x hx).1, by have := (w.1.1 x hx).2; omega⟩, Src.mono h b w.1.2⟩, SrcLams.mono h ls w.2⟩
  | .var _ :: _, w => by simp [SrcLams] at w
  | .set _ _ :: _, w => by simp [SrcLams] at w
  | .ite _ _ _ :: _, w => by simp [SrcLams] at w
  | .prim _ _ _ :: _, w => by simp [SrcLams] at w
  | .app _ _ :: _, w => by simp [SrcLams] at w
  | .fix _ _ _ :: _, w => by simp [SrcLams] at w
  | .letcc _ _ :: _, w => by simp [SrcLams] at w
  | .withcc _ _ :: _, w => by simp [SrcLams] at w
end

theorem ts_of_global {x : Id} {n : Nat} (h : x.isGlobal = true) : x.ts < n := by
  have : x.ts < 0 := by simpa [Id.isGlobal] using h
  omega

/-- free variables have small stamps. -/
theorem Src.free {n : Nat} {x : Id} {e : Exp} (h : Free x e) : Src n e → x.ts < n := by
  induction h with
  | var => intro w; simpa [Src] using w
  | setTarget e => intro w; simp only [Src] at w; exact ts_of_global w.1
  | set y _ ih => intro w; simp only [Src] at w; exact ih w.2
  | iteA _ _ _ ih => intro w; simp only [Src] at w; exact ih w.1
  | iteB _ _ _ ih => intro w; simp only [Src] at w; exact ih w.2.1
  | iteC _ _ _ ih => intro w; simp only [Src] at w; exact ih w.2.2
  | prim _ _ hm _ ih => intro w; simp only [Src] at w; exact ih (srcAll_iff.mp w.2 _ hm)
  | appF _ _ ih => intro w; simp only [Src] at w; exact ih w.1
  | appA _ hm _ ih => intro w; simp only [Src] at w; exact ih (srcAll_iff.mp w.2 _ hm)
  | lam _ _ ih => intro w; simp only [Src] at w; exact ih w.2
  | fixL _ _ hm _ ih => intro w; simp only [Src] at w; exact ih (srcLams_iff.mp w.2.1 _ hm).1
  | fixB _ _ _ ih => intro w; simp only [Src] at w; exact ih w.2.2
  | letcc _ _ ih => intro w; simp only [Src] at w; exact ih w.2.2
  | withccK _ _ ih => intro w; simp only [Src] at w; exact ih w.2.1
  | withccE _ _ ih => intro w; simp only [Src] at w; exact ih w.2.2

mutual
theorem Src.binders {n : Nat} {x : Id} : (e : Exp) → Src n e → x ∈ Core.binders e → x.isGlobal = false ∧ x.ts < n
  | .var _, _, h => by simp [Core.binders] at h
  | .set _ e, w, h => by simp only [Src, Core.binders] at w h; exact Src.binders e w.2 h
  | .ite a b c, w, h => by
    simp only [Src, Core.binders, List.mem_append] at w h
    rcases h with h | h | h
    · exact Src.binders a w.1 h
    · exact Src.binders b w.2.1 h
    · exact Src.binders c w.2.2 h
  | .prim _ _ es, w, h => by simp only [Src, Core.binders] at w h; exact SrcAll.binders es w.2 h
  | .app f es, w, h => by
    simp only [Src, Core.binders, List.mem_append] at w h
    rcases h with h | h
    · exact Src.binders f w.1 h
    · exact SrcAll.binders es w.2 h
  | .lam ids b, w, h => by
    simp only [Src, Core.binders, List.mem_append] at w h
    rcases h with h | h
    · exact w.1 x h
    · exact Src.binders b w.2 h
  | .fix ids ls b, w, h => by
    simp only [Src, Core.binders, List.mem_append] at w h
    rcases h with h | h | h
    · exact w.1 x h
    · exact SrcLams.binders ls w.2.1 h
    · exact Src.binders b w.2.2 h
  | .letcc y b, w, h => by
    simp only [Src, Core.binders, List.mem_cons] at w h
    rcases h with h | h
    · rw [h]; exact ⟨w.1, w.2.1⟩
    · exact Src.binders b w.2.2 h
  | .withcc c e, w, h => by
    simp only [Src, Core.binders, List.mem_append] at w h
    rcases h with h | h
    · exact Src.binders c w.2.1 h
    · exact Src.binders e w.2.2 h
theorem SrcAll.binders {n : Nat} {x : Id} : (es : List Exp) → SrcAll n es → x ∈ bindersAll es → x.isGlobal = false ∧ x.ts < n
  | [], _, h => by simp [bindersAll] at h
  | e :: es, w, h => by
    simp only [SrcAll, bindersAll, List.mem_append] at w h
    rcases h with h | h
    · exact Src.binders e w.1 h
    · exact SrcAll.binders es w.2 h
theorem SrcLams.binders {n : Nat} {x : Id} : (ls : List Exp) → SrcLams n ls → x ∈ bindersAll ls → x.isGlobal = false ∧ x.ts < n
  | [], _, h => by simp [bindersAll] at h
  | .lam ids b :: ls, w, h => by
    simp only [SrcLams, bindersAll, Core.binders, List.mem_append] at w h
    rcases h with (h | h) | h
    · exact w.1.1 x h
    · exact Src.binders b w.1.2 h
    · exact SrcLams.binders ls w.2 h
  | .var _ :: _, w, _ => by simp [SrcLams] at w
  | .set _ _ :: _, w, _ => by simp [SrcLams] at w
  | .ite _ _ _ :: _, w, _ => by simp [SrcLams] at w
  | .prim _ _ _ :: _, w, _ => by simp [SrcLams] at w
  | .app _ _ :: _, w, _ => by simp [SrcLams] at w
  | .fix _ _ _ :: _, w, _ => by simp [SrcLams] at w
  | .letcc _ _ :: _, w, _ => by simp [SrcLams] at w
  | .withcc _ _ :: _, w, _ => by simp [SrcLams] at w
end

/-- The programs for which the theorem is stated. -/
structure Ok (n : Nat) (e : Exp) : Prop where
  src : Src n e
  uniq : Uniq e

theorem Ok.mono {n m : Nat} {e : Exp} (h : Ok n e) (hm : n ≤ m) : Ok m e := ⟨h.src.mono hm, h.uniq⟩
theorem Ok.free {n : Nat} {e : Exp} {x : Id} (h : Ok n e) (hf : Free x e) : x.ts < n := Src.free hf h.src
theorem Ok.bnd {n : Nat} {e : Exp} {x : Id} (h : Ok n e) (hf : x ∈ binders e) : x.ts < n := (Src.binders e h.src hf).2
theorem Ok.bndg {n : Nat} {e : Exp} {x : Id} (h : Ok n e) (hf : x ∈ binders e) : x.isGlobal = false := (Src.binders e h.src hf).1

section
variable {n : Nat} {e a b c f : Exp} {es lams : List Exp} {ids : List Id} {x : Id} {eff : Effect} {p : PrimName}
theorem Ok.set (h : Ok n (.set x e)) : Ok n e := ⟨by have := h.src; simp only [Src] at this; exact this.2, h.uniq.set⟩
theorem Ok.iteA (h : Ok n (.ite a b c)) : Ok n a := ⟨by have := h.src; simp only [Src] at this; exact this.1, h.uniq.iteA⟩
theorem Ok.iteB (h : Ok n (.ite a b c)) : Ok n b := ⟨by have := h.src; simp only [Src] at this; exact this.2.1, h.uniq.iteB⟩
theorem Ok.iteC (h : Ok n (.ite a b c)) : Ok n c := ⟨by have := h.src; simp only [Src] at this; exact this.2.2, h.uniq.iteC⟩
theorem Ok.prim (h : Ok n (.prim eff p es)) : ∀ e ∈ es, Ok n e := fun e he =>
  ⟨by have := h.src; simp only [Src] at this; exact srcAll_iff.mp this.2 e he, h.uniq.prim e he⟩
theorem Ok.appF (h : Ok n (.app f es)) : Ok n f := ⟨by have := h.src; simp only [Src] at this; exact this.1, h.uniq.appF⟩
theorem Ok.appA (h : Ok n (.app f es)) : ∀ e ∈ es, Ok n e := fun e he =>
  ⟨by have := h.src; simp only [Src] at this; exact srcAll_iff.mp this.2 e he, h.uniq.appA e he⟩
theorem Ok.lam (h : Ok n (.lam ids b)) : Ok n b := ⟨by have := h.src; simp only [Src] at this; exact this.2, h.uniq.lam⟩
theorem Ok.fixB (h : Ok n (.fix ids lams b)) : Ok n b := ⟨by have := h.src; simp only [Src] at this; exact this.2.2, h.uniq.fixB⟩
theorem Ok.fixL (h : Ok n (.fix ids lams b)) : ∀ l ∈ lams, Ok n l ∧ ∃ ids b, l = .lam ids b := fun l hl => by
  have := h.src
  simp only [Src] at this
  have h2 := srcLams_iff.mp this.2.1 l hl
  exact ⟨⟨h2.1, h.uniq.fixL l hl⟩, h2.2⟩
theorem Ok.letcc (h : Ok n (.letcc x b)) : Ok n b := ⟨by have := h.src; simp only [Src] at this; exact this.2.2, h.uniq.letcc⟩
theorem Ok.withccK (h : Ok n (.withcc c e)) : Ok n c := ⟨by have := h.src; simp only [Src] at this; exact this.2.1, h.uniq.withccK⟩
theorem Ok.withccE (h : Ok n (.withcc c e)) : Ok n e := ⟨by have := h.src; simp only [Src] at this; exact this.2.2, h.uniq.withccE⟩
end

/-! ### lists of operands without higher-order functions -/

/-- arguments passed to `inner` by `cps-list`, and the counter. -/
def argsOf : List Exp → Nat → List Exp × Nat
  | [], n => ([], n)
  | e :: es, n =>
    if simple e then
      let r := argsOf es n
      let re := cpsSimple e r.2
      (re.1 :: r.1, re.2)
    else
      let r := argsOf es (n + 2)
      (.var (lexId n) :: r.1, r.2)

/-- the code around the result of `inner`. -/
def wrap : List Exp → Nat → Exp × Nat → Exp × Nat
  | [], _, r => r
  | e :: es, n, r =>
    if simple e then wrap es n r
    else
      let r1 := wrap es (n + 2) r
      cps e (.lam [lexId (n + 1), lexId n] r1.1) r1.2

theorem cpsList_eq : ∀ (es : List Exp) (inner : List Exp → Nat → Exp × Nat) (n : Nat),
    cpsList es inner n = wrap es n (inner (argsOf es n).1 (argsOf es n).2) := by
  intro es
  induction es with
  | nil => intro inner n; rw [cpsList.eq_def]; rfl
  | cons e es ih =>
    intro inner n
    rw [cpsList.eq_def]
    simp only [argsOf, wrap]
    cases simple e <;> simp [ih]

/-- conversion of `e` meets its specification. -/
def G (e : Exp) : Prop := ∀ n, Ok n e →
  (simple e = true → CpsS e (cpsSimple e n).1 ∧ n ≤ (cpsSimple e n).2 ∧ isVar (cpsSimple e n).1 = varLike e) ∧
  (∀ (V : Id → Prop) (k : Exp), (∀ x : Id, V x → x.ts < (n : Int) ∧ x ∉ binders e) → Cps V e k (cps e k n).1 ∧ n ≤ (cps e k n).2)

theorem lexId_global (n : Nat) : (lexId n).isGlobal = false := by
  rw [Id.isGlobal]; exact decide_eq_false (by simp [lexId])
theorem lexId_ts (n : Nat) : (lexId n).ts = n := rfl
theorem lexId_ne {n m : Nat} (h : n ≠ m) : lexId n ≠ lexId m := by
  intro e
  have := congrArg Id.ts e
  simp only [lexId_ts] at this
  omega

/-- what `argsOf` yields. -/
theorem argsOf_spec : ∀ (es : List Exp) (n : Nat), (∀ e ∈ es, G e) → (∀ e ∈ es, Ok n e) →
    (argsOf es n).1.length = es.length ∧ n ≤ (argsOf es n).2 ∧
    (∀ (j : Nat) (e t : Exp), es[j]? = some e → (argsOf es n).1[j]? = some t → simple e = true → CpsS e t) ∧
    (∀ (j : Nat) (e : Exp), es[j]? = some e → simple e = false →
      ∃ i, (argsOf es n).1[j]? = some (.var (lexId i)) ∧ n ≤ i ∧ i + 2 ≤ (argsOf es n).2) ∧
    (∀ j j' x, Cx es (argsOf es n).1 j x → Cx es (argsOf es n).1 j' x → j = j') := by
  intro es
  induction es with
  | nil =>
    intro n _ _
    refine ⟨rfl, Nat.le_refl _, by simp, by simp, ?_⟩
    intro j j' x ⟨e, he, _⟩
    simp at he
  | cons e es ih =>
    intro n hG hOk
    have hG' : ∀ e ∈ es, G e := fun e' he' => hG e' (by simp [he'])
    simp only [argsOf]
    cases hs : simple e with
    | true =>
      obtain ⟨h1, h2, h3, h4, h5⟩ := ih n hG' (fun e' he' => hOk e' (by simp [he']))
      have hg := (hG e (by simp) (argsOf es n).2 ((hOk e (by simp)).mono h2)).1 hs
      simp only [if_true, List.length_cons]
      refine ⟨by omega, by omega, ?_, ?_, ?_⟩
      · intro j e' t he' ht hs'
        cases j with
        | zero =>
          simp only [List.getElem?_cons_zero, Option.some.injEq] at he' ht
          subst he'; subst ht
          exact hg.1
        | succ j => exact h3 j e' t (by simpa using he') (by simpa using ht) hs'
      · intro j e' he' hs'
        cases j with
        | zero =>
          simp only [List.getElem?_cons_zero, Option.some.injEq] at he'
          subst he'
          rw [hs] at hs'; cases hs'
        | succ j =>
          obtain ⟨i, hi, hi1, hi2⟩ := h4 j e' (by simpa using he') hs'
          exact ⟨i, by simpa using hi, hi1, by omega⟩
      · intro j j' x ⟨e1, g1, g2, g3⟩ ⟨e2, k1, k2, k3⟩
        cases j with
        | zero =>
          simp only [List.getElem?_cons_zero, Option.some.injEq] at g1
          subst g1
          rw [hs] at g2; cases g2
        | succ j =>
          cases j' with
          | zero =>
            simp only [List.getElem?_cons_zero, Option.some.injEq] at k1
            subst k1
            rw [hs] at k2; cases k2
          | succ j' =>
            have := h5 j j' x ⟨e1, by simpa using g1, g2, by simpa using g3⟩ ⟨e2, by simpa using k1, k2, by simpa using k3⟩
            omega
    | false =>
      obtain ⟨h1, h2, h3, h4, h5⟩ := ih (n + 2) hG' (fun e' he' => (hOk e' (by simp [he'])).mono (by omega))
      simp only [Bool.false_eq_true, if_false, List.length_cons]
      refine ⟨by omega, by omega, ?_, ?_, ?_⟩
      · intro j e' t he' ht hs'
        cases j with
        | zero =>
          simp only [List.getElem?_cons_zero, Option.some.injEq] at he'
          subst he'
          rw [hs] at hs'; cases hs'
        | succ j => exact h3 j e' t (by simpa using he') (by simpa using ht) hs'
      · intro j e' he' hs'
        cases j with
        | zero => exact ⟨n, by simp, Nat.le_refl _, h2⟩
        | succ j =>
          obtain ⟨i, hi, hi1, hi2⟩ := h4 j e' (by simpa using he') hs'
          exact ⟨i, by simpa using hi, by omega, by omega⟩
      · have hz : ∀ j x, Cx (e :: es) (.var (lexId n) :: (argsOf es (n + 2)).1) (j + 1) x → x ≠ lexId n := by
          intro j x ⟨e1, g1, g2, g3⟩ hx
          obtain ⟨i, hi, hi1, hi2⟩ := h4 j e1 (by simpa using g1) g2
          simp only [List.getElem?_cons_succ] at g3
          rw [g3] at hi
          injection hi with hi
          injection hi with hi
          rw [hx] at hi
          exact lexId_ne (by omega) hi
        have h0 : ∀ x, Cx (e :: es) (.var (lexId n) :: (argsOf es (n + 2)).1) 0 x → x = lexId n := by
          intro x ⟨e1, g1, g2, g3⟩
          simp only [List.getElem?_cons_zero, Option.some.injEq] at g3
          injection g3 with g3
          exact g3.symm
        intro j j' x hj hj'
        cases j with
        | zero =>
          cases j' with
          | zero => rfl
          | succ j' => exact absurd (h0 x hj) (hz j' x hj')
        | succ j =>
          cases j' with
          | zero => exact absurd (h0 x hj') (hz j x hj)
          | succ j' =>
            obtain ⟨e1, g1, g2, g3⟩ := hj
            obtain ⟨e2, k1, k2, k3⟩ := hj'
            have := h5 j j' x ⟨e1, by simpa using g1, g2, by simpa using g3⟩ ⟨e2, by simpa using k1, k2, by simpa using k3⟩
            omega

theorem wrap_code {V : Id → Prop} {E args : List Exp} {n0 : Nat} (r : Exp × Nat) (hG : ∀ e ∈ E, G e) (hOk : ∀ e ∈ E, Ok n0 e)
    (hV : ∀ x, V x → x.ts < n0 ∧ ∀ e ∈ E, x ∉ binders e)
    (hF : ∀ x, (∃ e ∈ E, Free x e) → ∀ e ∈ E, x ∉ binders e)
    (hC : ∀ j x, Cx E args j x → (n0 : Int) ≤ x.ts ∧ x.ts < r.2) :
    ∀ (es : List Exp) (k n : Nat), (∀ j, E[k + j]? = es[j]?) → (∀ j, args[k + j]? = (argsOf es n).1[j]?) → n0 ≤ n →
      (argsOf es n).2 ≤ r.2 → (∀ j x, j < k → Cx E args j x → x.ts < n) →
      Code V E args r.1 (posFrom (fun e => !simple e) k es) (wrap es n r).1 ∧ r.2 ≤ (wrap es n r).2 := by
  intro es
  induction es with
  | nil => intro k n _ _ _ _ _; exact ⟨.nil, Nat.le_refl _⟩
  | cons e es ih =>
    intro k n hE hA hn hr hlt
    have hek : E[k]? = some e := by simpa using hE 0
    have hem : e ∈ E := List.mem_of_getElem? hek
    have hesm : ∀ e' ∈ es, e' ∈ E := by
      intro e' he'
      obtain ⟨j, hj⟩ := List.mem_iff_getElem?.mp he'
      have := hE (j + 1)
      rw [List.getElem?_cons_succ, hj] at this
      exact List.mem_of_getElem? this
    have hE' : ∀ j, E[k + 1 + j]? = es[j]? := fun j => by
      have := hE (j + 1)
      rw [List.getElem?_cons_succ] at this
      rw [← this]; congr 1; omega
    simp only [wrap]
    cases hs : simple e with
    | true =>
      simp only [argsOf, hs, if_true] at hr hA
      have hA' : ∀ j, args[k + 1 + j]? = (argsOf es n).1[j]? := fun j => by
        have := hA (j + 1)
        rw [List.getElem?_cons_succ] at this
        rw [← this]; congr 1; omega
      have hm := (argsOf_spec es n (fun e' he' => hG e' (hesm e' he')) (fun e' he' => (hOk e' (hesm e' he')).mono hn)).2.1
      have hg := ((hG e hem) (argsOf es n).2 ((hOk e hem).mono (by omega))).1 hs
      have e1 : posFrom (fun e => !simple e) k (e :: es) = posFrom (fun e => !simple e) (k + 1) es := by simp [posFrom, hs]
      rw [e1]
      simp only [if_true]
      refine ih (k + 1) n hE' hA' hn (by omega) (fun j x hj hx => ?_)
      by_cases hjk : j = k
      · subst hjk
        obtain ⟨e1, g1, g2, _⟩ := hx
        rw [hek] at g1
        injection g1 with g1
        subst g1
        rw [hs] at g2; cases g2
      · exact hlt j x (by omega) hx
    | false =>
      simp only [argsOf, hs, Bool.false_eq_true, if_false] at hr hA
      have hA' : ∀ j, args[k + 1 + j]? = (argsOf es (n + 2)).1[j]? := fun j => by
        have := hA (j + 1)
        rw [List.getElem?_cons_succ] at this
        rw [← this]; congr 1; omega
      have hspec := argsOf_spec es (n + 2) (fun e' he' => hG e' (hesm e' he')) (fun e' he' => (hOk e' (hesm e' he')).mono (by omega))
      have hak : args[k]? = some (.var (lexId n)) := by simpa using hA 0
      have hk : ∀ x, Cx E args k x → x = lexId n := by
        intro x ⟨e1, _, _, g3⟩
        rw [hak] at g3
        injection g3 with g3
        injection g3 with g3
        exact g3.symm
      have hgt : ∀ j x, k < j → Cx E args j x → (n : Int) + 2 ≤ x.ts := by
        intro j x hj ⟨e1, g1, g2, g3⟩
        obtain ⟨j', rfl⟩ : ∃ j', j = k + 1 + j' := ⟨j - (k + 1), by omega⟩
        rw [hE'] at g1
        rw [hA'] at g3
        obtain ⟨i, hi, hi1, hi2⟩ := hspec.2.2.2.1 j' e1 g1 g2
        rw [g3] at hi
        injection hi with hi
        injection hi with hi
        rw [hi, lexId_ts]
        omega
      obtain ⟨c1, c2⟩ := ih (k + 1) (n + 2) hE' hA' (by omega) hr (fun j x hj hx => by
        by_cases hjk : j = k
        · rw [hk x (by rw [← hjk]; exact hx), lexId_ts]; omega
        · have := hlt j x (by omega) hx; omega)
      have e1 : posFrom (fun e => !simple e) k (e :: es) = k :: posFrom (fun e => !simple e) (k + 1) es := by simp [posFrom, hs]
      rw [e1]
      simp only [Bool.false_eq_true, if_false]
      have hm := hspec.2.1
      have hg := ((hG e hem) (wrap es (n + 2) r).2 ((hOk e hem).mono (by omega))).2 (VL V E args)
        (.lam [lexId (n + 1), lexId n] (wrap es (n + 2) r).1) (by
          intro x hx
          rcases hx with hx | hx | ⟨j, hx⟩
          · have := hV x hx
            exact ⟨by omega, this.2 e hem⟩
          · refine ⟨?_, hF x hx e hem⟩
            obtain ⟨e', he', hf⟩ := hx
            have := (hOk e' he').free hf
            omega
          · have := hC j x hx
            refine ⟨by omega, fun hb => ?_⟩
            have := (hOk e hem).bnd hb
            omega)
      refine ⟨.cons hek hs hak ?_ hg.1 c1, by omega⟩
      intro hx
      rcases hx with hx | ⟨e', he', hf⟩ | ⟨j, hx⟩
      · have := (hV _ hx).1
        rw [lexId_ts] at this; omega
      · have := (hOk e' he').free hf
        rw [lexId_ts] at this; omega
      · rcases Nat.lt_trichotomy j k with hj | hj | hj
        · have := hlt j _ hj hx
          rw [lexId_ts] at this; omega
        · subst hj
          exact lexId_ne (by omega) (hk _ hx)
        · have := hgt j _ hj hx
          rw [lexId_ts] at this; omega

/-! ### the cases -/

theorem referenced_iff {x : Id} {e : Exp} : referenced x e = true ↔ Free x e := (c47_referenced x e).1

/-- operands of a primitive. -/
theorem cpsPrimArgs_spec : ∀ (es : List Exp) (ids : List Id) (vals exps : List Exp) (n : Nat), (∀ e ∈ es, G e) → (∀ e ∈ es, Ok n e) →
    simpleAll es = true → ∃ ids' vals' exps', PArgs es ids' vals' exps' ∧
      (cpsPrimArgs es ids vals exps n).1 = (ids'.reverse ++ ids, vals'.reverse ++ vals, exps'.reverse ++ exps) ∧
      n ≤ (cpsPrimArgs es ids vals exps n).2 ∧ ids'.Nodup ∧
      ∀ x ∈ ids', x.isGlobal = false ∧ (n : Int) ≤ x.ts := by
  intro es
  induction es with
  | nil =>
    intro ids vals exps n _ _ _
    rw [cpsPrimArgs.eq_def]
    exact ⟨[], [], [], .nil, rfl, Nat.le_refl _, List.nodup_nil, by simp⟩
  | cons e es ih =>
    intro ids vals exps n hG hOk hs
    simp only [simpleAll, Bool.and_eq_true] at hs
    have hg := ((hG e (by simp)) n (hOk e (by simp))).1 hs.1
    rw [cpsPrimArgs.eq_def]
    try simp only
    by_cases hv : isVar (cpsSimple e n).1 = true
    · rw [if_pos hv]
      obtain ⟨ids', vals', exps', h1, h2, h3, h4, h5⟩ := ih ids vals ((cpsSimple e n).1 :: exps) (cpsSimple e n).2
        (fun e' he' => hG e' (by simp [he'])) (fun e' he' => (hOk e' (by simp [he'])).mono hg.2.1) hs.2
      have hvl : varLike e = true := by rw [← hg.2.2]; exact hv
      rcases hc : (cpsSimple e n).1 with x | _ | _ | _ | _ | _ | _ | _ | _ <;> rw [hc] at hv <;> first | (simp [isVar] at hv; done) | skip
      have hcs := hg.1
      rw [hc] at hcs h2 h3
      refine ⟨ids', vals', .var x :: exps', .var hvl hcs h1, ?_, by omega, h4, fun y hy => ?_⟩
      · rw [h2]; simp
      · have := h5 y hy; exact ⟨this.1, by omega⟩
    · rw [if_neg hv]
      obtain ⟨ids', vals', exps', h1, h2, h3, h4, h5⟩ := ih (lexId (cpsSimple e n).2 :: ids) ((cpsSimple e n).1 :: vals)
        (.var (lexId (cpsSimple e n).2) :: exps) ((cpsSimple e n).2 + 1)
        (fun e' he' => hG e' (by simp [he'])) (fun e' he' => (hOk e' (by simp [he'])).mono (by omega)) hs.2
      have hvl : varLike e = false := by rw [← hg.2.2]; simpa using hv
      refine ⟨lexId (cpsSimple e n).2 :: ids', (cpsSimple e n).1 :: vals', .var (lexId (cpsSimple e n).2) :: exps',
        .tmp hvl hg.1 h1, ?_, by omega, ?_, ?_⟩
      · rw [h2]; simp
      · refine List.nodup_cons.mpr ⟨fun hm => ?_, h4⟩
        have := (h5 _ hm).2
        rw [lexId_ts] at this
        omega
      · intro y hy
        rcases List.mem_cons.mp hy with rfl | hy
        · exact ⟨lexId_global _, by rw [lexId_ts]; omega⟩
        · have := h5 y hy; exact ⟨this.1, by omega⟩

theorem cpsSimples_spec : ∀ (es : List Exp) (n : Nat), (∀ e ∈ es, G e) → (∀ e ∈ es, Ok n e) → simpleAll es = true →
    CpsSs es (cpsSimples es n).1 ∧ n ≤ (cpsSimples es n).2 := by
  intro es
  induction es with
  | nil => intro n _ _ _; rw [cpsSimples.eq_def]; exact ⟨.nil, Nat.le_refl _⟩
  | cons e es ih =>
    intro n hG hOk hs
    simp only [simpleAll, Bool.and_eq_true] at hs
    have hg := ((hG e (by simp)) n (hOk e (by simp))).1 hs.1
    obtain ⟨h1, h2⟩ := ih (cpsSimple e n).2 (fun e' he' => hG e' (by simp [he'])) (fun e' he' => (hOk e' (by simp [he'])).mono hg.2.1) hs.2
    rw [cpsSimples.eq_def]
    exact ⟨.cons hg.1 h1, by simp only; omega⟩

/-- the simple case of `cps`. -/
theorem cps_simple_eq {e k : Exp} {n : Nat} (h : simple e = true) : cps e k n = (.app k [ktrapExp, (cpsSimple e n).1], (cpsSimple e n).2) := by
  rw [cps.eq_def]; simp only [h, if_true]

/-- it is enough to look at complex expressions for the second part. -/
theorem G.mk {e : Exp} (h1 : ∀ n, Ok n e → simple e = true → CpsS e (cpsSimple e n).1 ∧ n ≤ (cpsSimple e n).2 ∧ isVar (cpsSimple e n).1 = varLike e)
    (h2 : ∀ n, Ok n e → simple e = false → ∀ (V : Id → Prop) (k : Exp), (∀ x : Id, V x → x.ts < (n : Int) ∧ x ∉ binders e) →
      Cps V e k (cps e k n).1 ∧ n ≤ (cps e k n).2) : G e := by
  intro n hok
  refine ⟨h1 n hok, fun V k hV => ?_⟩
  cases hs : simple e with
  | true =>
    rw [cps_simple_eq hs]
    exact ⟨.simple (h1 n hok hs).1, (h1 n hok hs).2.1⟩
  | false => exact h2 n hok hs V k hV

theorem G_var (x : Id) : G (.var x) := by
  refine G.mk (fun n _ _ => ?_) (fun n _ hs => by simp [simple] at hs)
  rw [cpsSimple.eq_def]
  exact ⟨.var x, Nat.le_refl _, rfl⟩

theorem cpsOne_eq {e : Exp} {inner : Exp → Nat → Exp × Nat} {n : Nat} : cpsOne e inner n =
    if simple e then inner (cpsSimple e n).1 (cpsSimple e n).2
    else cps e (.lam [lexId (n + 1), lexId n] (inner (.var (lexId n)) (n + 2)).1) (inner (.var (lexId n)) (n + 2)).2 := by
  rw [cpsOne.eq_def]

theorem G_set {x : Id} {e : Exp} (ih : G e) : G (.set x e) := by
  refine G.mk (fun n hok hs => ?_) (fun n hok hs V k hV => ?_)
  · have hx : x.isGlobal = true := by have := hok.src; simp only [Src] at this; exact this.1
    simp only [simple, hx, Bool.true_and] at hs
    have hg := (ih n hok.set).1 hs
    rw [cpsSimple.eq_def]
    exact ⟨.set hx hg.1, hg.2.1, rfl⟩
  · have hx : x.isGlobal = true := by have := hok.src; simp only [Src] at this; exact this.1
    have hse : simple e = false := by simpa [simple, hx] using hs
    rw [cps.eq_def]; simp only [hs, Bool.false_eq_true, if_false]
    simp only [cpsOne_eq, hse, Bool.false_eq_true, if_false]
    have hg := (ih (n + 2) (hok.set.mono (by omega))).2 V (.lam [lexId (n + 1), lexId n] (.app k [ktrapExp, .set x (.var (lexId n))]))
      (fun y hy => ⟨by have := (hV y hy).1; omega, by simpa [binders] using (hV y hy).2⟩)
    refine ⟨.set hx (lexId_ne (by omega)) (lexId_global _) ?_ ?_ hg.1, by omega⟩
    · intro h; have := (hV _ h).1; rw [lexId_ts] at this; omega
    · intro h; have := (hV _ h).1; rw [lexId_ts] at this; omega

theorem G_ite {a b c : Exp} (iha : G a) (ihb : G b) (ihc : G c) : G (.ite a b c) := by
  refine G.mk (fun n hok hs => ?_) (fun n hok hs V k hV => ?_)
  · simp only [simple, Bool.and_eq_true] at hs
    have ha := (iha n hok.iteA).1 hs.1.1
    have hb := (ihb _ (hok.iteB.mono ha.2.1)).1 hs.1.2
    have hc := (ihc _ (hok.iteC.mono (Nat.le_trans ha.2.1 hb.2.1))).1 hs.2
    rw [cpsSimple.eq_def]
    exact ⟨.ite ha.1 hb.1 hc.1, by simp only; omega, rfl⟩
  · -- conditional with a variable as continuation
    have key : ∀ (V : Id → Prop) (k : Exp) (m : Nat), n ≤ m → (∀ x : Id, V x → x.ts < (m : Int) ∧ x ∉ binders (.ite a b c)) →
        CpsIte V a b c k (cpsOne a (fun t m => (Exp.ite t (cps b k m).1 (cps c k (cps b k m).2).1, (cps c k (cps b k m).2).2)) m).1 ∧
        m ≤ (cpsOne a (fun t m => (Exp.ite t (cps b k m).1 (cps c k (cps b k m).2).1, (cps c k (cps b k m).2).2)) m).2 := by
      intro V k m hm hV
      have hVb : ∀ (m' : Nat), m ≤ m' → ∀ x : Id, V x → x.ts < (m' : Int) ∧ x ∉ binders b := fun m' h x hx =>
        ⟨by have := (hV x hx).1; omega, fun hb => (hV x hx).2 (by simp [binders, hb])⟩
      have hVc : ∀ (m' : Nat), m ≤ m' → ∀ x : Id, V x → x.ts < (m' : Int) ∧ x ∉ binders c := fun m' h x hx =>
        ⟨by have := (hV x hx).1; omega, fun hb => (hV x hx).2 (by simp [binders, hb])⟩
      rw [cpsOne_eq]
      cases hsa : simple a with
      | true =>
        have ha := (iha m (hok.iteA.mono hm)).1 hsa
        have hb := (ihb _ (hok.iteB.mono (Nat.le_trans hm ha.2.1))).2 V k (hVb _ ha.2.1)
        have hc := (ihc _ (hok.iteC.mono (Nat.le_trans hm (Nat.le_trans ha.2.1 hb.2)))).2 V k (hVc _ (Nat.le_trans ha.2.1 hb.2))
        simp only [if_true]
        exact ⟨.s ha.1 hb.1 hc.1, by omega⟩
      | false =>
        have hb := (ihb (m + 2) (hok.iteB.mono (by omega))).2 V k (hVb _ (by omega))
        have hc := (ihc _ (hok.iteC.mono (Nat.le_trans (by omega) hb.2))).2 V k (hVc _ (Nat.le_trans (by omega) hb.2))
        simp only [Bool.false_eq_true, if_false]
        have ha := (iha (cps c k (cps b k (m + 2)).2).2 (hok.iteA.mono (by omega))).2 (fun x => V x ∨ Free x b ∨ Free x c)
          (.lam [lexId (m + 1), lexId m] (.ite (.var (lexId m)) (cps b k (m + 2)).1 (cps c k (cps b k (m + 2)).2).1)) (by
            intro x hx
            rcases hx with hx | hx | hx
            · exact ⟨by have := (hV x hx).1; omega, fun hb => (hV x hx).2 (by simp [binders, hb])⟩
            · exact ⟨by have := hok.iteB.free hx; omega, fun hb => hok.uniq.2 x (by simp [binders, hb]) (.iteB _ _ hx)⟩
            · exact ⟨by have := hok.iteC.free hx; omega, fun hb => hok.uniq.2 x (by simp [binders, hb]) (.iteC _ _ hx)⟩)
        refine ⟨.c (lexId_ne (by omega)) (lexId_global _) ?_ ?_ ?_ ?_ ?_ ?_ ha.1 hb.1 hc.1, by omega⟩
        · intro h; have := (hV _ h).1; rw [lexId_ts] at this; omega
        · intro h; have := (hV _ h).1; rw [lexId_ts] at this; omega
        · intro h; have := hok.iteB.free h; rw [lexId_ts] at this; omega
        · intro h; have := hok.iteB.free h; rw [lexId_ts] at this; omega
        · intro h; have := hok.iteC.free h; rw [lexId_ts] at this; omega
        · intro h; have := hok.iteC.free h; rw [lexId_ts] at this; omega
    rw [cps.eq_def]; simp only [hs, Bool.false_eq_true, if_false]
    try simp only
    by_cases hk : isVar k = true
    · rw [if_pos hk]
      rcases k with x | _ | _ | _ | _ | _ | _ | _ | _ <;> first | (simp [isVar] at hk; done) | skip
      obtain ⟨h1, h2⟩ := key V (.var x) n (Nat.le_refl _) hV
      exact ⟨.iteV h1, h2⟩
    · rw [if_neg hk]
      obtain ⟨h1, h2⟩ := key (fun y => y = lexId n) (.var (lexId n)) (n + 1) (by omega) (fun x hx => by
        rw [hx]
        exact ⟨by rw [lexId_ts]; omega, fun hb => by have := hok.bnd hb; rw [lexId_ts] at this; omega⟩)
      refine ⟨.iteK ?_ (lexId_global _) ?_ h1, by simp only; omega⟩
      · intro h; have := (hV _ h).1; rw [lexId_ts] at this; omega
      · intro h; have := hok.free h; rw [lexId_ts] at this; omega

/-- combinations, from the arguments on. -/
theorem comb_gen {V : Id → Prop} {E es apre : List Exp} {n : Nat} {pre : List Exp} (hE : E = pre ++ es) (hpre : apre.length = pre.length)
    (hps : ∀ e ∈ pre, simple e = true) (hG : ∀ e ∈ E, G e) (hOk : ∀ e ∈ E, Ok n e)
    (hV : ∀ x : Id, V x → x.ts < (n : Int) ∧ ∀ e ∈ E, x ∉ binders e)
    (hF : ∀ x, (∃ e ∈ E, Free x e) → ∀ e ∈ E, x ∉ binders e) (r : Exp × Nat) (hr : (argsOf es n).2 ≤ r.2) :
    ArgsOk V E (apre ++ (argsOf es n).1) ∧
    Code V E (apre ++ (argsOf es n).1) r.1 (posFrom (fun e => !simple e) 0 E) (wrap es n r).1 ∧ n ≤ (wrap es n r).2 := by
  subst hE
  have hspec := argsOf_spec es n (fun e he => hG e (by simp [he])) (fun e he => hOk e (by simp [he]))
  -- complex operands are in `es`
  have hcx : ∀ j x, Cx (pre ++ es) (apre ++ (argsOf es n).1) j x → ∃ j', j = pre.length + j' ∧ Cx es (argsOf es n).1 j' x := by
    intro j x ⟨e, h1, h2, h3⟩
    by_cases hj : j < pre.length
    · rw [List.getElem?_append_left hj] at h1
      have := hps e (List.mem_of_getElem? h1)
      rw [h2] at this; cases this
    · refine ⟨j - pre.length, by omega, e, ?_, h2, ?_⟩
      · rw [List.getElem?_append_right (by omega)] at h1; exact h1
      · rw [List.getElem?_append_right (by omega), hpre] at h3; exact h3
  have hst : ∀ j x, Cx es (argsOf es n).1 j x → ∃ i, x = lexId i ∧ n ≤ i ∧ i + 2 ≤ (argsOf es n).2 := by
    intro j x ⟨e, h1, h2, h3⟩
    obtain ⟨i, g1, g2, g3⟩ := hspec.2.2.2.1 j e h1 h2
    rw [h3] at g1
    injection g1 with g1
    injection g1 with g1
    exact ⟨i, g1, g2, g3⟩
  have hC : ∀ j x, Cx (pre ++ es) (apre ++ (argsOf es n).1) j x → (n : Int) ≤ x.ts ∧ x.ts < r.2 := by
    intro j x hx
    obtain ⟨j', _, hx'⟩ := hcx j x hx
    obtain ⟨i, rfl, h1, h2⟩ := hst j' x hx'
    rw [lexId_ts]
    omega
  have hargs : ArgsOk V (pre ++ es) (apre ++ (argsOf es n).1) := by
    refine ⟨by simp [hpre, hspec.1], ?_, ?_, ?_⟩
    · intro j e he hs
      by_cases hj : j < pre.length
      · rw [List.getElem?_append_left hj] at he
        have := hps e (List.mem_of_getElem? he)
        rw [hs] at this; cases this
      · rw [List.getElem?_append_right (by omega)] at he
        obtain ⟨i, g1, _, _⟩ := hspec.2.2.2.1 _ e he hs
        exact ⟨lexId i, by rw [List.getElem?_append_right (by omega), hpre]; exact g1⟩
    · intro j j' x hj hj'
      obtain ⟨i, rfl, h1⟩ := hcx j x hj
      obtain ⟨i', rfl, h2⟩ := hcx j' x hj'
      have := hspec.2.2.2.2 i i' x h1 h2
      omega
    · intro j x hx
      have h1 := hC j x hx
      obtain ⟨j', _, hx'⟩ := hcx j x hx
      obtain ⟨i, rfl, _, _⟩ := hst j' x hx'
      refine ⟨lexId_global _, fun hv => ?_, fun e he hf => ?_⟩
      · have := (hV _ hv).1; omega
      · have := (hOk e he).free hf; omega
  have hcode := wrap_code (V := V) (args := apre ++ (argsOf es n).1) r hG hOk hV hF hC es pre.length n
    (fun j => by rw [List.getElem?_append_right (by omega)]; congr 1; omega)
    (fun j => by rw [List.getElem?_append_right (by omega)]; congr 1; omega) (Nat.le_refl _) hr
    (fun j x hj hx => by
      obtain ⟨j', h, _⟩ := hcx j x hx
      omega)
  refine ⟨hargs, ?_, by have := hspec.2.1; omega⟩
  have hpos : posFrom (fun e => !simple e) 0 (pre ++ es) = posFrom (fun e => !simple e) pre.length es := by
    have : ∀ (l : List Exp) (k : Nat), (∀ e ∈ l, simple e = true) →
        posFrom (fun e => !simple e) k (l ++ es) = posFrom (fun e => !simple e) (k + l.length) es := by
      intro l
      induction l with
      | nil => intro k _; rfl
      | cons a l ih =>
        intro k h
        simp only [List.cons_append, posFrom, h a (by simp), Bool.not_true, Bool.false_eq_true, if_false, List.length_cons]
        rw [ih (k + 1) (fun e he => h e (by simp [he]))]
        congr 1; omega
    have := this pre 0 hps
    rw [Nat.zero_add] at this
    exact this
  rw [hpos]
  exact hcode.1

theorem simpleAll_false {es : List Exp} {e : Exp} (h : e ∈ es) (hs : simple e = false) : simpleAll es = false := by
  induction es with
  | nil => cases h
  | cons a es ih =>
    simp only [simpleAll]
    rcases List.mem_cons.mp h with rfl | h
    · simp [hs]
    · simp [ih h]

theorem G_prim {eff : Effect} {p : PrimName} {es : List Exp} (ih : ∀ e ∈ es, G e) : G (.prim eff p es) := by
  have hp : ∀ {n}, Ok n (.prim eff p es) → p ≠ .halt := fun hok => by
    have := hok.src; simp only [Src] at this; exact this.1
  refine G.mk (fun n hok hs => ?_) (fun n hok hs V k hV => ?_)
  · have hs' : simpleAll es = true := by simpa [simple] using hs
    obtain ⟨ids', vals', exps', h1, h2, h3, h4, h5⟩ := cpsPrimArgs_spec es [] [] [] n ih hok.prim hs'
    rw [cpsSimple.eq_def]
    simp only [h2, List.append_nil, List.reverse_reverse]
    refine ⟨.prim (hp hok) h1 hs' h4 (fun x hx => ⟨(h5 x hx).1, fun e he hf => ?_⟩), h3, by simp [isVar, letExp, varLike]⟩
    have := (hok.prim e he).free hf
    have := (h5 x hx).2
    omega
  · have hs' : simpleAll es = false := by simpa [simple] using hs
    rw [cps.eq_def]; simp only [hs, Bool.false_eq_true, if_false]
    simp only [cpsList_eq]
    have hF : ∀ x, (∃ e ∈ es, Free x e) → ∀ e ∈ es, x ∉ binders e := by
      intro x ⟨e, he, hf⟩ e' he' hb
      exact hok.uniq.2 x (by simp only [binders]; exact mem_bindersAll.mpr ⟨e', he', hb⟩) (.prim _ _ he hf)
    have hV' : ∀ x : Id, V x → x.ts < (n : Int) ∧ ∀ e ∈ es, x ∉ binders e := fun x hx =>
      ⟨(hV x hx).1, fun e he hb => (hV x hx).2 (by simp only [binders]; exact mem_bindersAll.mpr ⟨e, he, hb⟩)⟩
    obtain ⟨h1, h2, h3⟩ := comb_gen (V := V) (pre := []) (apre := []) (E := es) rfl rfl (by simp) ih hok.prim hV' hF
      ((Exp.app k [ktrapExp, .prim eff p (argsOf es n).1], (argsOf es n).2) : Exp × Nat) (Nat.le_refl _)
    simp only [List.nil_append] at h1 h2
    have hspec := argsOf_spec es n ih hok.prim
    exact ⟨.list (f := .var (lexId 0)) (rs := []) (Or.inr ⟨eff, p, rfl, rfl, hs'⟩) h1 (.prim (hp hok) hspec.2.2.1) h2, h3⟩

theorem G_lam {ids : List Id} {b : Exp} (ih : G b) : G (.lam ids b) := by
  refine G.mk (fun n hok _ => ?_) (fun n _ hs => by simp [simple] at hs)
  have hg := (ih (n + 1) (hok.lam.mono (by omega))).2 (fun x => x = lexId n) (.var (lexId n)) (fun x hx => by
    rw [hx]
    exact ⟨by rw [lexId_ts]; omega, fun hb => by have := hok.lam.bnd hb; rw [lexId_ts] at this; omega⟩)
  rw [cpsSimple.eq_def]
  refine ⟨.lam (lexId_global _) (fun hf => ?_) hg.1, by have := hg.2; simp only; omega, rfl⟩
  have := hok.lam.free hf
  rw [lexId_ts] at this
  omega

theorem simpleAll_lams {lams : List Exp} (h : ∀ l ∈ lams, ∃ ids b, l = Exp.lam ids b) : simpleAll lams = true := by
  induction lams with
  | nil => rfl
  | cons l ls ih =>
    obtain ⟨ids, b, rfl⟩ := h l (by simp)
    simp only [simpleAll, simple, Bool.true_and]
    exact ih (fun l hl => h l (by simp [hl]))

theorem G_fix {ids : List Id} {lams : List Exp} {b : Exp} (ihl : ∀ l ∈ lams, G l) (ihb : G b) : G (.fix ids lams b) := by
  have hlam : ∀ {n}, Ok n (.fix ids lams b) → CpsSs lams (cpsSimples lams n).1 ∧ n ≤ (cpsSimples lams n).2 := fun hok =>
    cpsSimples_spec lams _ ihl (fun l hl => (hok.fixL l hl).1) (simpleAll_lams (fun l hl => (hok.fixL l hl).2))
  refine G.mk (fun n hok hs => ?_) (fun n hok hs V k hV => ?_)
  · obtain ⟨h1, h2⟩ := hlam hok
    have hs' : simple b = true := by simpa [simple] using hs
    have hg := (ihb _ (hok.fixB.mono h2)).1 hs'
    rw [cpsSimple.eq_def]
    exact ⟨.fix h1 hg.1, by simp only; omega, rfl⟩
  · obtain ⟨h1, h2⟩ := hlam hok
    rw [cps.eq_def]; simp only [hs, Bool.false_eq_true, if_false]
    have hg := (ihb _ (hok.fixB.mono h2)).2 V k (fun x hx => ⟨by have := (hV x hx).1; omega, fun hb => (hV x hx).2 (by simp [binders, hb])⟩)
    exact ⟨.fix h1 (fun x hx hv => (hV x hv).2 (by simp [binders, hx])) hg.1, by omega⟩

theorem G_letcc {x : Id} {b : Exp} (ih : G b) : G (.letcc x b) := by
  refine G.mk (fun n hok hs => by simp [simple] at hs) (fun n hok hs V k hV => ?_)
  have hsrc := hok.src
  simp only [Src] at hsrc
  rw [cps.eq_def]; simp only [hs, Bool.false_eq_true, if_false]
  have hg := (ih n hok.letcc).2 (fun y => y = x) (.var x) (fun y hy => by
    rw [hy]
    refine ⟨hsrc.2.1, fun hb => ?_⟩
    have := hok.uniq.1
    simp only [binders, List.nodup_cons] at this
    exact this.1 hb)
  exact ⟨.letcc hsrc.1 hg.1, hg.2⟩

theorem G_withcc {c e : Exp} (ihc : G c) (ihe : G e) (ihl : ∀ ids b, c = .lam ids b → G b) : G (.withcc c e) := by
  refine G.mk (fun n hok hs => by simp [simple] at hs) (fun n hok hs V k hV => ?_)
  have hsrc := hok.src
  simp only [Src] at hsrc
  rw [cps.eq_def]; simp only [hs, Bool.false_eq_true, if_false]
  simp only [cpsOne_eq]
  rcases hsrc.1 with ⟨x, rfl, hx⟩ | ⟨ids, b, rfl⟩ | ⟨eff, rfl⟩ | hc
  · rw [if_pos (by simp [simple])]
    rw [cpsSimple.eq_def]
    try simp only
    have hg := (ihe n hok.withccE).2 (fun y => y = x) (.var x) (fun y hy => by
      rw [hy]
      refine ⟨hok.free (.withccK _ .var), fun hb => hok.uniq.2 x (by simp [binders, hb]) (.withccK _ .var)⟩)
    exact ⟨.withccV hx hg.1, hg.2⟩
  · rw [if_pos (by simp [simple])]
    rw [cpsSimple.eq_def]
    try simp only
    have hokb := hok.withccK.lam
    have hb := (ihl ids b rfl (n + 1) (hokb.mono (by omega))).2 (fun x => x = lexId n) (.var (lexId n)) (fun x hx => by
      rw [hx]
      exact ⟨by rw [lexId_ts]; omega, fun hb => by have := hokb.bnd hb; rw [lexId_ts] at this; omega⟩)
    have hg := (ihe (cps b (.var (lexId n)) (n + 1)).2 (hok.withccE.mono (by omega))).2 (fun y => Free y (.lam ids b))
      (.lam (lexId n :: ids) (cps b (.var (lexId n)) (n + 1)).1) (fun y hy =>
        ⟨by have := hok.withccK.free hy; omega, fun hb => hok.uniq.2 y (by simp [binders, hb]) (.withccK _ hy)⟩)
    refine ⟨.withccL (lexId_global _) (fun hf => ?_) hb.1 hg.1, by omega⟩
    have := hokb.free hf
    rw [lexId_ts] at this
    omega
  · rw [if_pos (by simp [simple, simpleAll])]
    rw [cpsSimple.eq_def]
    simp only
    rw [cpsPrimArgs.eq_def]
    simp only [List.reverse_nil]
    have hg := (ihe n hok.withccE).2 (fun _ => False) (letExp [] [] (.prim eff .ktrap [])) (fun y hy => hy.elim)
    exact ⟨.withccT hg.1, hg.2⟩
  · simp only [hc, Bool.false_eq_true, if_false]
    have hg := (ihe (n + 2) (hok.withccE.mono (by omega))).2 (fun y => y = lexId n) (.var (lexId n)) (fun y hy => by
      rw [hy]
      exact ⟨by rw [lexId_ts]; omega, fun hb => by have := hok.withccE.bnd hb; rw [lexId_ts] at this; omega⟩)
    have hgc := (ihc (cps e (.var (lexId n)) (n + 2)).2 (hok.withccK.mono (by omega))).2 (fun x => Free x e)
      (.lam [lexId (n + 1), lexId n] (cps e (.var (lexId n)) (n + 2)).1) (fun y hy =>
        ⟨by have := hok.withccE.free hy; omega, fun hb => hok.uniq.2 y (by simp [binders, hb]) (.withccE _ hy)⟩)
    refine ⟨.withccC (lexId_ne (by omega)) (lexId_global _) (fun hf => ?_) (fun hf => ?_) hgc.1 hg.1, by omega⟩
    · have := hok.withccE.free hf; rw [lexId_ts] at this; omega
    · have := hok.withccE.free hf; rw [lexId_ts] at this; omega

/-- calls. -/
theorem call_gen {f : Exp} {es : List Exp} (ihf : G f) (ih : ∀ e ∈ es, G e) {n : Nat} (hok : Ok n (.app f es)) {V : Id → Prop} {k : Exp}
    (hV : ∀ x : Id, V x → x.ts < (n : Int) ∧ x ∉ binders (.app f es)) {r : Exp × Nat}
    (hr : r = cpsList (f :: es) (fun as m => (match as with | a :: as => .app a (k :: as) | [] => k, m)) n) :
    Cps V (.app f es) k r.1 ∧ n ≤ r.2 := by
  subst hr
  rw [cpsList_eq]
  have hG : ∀ e ∈ f :: es, G e := fun e he => by
    rcases List.mem_cons.mp he with rfl | he
    · exact ihf
    · exact ih e he
  have hOk : ∀ e ∈ f :: es, Ok n e := fun e he => by
    rcases List.mem_cons.mp he with rfl | he
    · exact hok.appF
    · exact hok.appA e he
  have hbn : ∀ e ∈ f :: es, ∀ x ∈ binders e, x ∈ binders (.app f es) := fun e he x hx => by
    simp only [binders, List.mem_append]
    rcases List.mem_cons.mp he with rfl | he
    · exact Or.inl hx
    · exact Or.inr (mem_bindersAll.mpr ⟨e, he, hx⟩)
  have hF : ∀ x, (∃ e ∈ f :: es, Free x e) → ∀ e ∈ f :: es, x ∉ binders e := by
    intro x ⟨e, he, hf⟩ e' he' hb
    refine hok.uniq.2 x (hbn e' he' x hb) ?_
    rcases List.mem_cons.mp he with rfl | he
    · exact .appF _ hf
    · exact .appA _ he hf
  have hV' : ∀ x : Id, V x → x.ts < (n : Int) ∧ ∀ e ∈ f :: es, x ∉ binders e := fun x hx =>
    ⟨(hV x hx).1, fun e he hb => (hV x hx).2 (hbn e he x hb)⟩
  have hspec := argsOf_spec (f :: es) n hG hOk
  rcases ha : (argsOf (f :: es) n).1 with _ | ⟨a, as⟩
  · have := hspec.1
    rw [ha] at this
    simp at this
  · obtain ⟨h1, h2, h3⟩ := comb_gen (V := V) (pre := []) (apre := []) (E := f :: es) rfl rfl (by simp) hG hOk hV' hF
      ((Exp.app a (k :: as), (argsOf (f :: es) n).2) : Exp × Nat) (Nat.le_refl _)
    rw [ha] at h1 h2
    simp only [List.nil_append] at h1 h2
    have hs := hspec.2.2.1
    rw [ha] at hs
    exact ⟨.list (Or.inl ⟨rfl, rfl, rfl⟩) h1 (.call hs) h2, h3⟩

theorem G_app {f : Exp} {es : List Exp} (hl : ∀ ids b, f ≠ .lam ids b) (ihf : G f) (ih : ∀ e ∈ es, G e) : G (.app f es) := by
  have hs : simple (.app f es) = false := by
    cases f <;> first | rfl | exact absurd rfl (hl _ _)
  refine G.mk (fun n hok hs' => by rw [hs] at hs'; cases hs') (fun n hok _ V k hV => ?_)
  refine call_gen ihf ih hok hV ?_
  rw [cps.eq_def]; simp only [hs, Bool.false_eq_true, if_false]
  cases f <;> first | rfl | exact absurd rfl (hl _ _)

/-- `let`. -/
theorem let_gen {ids : List Id} {b : Exp} {es : List Exp} (ihl : G (.lam ids b)) (ihb : G b) (ih : ∀ e ∈ es, G e) {n : Nat}
    (hok : Ok n (.app (.lam ids b) es)) (hlen : ids.length = es.length) {V : Id → Prop} {k : Exp}
    (hV : ∀ x : Id, V x → x.ts < (n : Int) ∧ x ∉ binders (.app (.lam ids b) es)) {r : Exp × Nat}
    (hr : r = cpsList es (fun as m => (letExp ids as (cps b k m).1, (cps b k m).2)) n) :
    Cps V (.app (.lam ids b) es) k r.1 ∧ n ≤ r.2 := by
  subst hr
  rw [cpsList_eq]
  have hG : ∀ e ∈ [Exp.lam ids b] ++ es, G e := fun e he => by
    rcases List.mem_cons.mp he with rfl | he
    · exact ihl
    · exact ih e he
  have hOk : ∀ e ∈ [Exp.lam ids b] ++ es, Ok n e := fun e he => by
    rcases List.mem_cons.mp he with rfl | he
    · exact hok.appF
    · exact hok.appA e he
  have hbn : ∀ e ∈ [Exp.lam ids b] ++ es, ∀ x ∈ binders e, x ∈ binders (.app (.lam ids b) es) := fun e he x hx => by
    rw [binders, List.mem_append]
    rcases List.mem_cons.mp he with rfl | he
    · exact Or.inl hx
    · exact Or.inr (mem_bindersAll.mpr ⟨e, he, hx⟩)
  have hF : ∀ x, (∃ e ∈ [Exp.lam ids b] ++ es, Free x e) → ∀ e ∈ [Exp.lam ids b] ++ es, x ∉ binders e := by
    intro x ⟨e, he, hf⟩ e' he' hb
    refine hok.uniq.2 x (hbn e' he' x hb) ?_
    rcases List.mem_cons.mp he with rfl | he
    · exact .appF _ hf
    · exact .appA _ he hf
  have hV' : ∀ x : Id, V x → x.ts < (n : Int) ∧ ∀ e ∈ [Exp.lam ids b] ++ es, x ∉ binders e := fun x hx =>
    ⟨(hV x hx).1, fun e he hb => (hV x hx).2 (hbn e he x hb)⟩
  have hspec := argsOf_spec es n ih hok.appA
  have hg := (ihb (argsOf es n).2 (hok.appF.lam.mono hspec.2.1)).2 V k (fun x hx =>
    ⟨by have := (hV x hx).1; have := hspec.2.1; omega, fun hb => (hV x hx).2 (by simp [binders, hb])⟩)
  obtain ⟨h1, h2, h3⟩ := comb_gen (V := V) (pre := [.lam ids b]) (apre := [.lam ids (cps b k (argsOf es n).2).1])
    (E := [Exp.lam ids b] ++ es) rfl rfl (by simp [simple]) hG hOk hV' hF
    ((letExp ids (argsOf es n).1 (cps b k (argsOf es n).2).1, (cps b k (argsOf es n).2).2) : Exp × Nat) hg.2
  refine ⟨.list (Or.inl ⟨rfl, rfl, rfl⟩) h1 (.letE hlen ?_ hspec.2.2.1 hg.1) h2, h3⟩
  intro x hx hv
  exact (hV x hv).2 (by simp [binders, hx])

theorem isVarOf_iff {x : Id} {b : Exp} : isVarOf x b = true ↔ b = .var x := by
  cases b <;> simp [isVarOf, eq_comm]

theorem G_applam {ids : List Id} {b : Exp} {es : List Exp} (ihb : G b) (ih : ∀ e ∈ es, G e) : G (.app (.lam ids b) es) := by
  have ihl : G (.lam ids b) := G_lam ihb
  refine G.mk (fun n hok hs => ?_) (fun n hok hs V k hV => ?_)
  · simp only [simple, Bool.and_eq_true, decide_eq_true_eq] at hs
    obtain ⟨hlen, hsa, hsb⟩ := hs
    have hokb := hok.appF.lam
    -- the general form of a `let`
    have hlet : ∀ (hvl : varLike (.app (.lam ids b) es) = false),
        CpsS (.app (.lam ids b) es) (letExp ids (cpsSimples es n).1 (cpsSimple b (cpsSimples es n).2).1) ∧
        n ≤ (cpsSimple b (cpsSimples es n).2).2 := by
      intro hvl
      obtain ⟨h1, h2⟩ := cpsSimples_spec es n ih hok.appA hsa
      have hb := (ihb _ (hokb.mono h2)).1 hsb
      exact ⟨.letE hlen h1 hb.1 hvl hsa, by omega⟩
    rcases ids with _ | ⟨x, _ | ⟨y, ys⟩⟩
    · rcases es with _ | ⟨e, es⟩
      · have hb := (ihb n hokb).1 hsb
        rw [cpsSimple.eq_def]
        exact ⟨.null hb.1, hb.2.1, by simpa [varLike] using hb.2.2⟩
      · simp at hlen
    · rcases es with _ | ⟨e, _ | ⟨e', es⟩⟩
      · simp at hlen
      · have hse : simple e = true := by simpa [simpleAll] using hsa
        have he := (ih e (by simp) n (hok.appA e (by simp))).1 hse
        rw [cpsSimple.eq_def]
        try simp only
        have hb := (ihb _ (hokb.mono he.2.1)).1 hsb
        by_cases hv : isVarOf x b = true
        · simp only [if_pos hv]
          have := isVarOf_iff.mp hv
          subst this
          have hx : x.isGlobal = false := hok.bndg (by simp [binders])
          exact ⟨.idlet hx he.1, he.2.1, by simpa [varLike, hv] using he.2.2⟩
        · simp only [if_neg hv]
          have hv' : isVarOf x b = false := by simpa using hv
          have hvl : varLike (.app (.lam [x] b) [e]) = false := by simp [varLike, hv']
          by_cases href : referenced x b = true
          · simp only [if_pos href]
            have := hlet hvl
            rw [cpsSimples.eq_def] at this
            simp only [cpsSimples.eq_def []] at this
            exact ⟨this.1, this.2, by simp [isVar, letExp, hvl]⟩
          · simp only [if_neg href]
            refine ⟨.begin (fun hf => href (referenced_iff.mpr hf)) (fun hf => ?_) hv' he.1 hb.1, by omega, by simp [isVar, letExp, hvl]⟩
            have := hokb.free hf
            rw [lexId_ts] at this
            omega
      · simp at hlen
    · have hvl : varLike (.app (.lam (x :: y :: ys) b) es) = false := by simp [varLike]
      have := hlet hvl
      rw [cpsSimple.eq_def]
      exact ⟨this.1, this.2, by simp [isVar, letExp, hvl]⟩
  · have hokb := hok.appF.lam
    have hVb : ∀ (m : Nat), n ≤ m → ∀ x : Id, V x → x.ts < (m : Int) ∧ x ∉ binders b := fun m hm x hx =>
      ⟨by have := (hV x hx).1; omega, fun hb => (hV x hx).2 (by simp [binders, hb])⟩
    have hVe : ∀ e ∈ es, ∀ (m : Nat), n ≤ m → ∀ x : Id, V x → x.ts < (m : Int) ∧ x ∉ binders e := fun e he m hm x hx =>
      ⟨by have := (hV x hx).1; omega, fun hb => (hV x hx).2 (by
        simp only [binders, List.mem_append]; exact Or.inr (mem_bindersAll.mpr ⟨e, he, hb⟩))⟩
    -- the general case
    have hgen : (cps (.app (.lam ids b) es) k n = if ids.length = es.length then
          cpsList es (fun as m => (letExp ids as (cps b k m).1, (cps b k m).2)) n
        else cpsList (.lam ids b :: es) (fun as m => (match as with | a :: as => .app a (k :: as) | [] => k, m)) n) →
        Cps V (.app (.lam ids b) es) k (cps (.app (.lam ids b) es) k n).1 ∧ n ≤ (cps (.app (.lam ids b) es) k n).2 := by
      intro heq
      by_cases hl : ids.length = es.length
      · rw [if_pos hl] at heq
        exact let_gen ihl ihb ih hok hl hV heq
      · rw [if_neg hl] at heq
        exact call_gen ihl ih hok hV heq
    have hne : ¬ simple (.app (.lam ids b) es) = true := by rw [hs]; exact Bool.false_ne_true
    rcases ids with _ | ⟨x, _ | ⟨y, ys⟩⟩
    · rcases es with _ | ⟨e, es⟩
      · rw [cps.eq_def]; simp only [hs, Bool.false_eq_true, if_false]
        try simp only
        have hb := (ihb n hokb).2 V k (hVb n (Nat.le_refl _))
        exact ⟨.null hb.1, hb.2⟩
      · refine hgen ?_
        rw [cps.eq_def]; simp only [hs, Bool.false_eq_true, if_false]
        rfl
    · rcases es with _ | ⟨e, _ | ⟨e', es⟩⟩
      · refine hgen ?_
        rw [cps.eq_def]; simp only [hs, Bool.false_eq_true, if_false]
        rfl
      · have hoke := hok.appA e (by simp)
        have ihe := ih e (by simp)
        by_cases hv : isVarOf x b = true
        · rw [cps.eq_def]; simp only [hs, Bool.false_eq_true, if_false]
          simp only [if_pos hv]
          have hbx := isVarOf_iff.mp hv
          subst hbx
          have hx : x.isGlobal = false := hok.bndg (by simp [binders])
          have hse : simple e = false := by simpa [simple, simpleAll] using hs
          have he := (ihe n hoke).2 V k (hVe e (by simp) n (Nat.le_refl _))
          exact ⟨.idlet hx hse he.1, he.2⟩
        · by_cases href : referenced x b = true
          · refine hgen ?_
            rw [cps.eq_def]; simp only [hs, Bool.false_eq_true, if_false]
            simp only [if_neg hv, if_pos href, List.length_cons, List.length_nil, if_true]
          · rw [cps.eq_def]; simp only [hs, Bool.false_eq_true, if_false]
            simp only [if_neg hv, if_neg href]
            have hb := (ihb (n + 2) (hokb.mono (by omega))).2 V k (hVb _ (by omega))
            have hfx : ¬ Free x b := fun hf => href (referenced_iff.mpr hf)
            have v1 : ¬ V (lexId n) := fun h => by have := (hV _ h).1; rw [lexId_ts] at this; omega
            have v2 : ¬ V (lexId (n + 1)) := fun h => by have := (hV _ h).1; rw [lexId_ts] at this; omega
            have f1 : ¬ Free (lexId n) b := fun h => by have := hokb.free h; rw [lexId_ts] at this; omega
            have f2 : ¬ Free (lexId (n + 1)) b := fun h => by have := hokb.free h; rw [lexId_ts] at this; omega
            cases hse : simple e with
            | true =>
              have he := (ihe _ (hoke.mono (Nat.le_trans (by omega) hb.2))).1 hse
              rw [cps_simple_eq hse]
              exact ⟨.beginS hfx v1 v2 f1 f2 he.1 hb.1, by simp only; omega⟩
            | false =>
              have he := (ihe _ (hoke.mono (Nat.le_trans (by omega) hb.2))).2 (fun x => V x ∨ Free x b)
                (.lam [lexId n, lexId (n + 1)] (cps b k (n + 2)).1) (by
                  intro z hz
                  rcases hz with hz | hz
                  · exact hVe e (by simp) _ (by omega) z hz
                  · refine ⟨by have := hokb.free hz; omega, fun hbz => ?_⟩
                    have hzx : z ≠ x := fun e => hfx (by rw [← e]; exact hz)
                    exact hok.uniq.2 z (by simp [binders, bindersAll, hbz]) (.appF _ (.lam (by simpa using hzx) hz)))
              exact ⟨.begin hse hfx (lexId_ne (by omega)) v1 v2 f1 f2 he.1 hb.1, by omega⟩
      · refine hgen ?_
        rw [cps.eq_def]; simp only [hs, Bool.false_eq_true, if_false]
        rfl
    · refine hgen ?_
      rw [cps.eq_def]; simp only [hs, Bool.false_eq_true, if_false]
      rfl

mutual
/-- CPS conversion meets its specification. -/
theorem gen : ∀ e : Exp, G e
  | .var x => G_var x
  | .set _ e => G_set (gen e)
  | .ite a b c => G_ite (gen a) (gen b) (gen c)
  | .prim _ _ es => G_prim (gens es)
  | .lam _ b => G_lam (gen b)
  | .fix _ ls b => G_fix (gens ls) (gen b)
  | .app (.lam _ b) es => G_applam (gen b) (gens es)
  | .app (.var x) es => G_app (by simp) (gen (.var x)) (gens es)
  | .app (.set x e) es => G_app (by simp) (gen (.set x e)) (gens es)
  | .app (.ite a b c) es => G_app (by simp) (gen (.ite a b c)) (gens es)
  | .app (.prim eff p as) es => G_app (by simp) (gen (.prim eff p as)) (gens es)
  | .app (.app f as) es => G_app (by simp) (gen (.app f as)) (gens es)
  | .app (.fix ids lams b) es => G_app (by simp) (gen (.fix ids lams b)) (gens es)
  | .app (.letcc x b) es => G_app (by simp) (gen (.letcc x b)) (gens es)
  | .app (.withcc c e) es => G_app (by simp) (gen (.withcc c e)) (gens es)
  | .letcc _ b => G_letcc (gen b)
  | .withcc (.lam ids b) e => G_withcc (G_lam (gen b)) (gen e) (fun _ _ h => by injection h with _ h; rw [← h]; exact gen b)
  | .withcc (.var x) e => G_withcc (gen (.var x)) (gen e) (fun _ _ h => nomatch h)
  | .withcc (.set x a) e => G_withcc (gen (.set x a)) (gen e) (fun _ _ h => nomatch h)
  | .withcc (.ite a b c) e => G_withcc (gen (.ite a b c)) (gen e) (fun _ _ h => nomatch h)
  | .withcc (.prim eff p as) e => G_withcc (gen (.prim eff p as)) (gen e) (fun _ _ h => nomatch h)
  | .withcc (.app f as) e => G_withcc (gen (.app f as)) (gen e) (fun _ _ h => nomatch h)
  | .withcc (.fix ids lams b) e => G_withcc (gen (.fix ids lams b)) (gen e) (fun _ _ h => nomatch h)
  | .withcc (.letcc x b) e => G_withcc (gen (.letcc x b)) (gen e) (fun _ _ h => nomatch h)
  | .withcc (.withcc c a) e => G_withcc (gen (.withcc c a)) (gen e) (fun _ _ h => nomatch h)
theorem gens : ∀ es : List Exp, ∀ e ∈ es, G e
  | [] => fun _ h => nomatch h
  | e :: es => fun e' h => by
    rcases List.mem_cons.mp h with h | h
    · rw [h]; exact gen e
    · exact gens es e' h
end

end Verif.Cps

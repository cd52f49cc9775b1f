import Verif.Boxes.Rel
import Verif.Boxes.Entry
import Verif.Core.Uniq
/-
`remove-assignments` satisfies the relation of `Rel` (C33).
-/
namespace Verif.Boxes
open Verif.Core

mutual
/-- Programs given to `remove-assignments`, with time stamps below `n`: parameters are local variables; procedures
of a group are never assigned. -/
def Src (n : Nat) : Exp → Prop
  | .var x => x.ts < n
  | .set x e => x.ts < n ∧ Src n e
  | .ite a b c => Src n a ∧ Src n b ∧ Src n c
  | .prim _ _ es => SrcAll n es
  | .app f es => Src n f ∧ SrcAll n es
  | .lam ids b => (∀ x ∈ ids, x.isGlobal = false ∧ x.ts < n) ∧ Src n b
  | .fix ids lams b => (∀ x ∈ ids, x.isGlobal = false ∧ x.ts < n ∧ ¬ AssignedIn x b ∧ ∀ l ∈ lams, ¬ AssignedIn x l) ∧ SrcAll n lams ∧ Src n b
  | .letcc x b => x.isGlobal = false ∧ x.ts < n ∧ Src n b
  | .withcc c e => Src n c ∧ Src n e
/-- lists of them. -/
def SrcAll (n : Nat) : List Exp → Prop
  | [] => True
  | e :: es => Src n e ∧ SrcAll n es
end

theorem srcAll_iff {n : Nat} : ∀ {es : List Exp}, SrcAll n es ↔ ∀ e ∈ es, Src n e := by
  intro es
  induction es with
  | nil => simp [SrcAll]
  | cons e es ih => simp [SrcAll, ih]

/-- free variables have small stamps. -/
theorem Src.free {n : Nat} {x : Id} {e : Exp} (h : Free x e) : Src n e → x.ts < n := by
  induction h with
  | var => intro w; simpa [Src] using w
  | setTarget e => intro w; simp only [Src] at w; exact w.1
  | set y _ ih => intro w; simp only [Src] at w; exact ih w.2
  | iteA _ _ _ ih => intro w; simp only [Src] at w; exact ih w.1
  | iteB _ _ _ ih => intro w; simp only [Src] at w; exact ih w.2.1
  | iteC _ _ _ ih => intro w; simp only [Src] at w; exact ih w.2.2
  | prim _ _ hm _ ih => intro w; simp only [Src] at w; exact ih (srcAll_iff.mp w _ hm)
  | appF _ _ ih => intro w; simp only [Src] at w; exact ih w.1
  | appA _ hm _ ih => intro w; simp only [Src] at w; exact ih (srcAll_iff.mp w.2 _ hm)
  | lam _ _ ih => intro w; simp only [Src] at w; exact ih w.2
  | fixL _ _ hm _ ih => intro w; simp only [Src] at w; exact ih (srcAll_iff.mp w.2.1 _ hm)
  | fixB _ _ _ ih => intro w; simp only [Src] at w; exact ih w.2.2
  | letcc _ _ ih => intro w; simp only [Src] at w; exact ih w.2.2
  | withccK _ _ ih => intro w; simp only [Src] at w; exact ih w.1
  | withccE _ _ ih => intro w; simp only [Src] at w; exact ih w.2

/-- Substitutions in force at a list of expressions with binders `bs`: they map local variables that are not bound there to new
variables. -/
structure Sub (n0 n : Nat) (s : List (Id × Id)) (bs : List Id) (A : Id → Prop) : Prop where
  le : n0 ≤ n
  img : ∀ x b, assq x s = some b → x.isGlobal = false ∧ b.isGlobal = false ∧ n0 ≤ b.ts ∧ b.ts < n
  out : ∀ x ∈ bs, assq x s = none
  asg : ∀ x, A x → x.isGlobal = true ∨ (assq x s).isSome = true

theorem Sub.mono {n0 n n' : Nat} {s : List (Id × Id)} {bs bs' : List Id} {A A' : Id → Prop} (h : Sub n0 n s bs A) (hn : n ≤ n')
    (hb : ∀ x ∈ bs', x ∈ bs) (hA : ∀ x, A' x → A x) : Sub n0 n' s bs' A' :=
  ⟨by have := h.le; omega, fun x b hx => by
    obtain ⟨h1, h2, h3, h4⟩ := h.img x b hx
    exact ⟨h1, h2, h3, by omega⟩, fun x hx => h.out x (hb x hx), fun x hx => h.asg x (hA x hx)⟩

theorem box_app {s : List (Id × Id)} {f : Exp} {es : List Exp} {n : Nat} (h1 : ∀ b, ¬ (f = .lam [] b ∧ es = []))
    (h2 : ∀ x e, ¬ (f = .lam [x] (.var x) ∧ es = [e])) :
    box s (.app f es) n = (.app (box s f n).1 (boxAll s es (box s f n).2).1, (boxAll s es (box s f n).2).2) := by
  rw [box.eq_def]
  split <;> rename_i heq
  all_goals first | (cases heq; done) | skip
  · cases heq; exact absurd ⟨rfl, rfl⟩ (h1 _)
  · cases heq
    rename_i x y e
    by_cases hxy : x = y
    · subst hxy; exact absurd ⟨rfl, rfl⟩ (h2 _ _)
    · simp only [if_neg hxy]; rw [boxAll, boxAll]
  · cases heq; rfl

theorem lexId_local (n : Nat) : (lexId n).isGlobal = false := by
  rw [Id.isGlobal]; exact decide_eq_false (by simp only [lexId]; omega)

/-- what `boxIds` yields. -/
theorem boxIds_spec (body : Exp) : ∀ (ids : List Id) (n : Nat), ids.Nodup →
    n ≤ (boxIds body ids n).2 ∧ ((boxIds body ids n).1.map (·.1)).Nodup ∧ ((boxIds body ids n).1.map (·.2)).Nodup ∧
    (∀ p ∈ (boxIds body ids n).1, p.1 ∈ ids ∧ p.2.isGlobal = false ∧ (n : Int) ≤ p.2.ts ∧ p.2.ts < (boxIds body ids n).2) ∧
    (∀ x ∈ ids, assigned x body = true → (assq x (boxIds body ids n).1).isSome = true) := by
  intro ids
  induction ids with
  | nil => intro n _; simp [boxIds]
  | cons x ids ih =>
    intro n hn
    rw [List.nodup_cons] at hn
    rw [boxIds]
    by_cases ha : assigned x body = true
    · simp only [ha, if_true]
      obtain ⟨h1, h2, h3, h4, h5⟩ := ih (n + 1) hn.2
      refine ⟨by omega, ?_, ?_, ?_, ?_⟩
      · simp only [List.map_cons, List.nodup_cons]
        refine ⟨fun h => ?_, h2⟩
        obtain ⟨p, hp, e⟩ := List.mem_map.mp h
        exact hn.1 (by have := (h4 p hp).1; rw [e] at this; exact this)
      · simp only [List.map_cons, List.nodup_cons]
        refine ⟨fun h => ?_, h3⟩
        obtain ⟨p, hp, e⟩ := List.mem_map.mp h
        have := (h4 p hp).2.2.1
        have e2 : p.2.ts = (n : Int) := by rw [e]; rfl
        omega
      · intro p hp
        simp only [List.mem_cons] at hp
        rcases hp with rfl | hp
        · exact ⟨by simp, lexId_local n, by simp [lexId], by simp only [lexId]; omega⟩
        · obtain ⟨q1, q2, q3, q4⟩ := h4 p hp
          exact ⟨by simp [q1], q2, by omega, q4⟩
      · intro y hy hya
        simp only [List.mem_cons] at hy
        rw [assq]
        split
        · rfl
        · rename_i hne
          exact h5 y (by rcases hy with h | h; exact absurd h hne; exact h) hya
    · simp only [ha]
      obtain ⟨h1, h2, h3, h4, h5⟩ := ih n hn.2
      refine ⟨h1, h2, h3, ?_, ?_⟩
      · intro p hp
        obtain ⟨q1, q⟩ := h4 p hp
        exact ⟨by simp [q1], q⟩
      · intro y hy hya
        simp only [List.mem_cons] at hy
        rcases hy with rfl | hy
        · exact absurd hya ha
        · exact h5 y hy hya

theorem assq_none_iff {x : Id} : ∀ {ps : List (Id × Id)}, (∀ p ∈ ps, p.1 ≠ x) → assq x ps = none := by
  intro ps
  induction ps with
  | nil => intro _; rfl
  | cons p ps ih =>
    obtain ⟨y, c⟩ := p
    intro h
    rw [assq, if_neg (fun e => h (y, c) (by simp) e.symm)]
    exact ih (fun q hq => h q (by simp [hq]))

theorem assq_of_mem {x b : Id} : ∀ {ps : List (Id × Id)}, (ps.map (·.1)).Nodup → (x, b) ∈ ps → assq x ps = some b := by
  intro ps
  induction ps with
  | nil => intro _ h; simp at h
  | cons p ps ih =>
    obtain ⟨y, c⟩ := p
    intro hn h
    simp only [List.map_cons, List.nodup_cons] at hn
    simp only [List.mem_cons, Prod.mk.injEq] at h
    rcases h with ⟨rfl, rfl⟩ | h
    · simp [assq]
    · have : x ≠ y := fun e => hn.1 (List.mem_map.mpr ⟨(x, b), h, e⟩)
      rw [assq, if_neg this]; exact ih hn.2 h

theorem assq_append {x : Id} {s : List (Id × Id)} : ∀ {ps : List (Id × Id)}, assq x (ps ++ s) = (assq x ps).or (assq x s) := by
  intro ps
  induction ps with
  | nil => simp [assq]
  | cons p ps ih =>
    obtain ⟨y, c⟩ := p
    simp only [List.cons_append, assq]
    split
    · rfl
    · exact ih

theorem assq_reverse {x : Id} {ps : List (Id × Id)} (hn : (ps.map (·.1)).Nodup) : assq x ps.reverse = assq x ps := by
  cases h : assq x ps with
  | none => exact assq_none_iff (fun p hp => assq_none h p (by simpa using hp))
  | some b => exact assq_of_mem (by rw [List.map_reverse]; exact (List.nodup_reverse).mpr hn) (by simpa using assq_mem h)

/-- the substitutions inside of a procedure. -/
theorem inner_eq {s : List (Id × Id)} {ids : List Id} {ps : List (Id × Id)} (hn : (ps.map (·.1)).Nodup) (hm : ∀ p ∈ ps, p.1 ∈ ids)
    (hs : ∀ x ∈ ids, assq x s = none) : (fun x => assq x (ps.reverse ++ s)) = inner (fun x => assq x s) ids ps := by
  funext y
  rw [assq_append, assq_reverse hn, inner]
  split
  · rename_i h; rw [hs y h]; cases assq y ps <;> rfl
  · rename_i h
    rw [assq_none_iff (x := y) (ps := ps) (fun p hp e => h (by have := hm p hp; rw [e] at this; exact this))]; rfl

/-- entering a procedure. -/
theorem Sub.entry {n0 n n' : Nat} {s : List (Id × Id)} {ids : List Id} {b t : Exp} {ps : List (Id × Id)}
    (h : Sub n0 n s (ids ++ binders b) (fun x => AssignedIn x (.lam ids b))) (hu : Uniq (.lam ids b)) (hw : Src n0 (.lam ids b))
    (h2 : (ps.map (·.1)).Nodup) (h3 : (ps.map (·.2)).Nodup)
    (h4 : ∀ p ∈ ps, p.1 ∈ ids ∧ p.2.isGlobal = false ∧ (n : Int) ≤ p.2.ts ∧ p.2.ts < n')
    (ht : Bx (fun x => assq x (ps.reverse ++ s)) b t) :
    Entry (fun x => assq x s) ids b (letExp (ps.map (·.2)) (ps.map (fun p => boxExp (.var p.1))) t) := by
  have hle := h.le
  simp only [Src] at hw
  have hids : ids.Nodup := by
    have := hu.1
    simp only [binders, List.nodup_append] at this
    exact this.1
  rw [inner_eq h2 (fun p hp => (h4 p hp).1) (fun x hx => h.out x (by simp [hx]))] at ht
  refine .mk hids h3 h2 (fun p hp => ?_) ?_ ?_ ht
  · obtain ⟨q1, q2, _⟩ := h4 p hp
    exact ⟨q1, (hw.1 _ q1).1, q2⟩
  · intro x hx p hp e
    have := (h4 p hp).2.2.1
    have := (hw.1 x hx).2
    rw [e] at this; omega
  · intro y hy
    have hyts : y.ts < n0 := Src.free hy (by simp only [Src]; exact hw)
    rw [tv]
    cases hsy : assq y s with
    | none =>
      simp only [Option.getD_none]
      refine ⟨by cases hy; assumption, fun p hp e => ?_⟩
      have := (h4 p hp).2.2.1
      rw [← e] at this; omega
    | some c =>
      simp only [Option.getD_some]
      obtain ⟨_, _, c1, c2⟩ := h.img y c hsy
      refine ⟨fun hm => ?_, fun p hp e => ?_⟩
      · have := (hw.1 c hm).2; omega
      · have := (h4 p hp).2.2.1
        rw [← e] at this; omega

theorem Sub.body {n0 n n' : Nat} {s : List (Id × Id)} {ids : List Id} {b : Exp} {ps : List (Id × Id)}
    (h : Sub n0 n s (ids ++ binders b) (fun x => AssignedIn x (.lam ids b))) (hu : Uniq (.lam ids b)) (hw : Src n0 (.lam ids b))
    (h1 : n ≤ n') (h2 : (ps.map (·.1)).Nodup)
    (h4 : ∀ p ∈ ps, p.1 ∈ ids ∧ p.2.isGlobal = false ∧ (n : Int) ≤ p.2.ts ∧ p.2.ts < n')
    (h5 : ∀ x ∈ ids, assigned x b = true → (assq x ps).isSome = true) :
    Sub n0 n' (ps.reverse ++ s) (binders b) (fun x => AssignedIn x b) := by
  have hle := h.le
  simp only [Src] at hw
  have hd := hu.1
  simp only [binders, List.nodup_append] at hd
  refine ⟨by omega, ?_, ?_, ?_⟩
  · intro x c hx
    rw [assq_append, assq_reverse h2] at hx
    cases hp : assq x ps with
    | some c' =>
      rw [hp] at hx
      have hx : some c' = some c := hx
      injection hx with hx; subst hx
      obtain ⟨q1, q2, q3, q4⟩ := h4 _ (assq_mem hp)
      simp only at q3
      exact ⟨(hw.1 _ q1).1, q2, by omega, q4⟩
    | none =>
      rw [hp, Option.none_or] at hx
      obtain ⟨q1, q2, q3, q4⟩ := h.img x c hx
      exact ⟨q1, q2, q3, by omega⟩
  · intro x hx
    rw [assq_append, assq_reverse h2, assq_none_iff, Option.none_or]
    · exact h.out x (by simp [hx])
    · intro p hp e
      exact hd.2.2 p.1 (h4 p hp).1 x hx e
  · intro x hx
    rw [assq_append, assq_reverse h2]
    by_cases hm : x ∈ ids
    · right
      have := h5 x hm ((c47_referenced x b).2.mpr hx)
      cases hp : assq x ps with
      | none => rw [hp] at this; cases this
      | some c => rfl
    · rcases h.asg x (.lam hm hx) with h | h
      · exact Or.inl h
      · right
        cases assq x ps with
        | none => exact h
        | some c => rfl

theorem Uniq.list {e : Exp} {es : List Exp} (hn : (binders e ++ bindersAll es).Nodup) : (binders e).Nodup ∧ (bindersAll es).Nodup := by
  rw [List.nodup_append] at hn; exact ⟨hn.1, hn.2.1⟩

/-- a `let` without variables. -/
theorem gen_null {s : List (Id × Id)} {b : Exp} {n : Nat} (h : Bx (fun x => assq x s) (.lam [] b) (box s (.lam [] b) n).1)
    (hn : n ≤ (box s (.lam [] b) n).2) :
    Bx (fun x => assq x s) (.app (.lam [] b) []) (box s (.app (.lam [] b) []) n).1 ∧ n ≤ (box s (.app (.lam [] b) []) n).2 := by
  have e : box s (.app (.lam [] b) []) n = box s b n := by rw [box]
  rw [e]
  rw [box] at h hn
  simp only [boxIds, List.map_nil, List.reverse_nil, List.nil_append] at h hn
  refine ⟨.null ?_, hn⟩
  generalize hT : (box s b n).1 = T at h
  generalize hL : letExp [] [] T = L at h
  cases h with
  | lam h =>
    cases h with
    | mk h1 h2 h3 hp h5 h6 hb =>
      rename_i t ps
      cases ps with
      | cons p ps => exact absurd (hp p (by simp)).1 (by simp)
      | nil =>
        simp only [letExp, List.map_nil, Exp.app.injEq, Exp.lam.injEq, true_and, and_true] at hL
        subst hL
        have : inner (fun x => assq x s) [] [] = fun x => assq x s := by funext y; simp [inner]
        rw [this] at hb
        exact hb

mutual
/-- `box-subst` yields the boxed form. -/
theorem gen (n0 : Nat) : (e : Exp) → ∀ (s : List (Id × Id)) (n : Nat), Src n0 e → Uniq e →
    Sub n0 n s (binders e) (fun x => AssignedIn x e) → Bx (fun x => assq x s) e (box s e n).1 ∧ n ≤ (box s e n).2
  | .var x, s, n, hw, hu, h => by
    rw [box]
    cases hx : assq x s with
    | none => exact ⟨.var hx, Nat.le_refl _⟩
    | some b =>
      obtain ⟨h1, h2, _⟩ := h.img x b hx
      exact ⟨.vbox h1 hx h2, Nat.le_refl _⟩
  | .set x e, s, n, hw, hu, h => by
    simp only [Src] at hw
    obtain ⟨hb, hn⟩ := gen n0 e s n hw.2 hu.set (h.mono (Nat.le_refl _) (fun y hy => by simpa [binders] using hy) (fun y hy => .set x hy))
    rw [box]
    cases hg : x.isGlobal with
    | true => simp only [if_true]; exact ⟨.gset hg hb, hn⟩
    | false =>
      simp only [Bool.false_eq_true, if_false]
      rcases h.asg x (.setTarget e) with h' | h'
      · rw [hg] at h'; cases h'
      · cases hx : assq x s with
        | none => rw [hx] at h'; cases h'
        | some b => exact ⟨.lset hg hx (h.img x b hx).2.1 hb, hn⟩
  | .ite a b c, s, n, hw, hu, h => by
    simp only [Src] at hw
    obtain ⟨h1, n1⟩ := gen n0 a s n hw.1 hu.iteA (h.mono (Nat.le_refl _) (fun y hy => by simp [binders, hy]) (fun y hy => .iteA b c hy))
    obtain ⟨h2, n2⟩ := gen n0 b s _ hw.2.1 hu.iteB (h.mono n1 (fun y hy => by simp [binders, hy]) (fun y hy => .iteB a c hy))
    obtain ⟨h3, n3⟩ := gen n0 c s _ hw.2.2 hu.iteC (h.mono (Nat.le_trans n1 n2) (fun y hy => by simp [binders, hy]) (fun y hy => .iteC a b hy))
    rw [box]
    exact ⟨.ite h1 h2 h3, by simp only; omega⟩
  | .prim eff p es, s, n, hw, hu, h => by
    simp only [Src] at hw
    obtain ⟨h1, n1⟩ := genAll n0 es s n hw hu.prim (h.mono (Nat.le_refl _) (fun y hy => by simpa [binders] using hy)
      (fun y ⟨e, he, hy⟩ => .prim eff p he hy))
    rw [box]
    exact ⟨.prim h1, n1⟩
  | .app f (e :: es), s, n, hw, hu, h => by
    have hw' := hw
    simp only [Src, SrcAll] at hw
    obtain ⟨h1, n1⟩ := gen n0 f s n hw.1 hu.appF (h.mono (Nat.le_refl _) (fun y hy => by simp [binders, hy]) (fun y hy => .appF _ hy))
    obtain ⟨h2, n2⟩ := genAll n0 (e :: es) s (box s f n).2 (by simp only [SrcAll]; exact hw.2) hu.appA
      (h.mono n1 (fun y hy => by simp only [binders, List.mem_append]; exact Or.inr hy) (fun y ⟨e', he, hy⟩ => .appA f he hy))
    by_cases hid : ∃ x, f = .lam [x] (.var x) ∧ es = []
    · obtain ⟨x, rfl, rfl⟩ := hid
      obtain ⟨h3, n3⟩ := gen n0 e s n hw.2.1 (hu.appA e (by simp)) (h.mono (Nat.le_refl _) (fun y hy => by simp [binders, bindersAll, hy])
        (fun y hy => .appA _ (by simp) hy))
      rw [box, if_pos rfl]
      simp only [Src] at hw
      exact ⟨.idlet (hw.1.1 x (by simp)).1 h3, n3⟩
    · rw [box_app (fun b hb => by cases hb.2) (fun x e' hx => hid ⟨x, hx.1, by simpa using congrArg List.tail hx.2⟩)]
      exact ⟨.app h1 h2, Nat.le_trans n1 n2⟩
  | .app f [], s, n, hw, hu, h => by
    simp only [Src] at hw
    obtain ⟨h1, n1⟩ := gen n0 f s n hw.1 hu.appF (h.mono (Nat.le_refl _) (fun y hy => by simp [binders, hy]) (fun y hy => .appF _ hy))
    by_cases hnl : ∃ b, f = .lam [] b
    · obtain ⟨b, rfl⟩ := hnl
      exact gen_null h1 n1
    · rw [box_app (fun b hb => hnl ⟨b, hb.1⟩) (fun x e' hx => by cases hx.2)]
      exact ⟨.app h1 (by rw [boxAll]; exact .nil), by rw [boxAll]; exact n1⟩
  | .lam ids b, s, n, hw, hu, h => by
    have hids : ids.Nodup := by
      have := hu.1
      simp only [binders, List.nodup_append] at this
      exact this.1
    obtain ⟨h1, h2, h3, h4, h5⟩ := boxIds_spec b ids n hids
    have hw' := hw
    simp only [Src] at hw
    obtain ⟨hb, hn⟩ := gen n0 b _ _ hw.2 hu.lam (Sub.body h hu hw' h1 h2 h4 h5)
    rw [box]
    exact ⟨.lam (Sub.entry h hu hw' h2 h3 h4 hb), Nat.le_trans h1 hn⟩
  | .fix ids lams b, s, n, hw, hu, h => by
    have hw' := hw
    simp only [Src] at hw
    obtain ⟨h1, n1⟩ := genAll n0 lams s n hw.2.1 hu.fixL ⟨h.le, h.img, fun y hy => h.out y (by simp [binders, hy]), fun y ⟨l, hl, hy⟩ => by
      have : y ∉ ids := fun hm => (hw.1 y hm).2.2.2 l hl hy
      exact h.asg y (.fixL b this hl hy)⟩
    obtain ⟨h2, n2⟩ := gen n0 b s _ hw.2.2 hu.fixB ((⟨h.le, h.img, fun y hy => h.out y (by simp [binders, hy]), fun y hy => by
      have : y ∉ ids := fun hm => (hw.1 y hm).2.2.1 hy
      exact h.asg y (.fixB lams this hy)⟩ : Sub n0 n s (binders b) (fun x => AssignedIn x b)).mono n1 (fun _ h => h) (fun _ h => h))
    rw [box]
    refine ⟨.fix h1 h2 (fun x hx => h.out x (by simp [binders, hx])) ?_, Nat.le_trans n1 n2⟩
    intro y hy
    rw [tv]
    cases hsy : assq y s with
    | none => simp only [Option.getD_none]; cases hy <;> assumption
    | some c =>
      simp only [Option.getD_some]
      intro hm
      have := (h.img y c hsy).2.2.1
      have := (hw.1 c hm).2.1
      omega
  | .letcc x b, s, n, hw, hu, h => by
    have hwl : Src n0 (.lam [x] b) := by simp only [Src] at hw ⊢; exact ⟨by simpa using ⟨hw.1, hw.2.1⟩, hw.2.2⟩
    have hul : Uniq (.lam [x] b) := ⟨by simpa [binders] using hu.1, fun y hy hf => hu.2 y (by simpa [binders] using hy) (by
      cases hf with
      | lam h1 h2 => exact .letcc (by simpa using h1) h2)⟩
    have hsl : Sub n0 n s ([x] ++ binders b) (fun y => AssignedIn y (.lam [x] b)) := h.mono (Nat.le_refl _) (fun y hy => by simpa [binders] using hy)
      (fun y hy => by
        cases hy with
        | lam h1 h2 => exact .letcc (by simpa using h1) h2)
    have hw' := hw
    simp only [Src] at hw
    rw [box]
    by_cases ha : assigned x b = true
    · rw [if_pos ha]
      have h4 : ∀ p ∈ [(x, lexId n)], p.1 ∈ [x] ∧ p.2.isGlobal = false ∧ (n : Int) ≤ p.2.ts ∧ p.2.ts < ((n + 1 : Nat) : Int) := by
        intro p hp
        simp only [List.mem_singleton] at hp
        subst hp
        exact ⟨by simp, lexId_local n, by simp [lexId], by simp only [lexId]; omega⟩
      have hb := gen n0 b ((x, lexId n) :: s) (n + 1) hw.2.2 hul.lam
        (Sub.body (ps := [(x, lexId n)]) (n' := n + 1) hsl hul hwl (by omega) (by simp) h4 (fun y hy _ => by simp at hy; simp [assq, hy]))
      exact ⟨.letcc1 (Sub.entry (ps := [(x, lexId n)]) hsl hul hwl (by simp) (by simp) h4 hb.1), by have := hb.2; simp only; omega⟩
    · rw [if_neg ha]
      have hb := gen n0 b s n hw.2.2 hu.letcc ⟨h.le, h.img, fun y hy => h.out y (by simp [binders, hy]), fun y hy => by
        have : y ≠ x := fun e => ha ((c47_referenced x b).2.mpr (e ▸ hy))
        exact h.asg y (.letcc this hy)⟩
      refine ⟨.letcc0 (h.out x (by simp [binders])) ?_ hb.1, hb.2⟩
      intro y hy
      rw [tv]
      cases hsy : assq y s with
      | none => simp only [Option.getD_none]; cases hy with | letcc h1 _ => exact h1
      | some c =>
        simp only [Option.getD_some]
        intro e
        have := (h.img y c hsy).2.2.1
        rw [e] at this
        omega
  | .withcc k e, s, n, hw, hu, h => by
    simp only [Src] at hw
    obtain ⟨h1, n1⟩ := gen n0 k s n hw.1 hu.withccK (h.mono (Nat.le_refl _) (fun y hy => by simp [binders, hy]) (fun y hy => .withccK e hy))
    obtain ⟨h2, n2⟩ := gen n0 e s _ hw.2 hu.withccE (h.mono n1 (fun y hy => by simp [binders, hy]) (fun y hy => .withccE k hy))
    rw [box]
    exact ⟨.withcc h1 h2, Nat.le_trans n1 n2⟩
/-- for lists. -/
theorem genAll (n0 : Nat) : (es : List Exp) → ∀ (s : List (Id × Id)) (n : Nat), SrcAll n0 es → (∀ e ∈ es, Uniq e) →
    Sub n0 n s (bindersAll es) (fun x => ∃ e ∈ es, AssignedIn x e) → Bxs (fun x => assq x s) es (boxAll s es n).1 ∧ n ≤ (boxAll s es n).2
  | [], s, n, _, _, _ => by rw [boxAll]; exact ⟨.nil, Nat.le_refl _⟩
  | e :: es, s, n, hw, hu, h => by
    simp only [SrcAll] at hw
    obtain ⟨h1, n1⟩ := gen n0 e s n hw.1 (hu e (by simp)) (h.mono (Nat.le_refl _) (fun y hy => by simp [bindersAll, hy])
      (fun y hy => ⟨e, by simp, hy⟩))
    obtain ⟨h2, n2⟩ := genAll n0 es s _ hw.2 (fun e' he => hu e' (by simp [he])) (h.mono n1 (fun y hy => by simp [bindersAll, hy])
      (fun y ⟨e', he, hy⟩ => ⟨e', by simp [he], hy⟩))
    rw [boxAll]
    exact ⟨.cons h1 h2, Nat.le_trans n1 n2⟩
end

end Verif.Boxes

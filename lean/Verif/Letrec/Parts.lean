import Verif.Letrec.Sim
import Verif.Core.Uniq
/-
Programs for which `fix-letrecs` is shown correct; the parts of `letrec` and `letrec*` (C35).
-/
namespace Verif.Letrec
open Verif.Core
open Verif.Fold (beginExp mapK)
open Verif.Boxes (lt_of_get)
open Verif.Beta (free_app free_lam free_set free_var)

/-- Conditions on a `letrec`: every operand is a procedure or a constant, none is classified as complex. -/
def OkRec (K : Nat → Option Nat) (ids : List Id) (rands : List Exp) (body : Exp) : Prop :=
  ∀ (i : Nat) x r, ids[i]? = some x → rands[i]? = some r →
    quick K r = true ∧ classify ids (vinfoAll rands (vinfo body)) x r ≠ .c

/-- Conditions on a `letrec*`: operands classified as simple are procedures or constants. -/
def OkStar (K : Nat → Option Nat) (ids : List Id) (rands : List Exp) (body : Exp) : Prop :=
  ∀ (i : Nat) x r, ids[i]? = some x → rands[i]? = some r →
    classify ids (vinfoAll rands (vinfo body)) x r = .s → quick K r = true

mutual
/-- The programs: there is no `fix`, `(void)` has no operands, and each `letrec` and `letrec*` is as above. -/
def Good (K : Nat → Option Nat) : Exp → Prop
  | .var _ => True
  | .set _ e => Good K e
  | .ite a b c => Good K a ∧ Good K b ∧ Good K c
  | .prim _ p es => (p = .void → es = []) ∧ Goods K es
  | .app f es => (∀ ids rands body, letrecParts (.app f es) = some (ids, rands, body) → OkRec K ids rands body) ∧
      (∀ ids rands body, letrecStarParts (.app f es) = some (ids, rands, body) → OkStar K ids rands body) ∧ Good K f ∧ Goods K es
  | .lam _ b => Good K b
  | .fix _ _ _ => False
  | .letcc _ b => Good K b
  | .withcc c e => Good K c ∧ Good K e
/-- for lists. -/
def Goods (K : Nat → Option Nat) : List Exp → Prop
  | [] => True
  | e :: es => Good K e ∧ Goods K es
end

/-- The variables of `letrec` and `letrec*` are in `U`, those of other `let`s are not. -/
def MarkApp (U : Id → Bool) (f : Exp) (es : List Exp) : Prop :=
  ∀ ids b, f = .lam ids b → ∀ x ∈ ids, U x = ((letrecParts (.app f es)).isSome || (letrecStarParts (.app f es)).isSome)

mutual
/-- the same for all parts. -/
def Marks (U : Id → Bool) : Exp → Prop
  | .var _ => True
  | .set _ e => Marks U e
  | .ite a b c => Marks U a ∧ Marks U b ∧ Marks U c
  | .prim _ _ es => Markss U es
  | .app f es => MarkApp U f es ∧ Marks U f ∧ Markss U es
  | .lam _ b => Marks U b
  | .fix _ lams b => Markss U lams ∧ Marks U b
  | .letcc _ b => Marks U b
  | .withcc c e => Marks U c ∧ Marks U e
/-- for lists. -/
def Markss (U : Id → Bool) : List Exp → Prop
  | [] => True
  | e :: es => Marks U e ∧ Markss U es
end

theorem Goods.mem {K : Nat → Option Nat} : ∀ {es : List Exp}, Goods K es → ∀ e ∈ es, Good K e := by
  intro es
  induction es with
  | nil => intro _ e h; simp at h
  | cons a es ih =>
    intro h e he
    rcases List.mem_cons.mp he with rfl | he
    · exact h.1
    · exact ih h.2 e he

theorem Markss.mem {U : Id → Bool} : ∀ {es : List Exp}, Markss U es → ∀ e ∈ es, Marks U e := by
  intro es
  induction es with
  | nil => intro _ e h; simp at h
  | cons a es ih =>
    intro h e he
    rcases List.mem_cons.mp he with rfl | he
    · exact h.1
    · exact ih h.2 e he

/-- all conditions; ids with time stamps from `k` on are unused. -/
structure Inv (P : Par) (k : Nat) (e : Exp) : Prop where
  uniq : Uniq e
  loc : ∀ x ∈ binders e, x.isGlobal = false
  bts : ∀ x ∈ binders e, x.ts < k
  fts : ∀ x, Free x e → x.ts < k
  good : Good P.K e
  marks : Marks P.U e

variable {P : Par} {k : Nat}

theorem Inv.mono {e : Exp} (h : Inv P k e) {k' : Nat} (hk : k ≤ k') : Inv P k' e :=
  ⟨h.uniq, h.loc, fun x hx => by have := h.bts x hx; omega, fun x hx => by have := h.fts x hx; omega, h.good, h.marks⟩

theorem Inv.part {e e' : Exp} (h : Inv P k e) (hu : Uniq e') (hb : ∀ x ∈ binders e', x ∈ binders e) (hf : ∀ x, Free x e' → Free x e ∨ x ∈ binders e)
    (hg : Good P.K e') (hm : Marks P.U e') : Inv P k e' :=
  ⟨hu, fun x hx => h.loc x (hb x hx), fun x hx => h.bts x (hb x hx), fun x hx => (hf x hx).elim (h.fts x) (h.bts x), hg, hm⟩

theorem Inv.set {x : Id} {e : Exp} (h : Inv P k (.set x e)) : Inv P k e :=
  h.part h.uniq.set (fun y hy => by simpa [binders] using hy) (fun y hy => Or.inl (.set _ hy)) h.good h.marks
theorem Inv.iteA {a b c : Exp} (h : Inv P k (.ite a b c)) : Inv P k a :=
  h.part h.uniq.iteA (fun y hy => by simp [binders, hy]) (fun y hy => Or.inl (.iteA _ _ hy)) h.good.1 h.marks.1
theorem Inv.iteB {a b c : Exp} (h : Inv P k (.ite a b c)) : Inv P k b :=
  h.part h.uniq.iteB (fun y hy => by simp [binders, hy]) (fun y hy => Or.inl (.iteB _ _ hy)) h.good.2.1 h.marks.2.1
theorem Inv.iteC {a b c : Exp} (h : Inv P k (.ite a b c)) : Inv P k c :=
  h.part h.uniq.iteC (fun y hy => by simp [binders, hy]) (fun y hy => Or.inl (.iteC _ _ hy)) h.good.2.2 h.marks.2.2
theorem Inv.prim {eff : Effect} {p : PrimName} {es : List Exp} (h : Inv P k (.prim eff p es)) : ∀ e ∈ es, Inv P k e := by
  intro e he
  have hg : Goods P.K es := by have := h.good; simp only [Good] at this; exact this.2
  have hm : Markss P.U es := by have := h.marks; simpa only [Marks] using this
  exact h.part (h.uniq.prim e he) (fun y hy => by simp only [binders]; exact mem_bindersAll.mpr ⟨e, he, hy⟩) (fun y hy => Or.inl (.prim _ _ he hy))
    (hg.mem e he) (hm.mem e he)
theorem Inv.appF {f : Exp} {es : List Exp} (h : Inv P k (.app f es)) : Inv P k f := by
  have hg := h.good
  have hm := h.marks
  simp only [Good] at hg
  simp only [Marks] at hm
  exact h.part h.uniq.appF (fun y hy => by simp [binders, hy]) (fun y hy => Or.inl (.appF _ hy)) hg.2.2.1 hm.2.1
theorem Inv.appA {f : Exp} {es : List Exp} (h : Inv P k (.app f es)) : ∀ e ∈ es, Inv P k e := by
  intro e he
  have hg := h.good
  have hm := h.marks
  simp only [Good] at hg
  simp only [Marks] at hm
  exact h.part (h.uniq.appA e he) (fun y hy => by simp only [binders, List.mem_append]; exact Or.inr (mem_bindersAll.mpr ⟨e, he, hy⟩)) (fun y hy => Or.inl (.appA _ he hy))
    (hg.2.2.2.mem e he) (hm.2.2.mem e he)
theorem Inv.lam {ids : List Id} {b : Exp} (h : Inv P k (.lam ids b)) : Inv P k b :=
  h.part h.uniq.lam (fun y hy => by simp [binders, hy]) (fun y hy => by
    by_cases hm : y ∈ ids
    · exact Or.inr (by simp [binders, hm])
    · exact Or.inl (.lam hm hy)) h.good h.marks
theorem Inv.letcc {x : Id} {b : Exp} (h : Inv P k (.letcc x b)) : Inv P k b :=
  h.part h.uniq.letcc (fun y hy => by simp [binders, hy]) (fun y hy => by
    by_cases hm : y = x
    · exact Or.inr (by simp [binders, hm])
    · exact Or.inl (.letcc hm hy)) h.good h.marks
theorem Inv.withccK {c e : Exp} (h : Inv P k (.withcc c e)) : Inv P k c :=
  h.part h.uniq.withccK (fun y hy => by simp [binders, hy]) (fun y hy => Or.inl (.withccK _ hy)) h.good.1 h.marks.1
theorem Inv.withccE {c e : Exp} (h : Inv P k (.withcc c e)) : Inv P k e :=
  h.part h.uniq.withccE (fun y hy => by simp [binders, hy]) (fun y hy => Or.inl (.withccE _ hy)) h.good.2 h.marks.2

theorem Inv.void {e : Exp} (h : Inv P k e) (hv : isVoid e = true) : ∃ eff, e = .prim eff .void [] := by
  cases e with
  | prim eff p es =>
    cases p <;> first | cases hv | skip
    have := h.good
    simp only [Good] at this
    rw [this.1 trivial]
    exact ⟨eff, rfl⟩
  | _ => cases hv

mutual
/-- nothing is done. -/
theorem LR.refl : (e : Exp) → Good P.K e → LR P e e
  | .var x, _ => .var x
  | .set _ e, h => .set (LR.refl e h)
  | .ite a b c, h => .ite (LR.refl a h.1) (LR.refl b h.2.1) (LR.refl c h.2.2)
  | .prim _ _ es, h => .prim (LRs.refl es (by simp only [Good] at h; exact h.2))
  | .app f es, h => by simp only [Good] at h; exact .app (LR.refl f h.2.2.1) (LRs.refl es h.2.2.2)
  | .lam _ b, h => .lam (LR.refl b h)
  | .fix _ _ _, h => h.elim
  | .letcc _ b, h => .letcc (LR.refl b h)
  | .withcc c e, h => .withcc (LR.refl c h.1) (LR.refl e h.2)
theorem LRs.refl : (es : List Exp) → Goods P.K es → LRs P es es
  | [], _ => .nil
  | e :: es, h => .cons (LR.refl e h.1) (LRs.refl es h.2)
end

/-! ### patterns -/

theorem referenced_iff {x : Id} {e : Exp} : referenced x e = true ↔ Free x e := (c47_referenced x e).1

theorem beginParts_some {e : Exp} {d : Id} {e1 e2 : Exp} (h : beginParts e = some (d, e1, e2)) : e = letExp [d] [e1] e2 ∧ ¬ Free d e2 := by
  unfold beginParts at h
  split at h
  · rename_i x b e0
    split at h
    · cases h
    · rename_i hr
      injection h with h; injection h with h1 h; injection h with h2 h3
      subst h1; subst h2; subst h3
      exact ⟨rfl, fun hf => hr (referenced_iff.mpr hf)⟩
  · cases h

theorem letrecParts_some {f : Exp} {es : List Exp} {ids : List Id} {rands : List Exp} {body : Exp} (h : letrecParts (.app f es) = some (ids, rands, body)) :
    ∃ d tmps asg, f = .lam ids (letExp [d] [letExp tmps rands asg] body) ∧ ids.length = es.length ∧ ids ≠ [] ∧ (∀ e ∈ es, isVoid e = true) ∧ ¬ Free d body ∧
      tmps.length = rands.length ∧ assignsOf tmps tmps asg = some ids := by
  unfold letrecParts at h
  split at h
  · rename_i f' es' ids0 b he
    injection he with he1 he2
    subst he1; subst he2
    split at h
    · rename_i hc
      split at h
      · rename_i d e1 e2 hb
        obtain ⟨rfl, hd⟩ := beginParts_some hb
        split at h
        · rename_i ids' rs ha
          split at h
          · rename_i hi
            injection h with h; injection h with h1 h; injection h with h2 h3
            subst h1; subst h2; subst h3
            unfold assignsParts at ha
            split at ha
            · split at ha
              · rename_i tmps asg rands hl
                cases hao : assignsOf tmps tmps asg with
                | none => rw [hao] at ha; cases ha
                | some is =>
                  rw [hao] at ha
                  simp only [Option.map_some, Option.some.injEq, Prod.mk.injEq] at ha
                  obtain ⟨h1, h2⟩ := ha
                  subst h1; subst h2
                  exact ⟨d, tmps, asg, rfl, hc.1, hc.2.1, fun e he => List.all_eq_true.mp hc.2.2 e he, hd, hl, by rw [hao, hi]⟩
              · cases ha
            · cases ha
          · cases h
        · cases h
      · cases h
    · cases h
  · cases h

theorem letrecStarParts_some {f : Exp} {es : List Exp} {ids : List Id} {rands : List Exp} {body : Exp} (h : letrecStarParts (.app f es) = some (ids, rands, body)) :
    ∃ chain, f = .lam ids chain ∧ ids.length = es.length ∧ ids ≠ [] ∧ (∀ e ∈ es, isVoid e = true) ∧ initsOf ids chain = some (rands, body) := by
  unfold letrecStarParts at h
  split at h
  · rename_i ids0 b es' he
    injection he with he1 he2
    subst he1; subst he2
    split at h
    · rename_i hc
      cases hi : initsOf ids0 b with
      | none => rw [hi] at h; cases h
      | some p =>
        rw [hi] at h
        simp only [Option.map_some, Option.some.injEq, Prod.mk.injEq] at h
        obtain ⟨rfl, rfl⟩ := h
        exact ⟨b, rfl, hc.1, hc.2.1, fun e he => List.all_eq_true.mp hc.2.2 e he, hi⟩
    · cases h
  · cases h

theorem assignsOf_cons {ts0 : List Id} {t : Id} {ts : List Id} {e : Exp} {ids : List Id} (h : assignsOf ts0 (t :: ts) e = some ids) :
    ∃ d x b ids', e = letExp [d] [.set x (.var t)] b ∧ ¬ Free d b ∧ x ∉ ts0 ∧ ids = x :: ids' ∧ assignsOf ts0 ts b = some ids' := by
  unfold assignsOf at h
  split at h
  · rename_i d x t' b hb
    obtain ⟨rfl, hd⟩ := beginParts_some hb
    split at h
    · rename_i hc
      obtain ⟨rfl, hx⟩ := hc
      cases ha : assignsOf ts0 ts b with
      | none => rw [ha] at h; cases h
      | some is =>
        rw [ha] at h
        injection h with h
        exact ⟨d, x, b, is, rfl, hd, hx, h.symm, ha⟩
    · cases h
  · cases h

theorem initsOf_cons {x : Id} {ids : List Id} {e : Exp} {rands : List Exp} {body : Exp} (h : initsOf (x :: ids) e = some (rands, body)) :
    ∃ d r b rands', e = letExp [d] [.set x r] b ∧ ¬ Free d b ∧ rands = r :: rands' ∧ initsOf ids b = some (rands', body) := by
  unfold initsOf at h
  split at h
  · rename_i d y r b hb
    obtain ⟨rfl, hd⟩ := beginParts_some hb
    split at h
    · rename_i hc
      subst hc
      cases ha : initsOf ids b with
      | none => rw [ha] at h; cases h
      | some p =>
        rw [ha] at h
        simp only [Option.map_some, Option.some.injEq, Prod.mk.injEq] at h
        obtain ⟨h1, h2⟩ := h
        exact ⟨d, r, b, p.1, rfl, hd, h1.symm, by rw [ha, ← h2]⟩
    · cases h
  · cases h

theorem assignsOf_length {ts0 : List Id} : ∀ {ts : List Id} {e : Exp} {ids : List Id}, assignsOf ts0 ts e = some ids → ids.length = ts.length := by
  intro ts
  induction ts with
  | nil =>
    intro e ids h
    simp only [assignsOf] at h
    split at h
    · injection h with h; subst h; rfl
    · cases h
  | cons t ts ih =>
    intro e ids h
    obtain ⟨d, x, b, ids', _, _, _, rfl, h'⟩ := assignsOf_cons h
    simp [ih h']

theorem initsOf_length : ∀ {ids : List Id} {e : Exp} {rands : List Exp} {body : Exp}, initsOf ids e = some (rands, body) → rands.length = ids.length := by
  intro ids
  induction ids with
  | nil => intro e rands body h; simp only [initsOf, Option.some.injEq, Prod.mk.injEq] at h; rw [← h.1]; rfl
  | cons x ids ih =>
    intro e rands body h
    obtain ⟨d, r, b, rands', _, _, rfl, h'⟩ := initsOf_cons h
    simp [ih h']

theorem initsOf_free {ids : List Id} : ∀ {e : Exp} {rands : List Exp} {body : Exp}, initsOf ids e = some (rands, body) → ∀ y,
    (((∃ r ∈ rands, Free y r) ∨ Free y body) → Free y e) ∧ (((∃ r ∈ rands, AssignedIn y r) ∨ AssignedIn y body) → AssignedIn y e) ∧
    (Free y e → y ∈ ids ∨ (∃ r ∈ rands, Free y r) ∨ Free y body) := by
  induction ids with
  | nil =>
    intro e rands body h y
    simp only [initsOf, Option.some.injEq, Prod.mk.injEq] at h
    obtain ⟨rfl, rfl⟩ := h
    simp
  | cons x ids ih =>
    intro e rands body h y
    obtain ⟨d, r, b, rands', rfl, hd, rfl, h'⟩ := initsOf_cons h
    obtain ⟨i1, i2, i3⟩ := ih h' y
    refine ⟨fun hy => ?_, fun hy => ?_, fun hy => ?_⟩
    · have : Free y r ∨ ((∃ r ∈ rands', Free y r) ∨ Free y body) := by
        simpa [or_assoc] using hy
      rcases this with hy | hy
      · exact .appA _ (List.mem_singleton.mpr rfl) (.set _ hy)
      · have := i1 hy
        refine .appF _ (.lam ?_ this)
        intro hm; rw [List.mem_singleton.mp hm] at this; exact hd this
    · have : AssignedIn y r ∨ ((∃ r ∈ rands', AssignedIn y r) ∨ AssignedIn y body) := by
        simpa [or_assoc] using hy
      rcases this with hy | hy
      · exact .appA _ (List.mem_singleton.mpr rfl) (.set _ hy)
      · have := i2 hy
        refine .appF _ (.lam ?_ this)
        intro hm; rw [List.mem_singleton.mp hm] at this; exact hd (assigned_free this)
    · rcases free_app.mp hy with hy | ⟨e0, he0, hy⟩
      · rcases i3 (free_lam.mp hy).2 with h | h | h
        · exact Or.inl (by simp [h])
        · obtain ⟨r', h1, h2⟩ := h
          exact Or.inr (Or.inl ⟨r', by simp [h1], h2⟩)
        · exact Or.inr (Or.inr h)
      · rw [List.mem_singleton.mp he0] at hy
        rcases free_set.mp hy with rfl | hy
        · exact Or.inl (by simp)
        · exact Or.inr (Or.inl ⟨r, by simp, hy⟩)

theorem initsOf_inv {ids : List Id} : ∀ {e : Exp} {rands : List Exp} {body : Exp}, initsOf ids e = some (rands, body) → Inv P k e → (∀ r ∈ rands, Inv P k r) ∧ Inv P k body := by
  induction ids with
  | nil =>
    intro e rands body h hi
    simp only [initsOf, Option.some.injEq, Prod.mk.injEq] at h
    obtain ⟨rfl, rfl⟩ := h
    exact ⟨fun r hr => by simp at hr, hi⟩
  | cons x ids ih =>
    intro e rands body h hi
    obtain ⟨d, r, b, rands', rfl, hd, rfl, h'⟩ := initsOf_cons h
    obtain ⟨i1, i2⟩ := ih h' hi.appF.lam
    refine ⟨fun r' hr => ?_, i2⟩
    rcases List.mem_cons.mp hr with rfl | hr
    · exact (hi.appA _ (List.mem_singleton.mpr rfl)).set
    · exact i1 r' hr

/-- free variables of the assignments. -/
theorem assignsOf_free {ts0 : List Id} : ∀ {ts : List Id} {e : Exp} {ids : List Id}, assignsOf ts0 ts e = some ids → ∀ {k : Nat}, Inv P k e → ∀ y, Free y e → y ∈ ids ∨ y ∈ ts := by
  intro ts
  induction ts with
  | nil =>
    intro e ids h k hi y hy
    simp only [assignsOf] at h
    split at h
    · rename_i hv
      obtain ⟨eff, rfl⟩ := hi.void hv
      cases hy with | prim _ _ hm => simp at hm
    · cases h
  | cons t ts ih =>
    intro e ids h k hi y hy
    obtain ⟨d, x, b, ids', rfl, _, _, rfl, h'⟩ := assignsOf_cons h
    rcases free_app.mp hy with hy | ⟨e0, he0, hy⟩
    · rcases ih h' hi.appF.lam y (free_lam.mp hy).2 with h | h
      · exact Or.inl (by simp [h])
      · exact Or.inr (by simp [h])
    · rw [List.mem_singleton.mp he0] at hy
      rcases free_set.mp hy with rfl | hy
      · exact Or.inl (by simp)
      · cases hy; exact Or.inr (by simp)

/-- the assignments. -/
theorem assignsOf_asg {ts0 : List Id} : ∀ {ts : List Id} {e : Exp} {ids : List Id}, assignsOf ts0 ts e = some ids → Inv P k e →
    (∀ x ∈ ids, x.isGlobal = false) → (∀ t ∈ ts, t.isGlobal = false ∧ P.U t = false) → (∀ d ∈ binders e, d ∉ ids ∧ d ∉ ts) → Asg P ids ts e := by
  intro ts
  induction ts with
  | nil =>
    intro e ids h hi _ _ _
    simp only [assignsOf] at h
    split at h
    · rename_i hv
      obtain ⟨eff, rfl⟩ := hi.void hv
      injection h with h; subst h
      exact .nil eff
    · cases h
  | cons t ts ih =>
    intro e ids h hi hx ht hd
    obtain ⟨d, x, b, ids', rfl, _, _, rfl, h'⟩ := assignsOf_cons h
    have hdd := hd d (by simp [letExp, binders])
    simp only [List.mem_cons, not_or] at hdd
    refine .cons (hx x (by simp)) (ht t (by simp)).1 (ht t (by simp)).2 hdd.1.2 hdd.2.2 (ih h' hi.appF.lam (fun x h => hx x (by simp [h])) (fun t h => ht t (by simp [h]))
      (fun d' hd' => ?_))
    have := hd d' (by simp [letExp, binders, hd'])
    simp only [List.mem_cons, not_or] at this
    exact ⟨this.1.2, this.2.2⟩

end Verif.Letrec

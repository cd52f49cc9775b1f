import Verif.Letrec.Props
import Verif.Boxes.Props
import Mathlib.Data.List.Nodup
/-
The programs `fix-letrecs` produces meet the conditions of `remove-assignments` (C74).
-/
namespace Verif.Front
open Verif.Core Verif.Letrec
open Verif.Fold (beginExp mapK)
open Verif.Beta (free_app free_lam free_set free_var)
variable {P : Par}

/-! ### counting binders, targets of assignments -/

/-- how often an id is bound. -/
def cb (x : Id) (e : Exp) : Nat := (binders e).count x
/-- the same for lists. -/
def cbs (x : Id) (es : List Exp) : Nat := (bindersAll es).count x

/-- one if the id is a local one with a time stamp from `k` to `k'`. -/
def ind (k k' : Nat) (x : Id) : Nat := if (k : Int) ≤ x.ts ∧ x.ts < k' then 1 else 0

theorem ind_add {k k1 k2 : Nat} (h1 : k ≤ k1) (h2 : k1 ≤ k2) (x : Id) : ind k k1 x + ind k1 k2 x = ind k k2 x := by
  unfold ind
  split <;> split <;> split <;> omega

theorem ind_one (k : Nat) (x : Id) : [lexId k].count x ≤ ind k (k + 1) x := by
  by_cases h : lexId k = x
  · subst h; rw [ind, if_pos (by simp only [lexId]; omega)]; simp
  · rw [List.count_eq_zero.mpr (by simpa [eq_comm] using h)]; exact Nat.zero_le _

mutual
/-- the targets of all assignments. -/
def tgts : Exp → List Id
  | .var _ => []
  | .set x e => x :: tgts e
  | .ite a b c => tgts a ++ (tgts b ++ tgts c)
  | .prim _ _ es => tgtsAll es
  | .app f es => tgts f ++ tgtsAll es
  | .lam _ b => tgts b
  | .fix _ lams b => tgtsAll lams ++ tgts b
  | .letcc _ b => tgts b
  | .withcc k e => tgts k ++ tgts e
/-- the same for lists. -/
def tgtsAll : List Exp → List Id
  | [] => []
  | e :: es => tgts e ++ tgtsAll es
end

theorem mem_tgtsAll {x : Id} : ∀ {es : List Exp}, x ∈ tgtsAll es ↔ ∃ e ∈ es, x ∈ tgts e := by
  intro es
  induction es with
  | nil => simp [tgtsAll]
  | cons e es ih => simp [tgtsAll, ih]

theorem tgts_of {x : Id} {e : Exp} (h : AssignedIn x e) : x ∈ tgts e := by
  induction h with
  | setTarget => simp [tgts]
  | set _ _ ih => simp [tgts, ih]
  | iteA _ _ _ ih => simp [tgts, ih]
  | iteB _ _ _ ih => simp [tgts, ih]
  | iteC _ _ _ ih => simp [tgts, ih]
  | prim _ _ hm _ ih => exact mem_tgtsAll.mpr ⟨_, hm, ih⟩
  | appF _ _ ih => simp [tgts, ih]
  | appA _ hm _ ih => simp only [tgts, List.mem_append]; exact Or.inr (mem_tgtsAll.mpr ⟨_, hm, ih⟩)
  | lam _ _ ih => simpa [tgts] using ih
  | fixL _ _ hm _ ih => simp only [tgts, List.mem_append]; exact Or.inl (mem_tgtsAll.mpr ⟨_, hm, ih⟩)
  | fixB _ _ _ ih => simp [tgts, ih]
  | letcc _ _ ih => simpa [tgts] using ih
  | withccK _ _ ih => simp [tgts, ih]
  | withccE _ _ ih => simp [tgts, ih]

mutual
theorem assigned_of {x : Id} : (e : Exp) → x ∈ tgts e → x ∉ binders e → AssignedIn x e
  | .var _, h, _ => by simp [tgts] at h
  | .set y e, h, hb => by
    rcases List.mem_cons.mp h with rfl | h
    · exact .setTarget _
    · exact .set _ (assigned_of e h hb)
  | .ite a b c, h, hb => by
    simp only [binders, List.mem_append, not_or] at hb
    simp only [tgts, List.mem_append] at h
    rcases h with h | h | h
    · exact .iteA _ _ (assigned_of a h hb.1)
    · exact .iteB _ _ (assigned_of b h hb.2.1)
    · exact .iteC _ _ (assigned_of c h hb.2.2)
  | .prim _ _ es, h, hb => by
    obtain ⟨e, he, ha⟩ := assigneds_of es h hb
    exact .prim _ _ he ha
  | .app f es, h, hb => by
    simp only [binders, List.mem_append, not_or] at hb
    simp only [tgts, List.mem_append] at h
    rcases h with h | h
    · exact .appF _ (assigned_of f h hb.1)
    · obtain ⟨e, he, ha⟩ := assigneds_of es h hb.2
      exact .appA _ he ha
  | .lam ids b, h, hb => by
    simp only [binders, List.mem_append, not_or] at hb
    exact .lam hb.1 (assigned_of b h hb.2)
  | .fix ids lams b, h, hb => by
    simp only [binders, List.mem_append, not_or] at hb
    simp only [tgts, List.mem_append] at h
    rcases h with h | h
    · obtain ⟨e, he, ha⟩ := assigneds_of lams h hb.2.1
      exact .fixL _ hb.1 he ha
    · exact .fixB _ hb.1 (assigned_of b h hb.2.2)
  | .letcc y b, h, hb => by
    simp only [binders, List.mem_cons, not_or] at hb
    exact .letcc hb.1 (assigned_of b h hb.2)
  | .withcc k e, h, hb => by
    simp only [binders, List.mem_append, not_or] at hb
    simp only [tgts, List.mem_append] at h
    rcases h with h | h
    · exact .withccK _ (assigned_of k h hb.1)
    · exact .withccE _ (assigned_of e h hb.2)
theorem assigneds_of {x : Id} : (es : List Exp) → x ∈ tgtsAll es → x ∉ bindersAll es → ∃ e ∈ es, AssignedIn x e
  | [], h, _ => by simp [tgtsAll] at h
  | e :: es, h, hb => by
    simp only [bindersAll, List.mem_append, not_or] at hb
    simp only [tgtsAll, List.mem_append] at h
    rcases h with h | h
    · exact ⟨e, List.mem_cons_self, assigned_of e h hb.1⟩
    · obtain ⟨e', he, ha⟩ := assigneds_of es h hb.2
      exact ⟨e', List.mem_cons_of_mem _ he, ha⟩
end

mutual
/-- procedures of a group are not assigned. -/
def FixOk : Exp → Prop
  | .var _ => True
  | .set _ e => FixOk e
  | .ite a b c => FixOk a ∧ FixOk b ∧ FixOk c
  | .prim _ _ es => FixOks es
  | .app f es => FixOk f ∧ FixOks es
  | .lam _ b => FixOk b
  | .fix ids lams b => (∀ x ∈ ids, x ∉ tgts b ∧ x ∉ tgtsAll lams) ∧ FixOks lams ∧ FixOk b
  | .letcc _ b => FixOk b
  | .withcc k e => FixOk k ∧ FixOk e
/-- for lists. -/
def FixOks : List Exp → Prop
  | [] => True
  | e :: es => FixOk e ∧ FixOks es
end

theorem fixOks_iff : ∀ {es : List Exp}, FixOks es ↔ ∀ e ∈ es, FixOk e := by
  intro es
  induction es with
  | nil => simp [FixOks]
  | cons e es ih => simp [FixOks, ih]

mutual
theorem src_of {n : Nat} : (e : Exp) → (∀ x ∈ binders e, x.isGlobal = false ∧ x.ts < n) → (∀ x, Free x e → x.ts < n) → FixOk e → Boxes.Src n e
  | .var x, _, hf, _ => hf x .var
  | .set x e, hb, hf, ho => ⟨hf x (.setTarget _), src_of e hb (fun y hy => hf y (.set _ hy)) ho⟩
  | .ite a b c, hb, hf, ho => by
    simp only [binders, List.mem_append] at hb
    exact ⟨src_of a (fun x hx => hb x (Or.inl hx)) (fun y hy => hf y (.iteA _ _ hy)) ho.1,
      src_of b (fun x hx => hb x (Or.inr (Or.inl hx))) (fun y hy => hf y (.iteB _ _ hy)) ho.2.1,
      src_of c (fun x hx => hb x (Or.inr (Or.inr hx))) (fun y hy => hf y (.iteC _ _ hy)) ho.2.2⟩
  | .prim _ _ es, hb, hf, ho => srcs_of es hb (fun y e he hy => hf y (.prim _ _ he hy)) ho
  | .app f es, hb, hf, ho => by
    simp only [binders, List.mem_append] at hb
    exact ⟨src_of f (fun x hx => hb x (Or.inl hx)) (fun y hy => hf y (.appF _ hy)) ho.1,
      srcs_of es (fun x hx => hb x (Or.inr hx)) (fun y e he hy => hf y (.appA _ he hy)) ho.2⟩
  | .lam ids b, hb, hf, ho => by
    simp only [binders, List.mem_append] at hb
    refine ⟨fun x hx => hb x (Or.inl hx), src_of b (fun x hx => hb x (Or.inr hx)) (fun y hy => ?_) ho⟩
    by_cases hm : y ∈ ids
    · exact (hb y (Or.inl hm)).2
    · exact hf y (.lam hm hy)
  | .fix ids lams b, hb, hf, ho => by
    simp only [binders, List.mem_append] at hb
    refine ⟨fun x hx => ⟨(hb x (Or.inl hx)).1, (hb x (Or.inl hx)).2, fun ha => (ho.1 x hx).1 (tgts_of ha), fun l hl ha => (ho.1 x hx).2 (mem_tgtsAll.mpr ⟨l, hl, tgts_of ha⟩)⟩,
      srcs_of lams (fun x hx => hb x (Or.inr (Or.inl hx))) (fun y e he hy => ?_) ho.2.1, src_of b (fun x hx => hb x (Or.inr (Or.inr hx))) (fun y hy => ?_) ho.2.2⟩
    · by_cases hm : y ∈ ids
      · exact (hb y (Or.inl hm)).2
      · exact hf y (.fixL _ hm he hy)
    · by_cases hm : y ∈ ids
      · exact (hb y (Or.inl hm)).2
      · exact hf y (.fixB _ hm hy)
  | .letcc x b, hb, hf, ho => by
    simp only [binders, List.mem_cons] at hb
    refine ⟨(hb x (Or.inl rfl)).1, (hb x (Or.inl rfl)).2, src_of b (fun y hy => hb y (Or.inr hy)) (fun y hy => ?_) ho⟩
    by_cases hm : y = x
    · rw [hm]; exact (hb x (Or.inl rfl)).2
    · exact hf y (.letcc hm hy)
  | .withcc k e, hb, hf, ho => by
    simp only [binders, List.mem_append] at hb
    exact ⟨src_of k (fun x hx => hb x (Or.inl hx)) (fun y hy => hf y (.withccK _ hy)) ho.1,
      src_of e (fun x hx => hb x (Or.inr hx)) (fun y hy => hf y (.withccE _ hy)) ho.2⟩
theorem srcs_of {n : Nat} : (es : List Exp) → (∀ x ∈ bindersAll es, x.isGlobal = false ∧ x.ts < n) → (∀ x, ∀ e ∈ es, Free x e → x.ts < n) → FixOks es → Boxes.SrcAll n es
  | [], _, _, _ => trivial
  | e :: es, hb, hf, ho => by
    simp only [bindersAll, List.mem_append] at hb
    exact ⟨src_of e (fun x hx => hb x (Or.inl hx)) (fun y hy => hf y e List.mem_cons_self hy) ho.1,
      srcs_of es (fun x hx => hb x (Or.inr hx)) (fun y e' he hy => hf y e' (List.mem_cons_of_mem _ he) hy) ho.2⟩
end

mutual
theorem fixOk_good {K : Nat → Option Nat} : (e : Exp) → Good K e → FixOk e
  | .var _, _ => trivial
  | .set _ e, h => fixOk_good e h
  | .ite a b c, h => ⟨fixOk_good a h.1, fixOk_good b h.2.1, fixOk_good c h.2.2⟩
  | .prim _ _ es, h => fixOks_goods es h.2
  | .app f es, h => ⟨fixOk_good f h.2.2.1, fixOks_goods es h.2.2.2⟩
  | .lam _ b, h => fixOk_good b h
  | .fix _ _ _, h => h.elim
  | .letcc _ b, h => fixOk_good b h
  | .withcc c e, h => ⟨fixOk_good c h.1, fixOk_good e h.2⟩
theorem fixOks_goods {K : Nat → Option Nat} : (es : List Exp) → Goods K es → FixOks es
  | [], _ => trivial
  | e :: es, h => ⟨fixOk_good e h.1, fixOks_goods es h.2⟩
end

/-! ### the parts of the result -/

/-- A part of the program and what became of it. -/
structure Kept (k k' : Nat) (e e' : Exp) : Prop where
  le : k ≤ k'
  cnt : ∀ x, cb x e' ≤ cb x e + ind k k' x
  free : ∀ x, Free x e' → Free x e
  tgt : ∀ x ∈ tgts e', x ∈ tgts e ∨ x ∈ binders e
  ok : FixOk e'

/-- the same for lists. -/
structure Kepts (k k' : Nat) (es es' : List Exp) : Prop where
  le : k ≤ k'
  len : es'.length = es.length
  cnt : ∀ x, cbs x es' ≤ cbs x es + ind k k' x
  free : ∀ (x : Id) (i : Nat) e e', es[i]? = some e → es'[i]? = some e' → Free x e' → Free x e
  tgt : ∀ x ∈ tgtsAll es', x ∈ tgtsAll es ∨ x ∈ bindersAll es
  ok : FixOks es'

theorem Kepts.free' {k k' : Nat} {es es' : List Exp} (h : Kepts k k' es es') {x : Id} {e' : Exp} (he : e' ∈ es') (hx : Free x e') : ∃ e ∈ es, Free x e := by
  obtain ⟨i, hi⟩ := List.mem_iff_getElem?.mp he
  have hl : i < es.length := by rw [← h.len]; exact Boxes.lt_of_get hi
  exact ⟨es[i], List.getElem_mem hl, h.free x i _ _ (List.getElem?_eq_getElem hl) hi hx⟩

theorem cbs_append (x : Id) (es es' : List Exp) : cbs x (es ++ es') = cbs x es + cbs x es' := by
  induction es with
  | nil => simp [cbs, bindersAll]
  | cons e es ih => simp only [cbs, bindersAll, List.cons_append, List.count_append] at ih ⊢; omega

theorem cb_begins (x : Id) (b : Exp) : ∀ (es : List Exp) (k : Nat), cb x (begins k es b).1 ≤ cbs x es + cb x b + ind k (begins k es b).2 x := by
  intro es
  induction es with
  | nil => intro k; simp only [begins]; omega
  | cons e es ih =>
    intro k
    have h1 := ih (k + 1)
    have h2 := ind_add (Nat.le_add_right k 1) (begins_le (body := b) es (k + 1)) x
    have h3 := ind_one k x
    simp only [begins, beginExp, cb, cbs, binders, bindersAll, List.count_append, List.append_nil] at h1 h2 h3 ⊢
    omega

theorem free_begins' {b : Exp} {y : Id} : ∀ (es : List Exp) (k : Nat), Free y (begins k es b).1 → Free y b ∨ ∃ e ∈ es, Free y e := by
  intro es
  induction es with
  | nil => intro k h; exact Or.inl h
  | cons e es ih =>
    intro k h
    rcases free_app.mp h with h | ⟨e0, he0, h⟩
    · rcases ih (k + 1) (free_lam.mp h).2 with h | ⟨e', h1, h2⟩
      · exact Or.inl h
      · exact Or.inr ⟨e', List.mem_cons_of_mem _ h1, h2⟩
    · rw [List.mem_singleton.mp he0] at h
      exact Or.inr ⟨e, List.mem_cons_self, h⟩

theorem tgts_begins {b : Exp} {y : Id} : ∀ (es : List Exp) (k : Nat), y ∈ tgts (begins k es b).1 → y ∈ tgts b ∨ y ∈ tgtsAll es := by
  intro es
  induction es with
  | nil => intro k h; exact Or.inl h
  | cons e es ih =>
    intro k h
    simp only [begins, beginExp, tgts, tgtsAll, List.mem_append, List.append_nil] at h ⊢
    rcases h with h | h
    · rcases ih (k + 1) h with h | h
      · exact Or.inl h
      · exact Or.inr (Or.inr h)
    · exact Or.inr (Or.inl h)

theorem fixOk_begins {b : Exp} (hb : FixOk b) : ∀ (es : List Exp) (k : Nat), FixOks es → FixOk (begins k es b).1 := by
  intro es
  induction es with
  | nil => intro k _; exact hb
  | cons e es ih => intro k h; exact ⟨ih (k + 1) h.2, h.1, trivial⟩

/-! #### `varassign*-exp` -/

theorem cnt_tmps (x : Id) (k : Nat) : ∀ n, ((List.range n).map (fun i => lexId (k + i))).count x ≤ ind k (k + n) x := by
  intro n
  induction n with
  | zero => simp
  | succ n ih =>
    rw [List.range_succ, List.map_append, List.count_append]
    have h1 := ind_one (k + n) x
    have h2 := ind_add (Nat.le_add_right k n) (Nat.le_succ (k + n)) x
    simp only [List.map_cons, List.map_nil] at h1 h2 ⊢
    have h3 : k + (n + 1) = (k + n).succ := rfl
    rw [h3, ← h2]
    exact Nat.add_le_add ih h1

theorem cbs_sets (x : Id) : ∀ (ids tmps : List Id), cbs x (List.zipWith (fun x t => .set x (.var t)) ids tmps) = 0 := by
  intro ids
  induction ids with
  | nil => intro tmps; simp [cbs, bindersAll]
  | cons y ids ih =>
    intro tmps
    cases tmps with
    | nil => simp [cbs, bindersAll]
    | cons t tmps =>
      have := ih tmps
      simp only [cbs, List.zipWith_cons_cons, bindersAll, binders, List.nil_append] at this ⊢
      exact this

theorem mem_sets {ids tmps : List Id} {e : Exp} (h : e ∈ List.zipWith (fun x t => Exp.set x (.var t)) ids tmps) : ∃ x ∈ ids, ∃ t ∈ tmps, e = .set x (.var t) := by
  induction ids generalizing tmps with
  | nil => simp at h
  | cons y ids ih =>
    cases tmps with
    | nil => simp at h
    | cons t tmps =>
      rcases List.mem_cons.mp h with rfl | h
      · exact ⟨y, List.mem_cons_self, t, List.mem_cons_self, rfl⟩
      · obtain ⟨x, h1, t', h2, h3⟩ := ih h
        exact ⟨x, List.mem_cons_of_mem _ h1, t', List.mem_cons_of_mem _ h2, h3⟩

theorem assigns_le (k : Nat) (ids : List Id) (rands : List Exp) : k ≤ (assignsExp k ids rands).2 :=
  Nat.le_trans (Nat.le_add_right _ _) (begins_le _ _)

theorem cb_assigns (x : Id) (k : Nat) (ids : List Id) (rands : List Exp) : cb x (assignsExp k ids rands).1 ≤ cbs x rands + ind k (assignsExp k ids rands).2 x := by
  have h1 := cnt_tmps x k ids.length
  have h2 := cb_begins x voidExp (List.zipWith (fun x t => .set x (.var t)) ids ((List.range ids.length).map (fun i => lexId (k + i)))) (k + ids.length)
  have h3 := ind_add (Nat.le_add_right k ids.length) (begins_le (body := voidExp) (List.zipWith (fun x t => .set x (.var t)) ids ((List.range ids.length).map (fun i => lexId (k + i)))) (k + ids.length)) x
  rw [cbs_sets] at h2
  have h4 : cb x voidExp = 0 := rfl
  simp only [assignsExp, letExp, cb, cbs, binders, List.count_append] at h1 h2 h3 h4 ⊢
  omega

theorem free_assigns {k : Nat} {ids : List Id} {rands : List Exp} {y : Id} (h : Free y (assignsExp k ids rands).1) : y ∈ ids ∨ ∃ r ∈ rands, Free y r := by
  rcases free_app.mp h with h | h
  · obtain ⟨h1, h2⟩ := free_lam.mp h
    rcases free_begins' _ _ h2 with h3 | ⟨e, he, h3⟩
    · cases h3 with | prim _ _ hm => simp at hm
    · obtain ⟨x, hx, t, ht, rfl⟩ := mem_sets he
      rcases free_set.mp h3 with rfl | h3
      · exact Or.inl hx
      · rw [free_var.mp h3] at h1; exact absurd ht h1
  · exact Or.inr h

theorem tgts_assigns {k : Nat} {ids : List Id} {rands : List Exp} {y : Id} (h : y ∈ tgts (assignsExp k ids rands).1) : y ∈ ids ∨ y ∈ tgtsAll rands := by
  simp only [assignsExp, letExp, tgts, List.mem_append] at h
  rcases h with h | h
  · rcases tgts_begins _ _ h with h | h
    · simp [voidExp, tgts, tgtsAll] at h
    · obtain ⟨e, he, h⟩ := mem_tgtsAll.mp h
      obtain ⟨x, hx, t, ht, rfl⟩ := mem_sets he
      simp only [tgts, List.mem_cons, List.not_mem_nil, or_false] at h
      exact Or.inl (h ▸ hx)
  · exact Or.inr h

theorem fixOk_assigns (k : Nat) (ids : List Id) {rands : List Exp} (h : FixOks rands) : FixOk (assignsExp k ids rands).1 := by
  refine ⟨fixOk_begins (b := voidExp) trivial _ _ (fixOks_iff.mpr fun e he => ?_), h⟩
  obtain ⟨x, _, t, _, rfl⟩ := mem_sets he
  trivial

/-! #### `refix` -/

/-- bound ids of bindings. -/
def cp (x : Id) (bs : List (Id × Exp)) : Nat := (bs.map (·.1)).count x + cbs x (bs.map (·.2))

theorem cp_cons (x : Id) (b : Id × Exp) (bs : List (Id × Exp)) : cp x (b :: bs) = [b.1].count x + cb x b.2 + cp x bs := by
  have h1 : List.count x (b.1 :: bs.map (·.1)) = [b.1].count x + (bs.map (·.1)).count x := by
    rw [← List.count_append]; rfl
  simp only [cp, cbs, cb, List.map_cons, bindersAll, List.count_append, h1]
  omega

theorem cp_filter (x : Id) (p : Id × Exp → Bool) (bs : List (Id × Exp)) : cp x (bs.filter p) + cp x (bs.filter (fun b => !p b)) = cp x bs := by
  induction bs with
  | nil => rfl
  | cons b bs ih =>
    rw [cp_cons]
    cases hp : p b
    · rw [List.filter_cons_of_neg (by simp [hp]), List.filter_cons_of_pos (by simp [hp]), cp_cons]; omega
    · rw [List.filter_cons_of_pos hp, List.filter_cons_of_neg (by simp [hp]), cp_cons]; omega

theorem cb_refix (x : Id) (body : Exp) : ∀ (n : Nat) (bs : List (Id × Exp)), cb x (refix n bs body) ≤ cp x bs + cb x body := by
  intro n
  induction n with
  | zero => intro bs; simp only [refix]; omega
  | succ n ih =>
    intro bs
    simp only [refix]
    split
    · split
      · omega
      · simp only [cb, cp, cbs, binders, List.count_append]; omega
    · have h1 := ih (bs.filter fun b => !mentionsNone (bs.map (·.1)) b.2)
      have h2 := cp_filter x (fun b => mentionsNone (bs.map (·.1)) b.2) bs
      have h3 : ∀ (l : List (Id × Exp)) (e : Exp), cb x (letExp (l.map (·.1)) (l.map (·.2)) e) = cp x l + cb x e := by
        intro l e; simp only [letExp, cb, cp, cbs, binders, List.count_append]; omega
      rw [h3]
      omega

theorem refix_free {body : Exp} {y : Id} : ∀ (n : Nat) (bs : List (Id × Exp)), bs.length ≤ n → Free y (refix n bs body) →
    y ∉ bs.map (·.1) ∧ (Free y body ∨ ∃ b ∈ bs, Free y b.2) := by
  intro n
  induction n with
  | zero =>
    intro bs hl h
    have : bs = [] := List.length_eq_zero_iff.mp (Nat.le_zero.mp hl)
    subst this
    exact ⟨by simp, Or.inl h⟩
  | succ n ih =>
    intro bs hl h
    simp only [refix] at h
    split at h
    · rename_i hs
      split at h
      · rename_i hlb
        have : bs = [] := by
          rw [List.isEmpty_iff, List.filter_eq_nil_iff] at hs hlb
          cases bs with
          | nil => rfl
          | cons b bs =>
            have h1 := hs b List.mem_cons_self
            have h2 := hlb b List.mem_cons_self
            simp at h1 h2
            rw [h1] at h2; cases h2
        subst this
        exact ⟨by simp, Or.inl h⟩
      · cases h with
        | fixL _ hn hm hy =>
          obtain ⟨b, hb, rfl⟩ := List.mem_map.mp hm
          exact ⟨hn, Or.inr ⟨b, hb, hy⟩⟩
        | fixB _ hn hy => exact ⟨hn, Or.inl hy⟩
    · rename_i hs
      have hsplit : ∀ b ∈ bs, b ∈ bs.filter (fun b => mentionsNone (bs.map (·.1)) b.2) ∨ b ∈ bs.filter (fun b => !mentionsNone (bs.map (·.1)) b.2) := by
        intro b hb
        simp only [List.mem_filter]
        cases mentionsNone (bs.map (·.1)) b.2 <;> simp [hb]
      rcases free_app.mp h with h | ⟨e0, he0, h⟩
      · obtain ⟨h1, h2⟩ := free_lam.mp h
        have hlen : (bs.filter fun b => !mentionsNone (bs.map (·.1)) b.2).length ≤ n := by
          have h3 := List.length_eq_length_filter_add (l := bs) (fun b => mentionsNone (bs.map (·.1)) b.2)
          have h4 : (bs.filter fun b => mentionsNone (bs.map (·.1)) b.2).length ≠ 0 := by
            intro e; exact hs (List.isEmpty_iff.mpr (List.length_eq_zero_iff.mp e))
          omega
        obtain ⟨h3, h4⟩ := ih _ hlen h2
        refine ⟨fun hm => ?_, h4.imp id (fun ⟨b, hb, h⟩ => ⟨b, (List.mem_filter.mp hb).1, h⟩)⟩
        obtain ⟨b, hb, rfl⟩ := List.mem_map.mp hm
        rcases hsplit b hb with hb | hb
        · exact h1 (List.mem_map.mpr ⟨b, hb, rfl⟩)
        · exact h3 (List.mem_map.mpr ⟨b, hb, rfl⟩)
      · obtain ⟨b, hb, rfl⟩ := List.mem_map.mp he0
        obtain ⟨hb, hn⟩ := List.mem_filter.mp hb
        exact ⟨fun hm => mentionsNone_iff.mp hn y hm h, Or.inr ⟨b, hb, h⟩⟩

theorem tgts_refix {body : Exp} {y : Id} : ∀ (n : Nat) (bs : List (Id × Exp)), y ∈ tgts (refix n bs body) → y ∈ tgts body ∨ y ∈ tgtsAll (bs.map (·.2)) := by
  intro n
  induction n with
  | zero => intro bs h; exact Or.inl h
  | succ n ih =>
    intro bs h
    simp only [refix] at h
    split at h
    · split at h
      · exact Or.inl h
      · simp only [tgts, List.mem_append] at h
        exact h.symm
    · simp only [letExp, tgts, List.mem_append] at h
      have sub : ∀ (p : Id × Exp → Bool), y ∈ tgtsAll ((bs.filter p).map (·.2)) → y ∈ tgtsAll (bs.map (·.2)) := by
        intro p h
        obtain ⟨e, he, h⟩ := mem_tgtsAll.mp h
        obtain ⟨b, hb, rfl⟩ := List.mem_map.mp he
        exact mem_tgtsAll.mpr ⟨_, List.mem_map.mpr ⟨b, (List.mem_filter.mp hb).1, rfl⟩, h⟩
      rcases h with h | h
      · rcases ih _ h with h | h
        · exact Or.inl h
        · exact Or.inr (sub _ h)
      · exact Or.inr (sub _ h)

theorem fixOk_refix {body : Exp} (hb : FixOk body) : ∀ (n : Nat) (bs : List (Id × Exp)), FixOks (bs.map (·.2)) →
    (∀ b ∈ bs, b.1 ∉ tgts body ∧ b.1 ∉ tgtsAll (bs.map (·.2))) → FixOk (refix n bs body) := by
  intro n
  induction n with
  | zero => intro bs _ _; exact hb
  | succ n ih =>
    intro bs ho ht
    simp only [refix]
    split
    · split
      · exact hb
      · refine ⟨fun x hx => ?_, ho, hb⟩
        obtain ⟨b, hb, rfl⟩ := List.mem_map.mp hx
        exact ht b hb
    · have sub : ∀ (p : Id × Exp → Bool), FixOks ((bs.filter p).map (·.2)) := by
        intro p
        refine fixOks_iff.mpr fun e he => ?_
        obtain ⟨b, hb, rfl⟩ := List.mem_map.mp he
        exact fixOks_iff.mp ho _ (List.mem_map.mpr ⟨b, (List.mem_filter.mp hb).1, rfl⟩)
      refine ⟨ih _ (sub _) (fun b hb => ⟨(ht b (List.mem_filter.mp hb).1).1, fun h => (ht b (List.mem_filter.mp hb).1).2 ?_⟩), sub _⟩
      obtain ⟨e, he, h⟩ := mem_tgtsAll.mp h
      obtain ⟨b', hb', rfl⟩ := List.mem_map.mp he
      exact mem_tgtsAll.mpr ⟨_, List.mem_map.mpr ⟨b', (List.mem_filter.mp hb').1, rfl⟩, h⟩

/-! #### bindings -/

/-- bound ids of bindings. -/
def cB (x : Id) (bs : List Bnd) : Nat := (bs.map (·.id)).count x + cbs x (bs.map (·.exp))

theorem cB_cons (x : Id) (b : Bnd) (bs : List Bnd) : cB x (b :: bs) = [b.id].count x + cb x b.exp + cB x bs := by
  have h1 : List.count x (b.id :: bs.map (·.id)) = [b.id].count x + (bs.map (·.id)).count x := by
    rw [← List.count_append]; rfl
  simp only [cB, cbs, cb, List.map_cons, bindersAll, List.count_append, h1]
  omega

theorem ofKind_pos {c : Kind} {b : Bnd} {bs : List Bnd} (h : b.kind = c) : ofKind c (b :: bs) = b :: ofKind c bs :=
  List.filter_cons_of_pos (by simp [h])
theorem ofKind_neg {c : Kind} {b : Bnd} {bs : List Bnd} (h : b.kind ≠ c) : ofKind c (b :: bs) = ofKind c bs :=
  List.filter_cons_of_neg (by simp [h])

theorem cB_kinds (x : Id) (bs : List Bnd) : cB x (ofKind .s bs) + cB x (ofKind .c bs) + cB x (ofKind .l bs) + cB x (ofKind .u bs) = cB x bs := by
  induction bs with
  | nil => rfl
  | cons b bs ih =>
    cases hk : b.kind with
    | s => rw [ofKind_pos hk, ofKind_neg (by simp [hk]), ofKind_neg (by simp [hk]), ofKind_neg (by simp [hk]), cB_cons, cB_cons]; omega
    | c => rw [ofKind_pos hk, ofKind_neg (by simp [hk]), ofKind_neg (by simp [hk]), ofKind_neg (by simp [hk]), cB_cons, cB_cons]; omega
    | l => rw [ofKind_pos hk, ofKind_neg (by simp [hk]), ofKind_neg (by simp [hk]), ofKind_neg (by simp [hk]), cB_cons, cB_cons]; omega
    | u => rw [ofKind_pos hk, ofKind_neg (by simp [hk]), ofKind_neg (by simp [hk]), ofKind_neg (by simp [hk]), cB_cons, cB_cons]; omega

theorem cbs_exps (x : Id) (bs : List Bnd) : (bs.map (·.id)).count x + cbs x (bs.map (·.exp)) = cB x bs := rfl

theorem cbs_voids (x : Id) (bs : List Bnd) : cbs x (bs.map (fun _ => voidExp)) = 0 := by
  induction bs with
  | nil => rfl
  | cons b bs ih =>
    simp only [cbs, List.map_cons, bindersAll, List.count_append] at ih ⊢
    rw [ih]; rfl

theorem cp_bnds (x : Id) (bs : List Bnd) : cp x (bs.map (fun b => (b.id, b.exp))) = cB x bs := by
  simp only [cp, cB, List.map_map]; rfl

theorem cb_around (x : Id) (bs : List Bnd) (inner : Exp) :
    cb x (around bs inner) ≤ cB x (ofKind .s bs) + ((ofKind .c bs).map (·.id)).count x + cB x (ofKind .l bs) + cb x inner := by
  have h1 := cb_refix x inner (ofKind .l bs).length ((ofKind .l bs).map (fun b => (b.id, b.exp)))
  have h2 := cbs_append x ((ofKind .s bs).map (·.exp)) ((ofKind .c bs).map (fun _ => voidExp))
  rw [cbs_voids] at h2
  rw [cp_bnds] at h1
  simp only [around, letExp, cb, cbs, cB, binders, List.count_append] at h1 h2 ⊢
  omega

theorem mem_ofKind {c : Kind} {b : Bnd} {bs : List Bnd} : b ∈ ofKind c bs ↔ b ∈ bs ∧ b.kind = c := by
  simp [ofKind, List.mem_filter]

theorem around_free {bs : List Bnd} {inner : Exp} {y : Id} (h : Free y (around bs inner)) :
    (∃ b ∈ bs, b.kind = .s ∧ Free y b.exp) ∨ ((∀ b ∈ bs, b.kind ≠ .u → y ≠ b.id) ∧ (Free y inner ∨ ∃ b ∈ bs, Free y b.exp)) := by
  rcases free_app.mp h with h | ⟨e0, he0, h⟩
  · obtain ⟨h1, h2⟩ := free_lam.mp h
    obtain ⟨h3, h4⟩ := refix_free _ _ (by simp) h2
    refine Or.inr ⟨fun b hb hu e => ?_, h4.imp id (fun ⟨p, hp, h⟩ => ?_)⟩
    · subst e
      simp only [List.mem_append, not_or] at h1
      cases hk : b.kind with
      | u => exact hu hk
      | s => exact h1.1 (List.mem_map.mpr ⟨b, mem_ofKind.mpr ⟨hb, hk⟩, rfl⟩)
      | c => exact h1.2 (List.mem_map.mpr ⟨b, mem_ofKind.mpr ⟨hb, hk⟩, rfl⟩)
      | l =>
        refine h3 ?_
        rw [List.map_map]
        exact List.mem_map.mpr ⟨b, mem_ofKind.mpr ⟨hb, hk⟩, rfl⟩
    · obtain ⟨b, hb, rfl⟩ := List.mem_map.mp hp
      exact ⟨b, (mem_ofKind.mp hb).1, h⟩
  · rcases List.mem_append.mp he0 with h0 | h0
    · obtain ⟨b, hb, rfl⟩ := List.mem_map.mp h0
      exact Or.inl ⟨b, (mem_ofKind.mp hb).1, (mem_ofKind.mp hb).2, h⟩
    · obtain ⟨b, hb, rfl⟩ := List.mem_map.mp h0
      cases h with | prim _ _ hm => simp at hm

theorem tgts_around {bs : List Bnd} {inner : Exp} {y : Id} (h : y ∈ tgts (around bs inner)) : y ∈ tgts inner ∨ y ∈ tgtsAll (bs.map (·.exp)) := by
  have sub : ∀ c, y ∈ tgtsAll ((ofKind c bs).map (·.exp)) → y ∈ tgtsAll (bs.map (·.exp)) := by
    intro c h
    obtain ⟨e, he, h⟩ := mem_tgtsAll.mp h
    obtain ⟨b, hb, rfl⟩ := List.mem_map.mp he
    exact mem_tgtsAll.mpr ⟨_, List.mem_map.mpr ⟨b, (mem_ofKind.mp hb).1, rfl⟩, h⟩
  simp only [around, letExp, tgts, List.mem_append] at h
  rcases h with h | h
  · rcases tgts_refix _ _ h with h | h
    · exact Or.inl h
    · rw [List.map_map] at h
      exact Or.inr (sub .l h)
  · obtain ⟨e, he, h⟩ := mem_tgtsAll.mp h
    rcases List.mem_append.mp he with he | he
    · exact Or.inr (sub .s (mem_tgtsAll.mpr ⟨e, he, h⟩))
    · obtain ⟨b, hb, rfl⟩ := List.mem_map.mp he
      simp [voidExp, tgts, tgtsAll] at h

theorem fixOks_kind {c : Kind} {bs : List Bnd} (h : FixOks (bs.map (·.exp))) : FixOks ((ofKind c bs).map (·.exp)) := by
  refine fixOks_iff.mpr fun e he => ?_
  obtain ⟨b, hb, rfl⟩ := List.mem_map.mp he
  exact fixOks_iff.mp h _ (List.mem_map.mpr ⟨b, (mem_ofKind.mp hb).1, rfl⟩)

theorem fixOk_around {bs : List Bnd} {inner : Exp} (ho : FixOks (bs.map (·.exp))) (hi : FixOk inner)
    (hl : ∀ b ∈ bs, b.kind = .l → b.id ∉ tgts inner ∧ b.id ∉ tgtsAll (bs.map (·.exp))) : FixOk (around bs inner) := by
  refine ⟨fixOk_refix hi _ _ ?_ fun p hp => ?_, fixOks_iff.mpr fun e he => ?_⟩
  · rw [List.map_map]; exact fixOks_kind ho
  · obtain ⟨b, hb, rfl⟩ := List.mem_map.mp hp
    obtain ⟨h1, h2⟩ := hl b (mem_ofKind.mp hb).1 (mem_ofKind.mp hb).2
    refine ⟨h1, fun h => h2 ?_⟩
    rw [List.map_map] at h
    obtain ⟨e, he, h⟩ := mem_tgtsAll.mp h
    obtain ⟨b', hb', rfl⟩ := List.mem_map.mp he
    exact mem_tgtsAll.mpr ⟨_, List.mem_map.mpr ⟨b', (mem_ofKind.mp hb').1, rfl⟩, h⟩
  · rcases List.mem_append.mp he with he | he
    · exact fixOks_iff.mp (fixOks_kind ho) _ he
    · obtain ⟨b, hb, rfl⟩ := List.mem_map.mp he
      trivial

/-- What is known of the bindings of a `letrec` or `letrec*`, and of its body. -/
structure Bs (bs : List Bnd) (body : Exp) : Prop where
  nodup : (bs.map (·.id)).Nodup
  s : ∀ b ∈ bs, b.kind = .s → ∀ b' ∈ bs, ¬ Free b'.id b.exp
  u : ∀ b ∈ bs, b.kind = .u → ¬ Free b.id body ∧ ∀ b' ∈ bs, ¬ Free b.id b'.exp
  l : ∀ b ∈ bs, b.kind = .l → b.id ∉ tgts body ∧ b.id ∉ tgtsAll (bs.map (·.exp))
  ok : FixOk body ∧ FixOks (bs.map (·.exp))

/-- What is to be shown of the result. -/
structure Res (k k' : Nat) (bs : List Bnd) (body e' : Exp) : Prop where
  le : k ≤ k'
  cnt : ∀ x, cb x e' ≤ cB x bs + cb x body + ind k k' x
  free : ∀ x, Free x e' → x ∉ bs.map (·.id) ∧ (Free x body ∨ ∃ b ∈ bs, Free x b.exp)
  tgt : ∀ x ∈ tgts e', x ∈ bs.map (·.id) ∨ x ∈ tgts body ∨ x ∈ tgtsAll (bs.map (·.exp))
  ok : FixOk e'

/-- Both kinds of results: an inner part with the assignments of the complex bindings. -/
theorem res_of {k k' : Nat} {bs : List Bnd} {body inner : Exp} (hB : Bs bs body) (hk : k ≤ k')
    (hc : ∀ x, cb x inner ≤ cbs x ((ofKind .c bs).map (·.exp)) + cbs x ((ofKind .u bs).map (·.exp)) + cb x body + ind k k' x)
    (hf : ∀ x, Free x inner → (∃ b ∈ bs, b.kind = .c ∧ b.id = x) ∨ Free x body ∨ ∃ b ∈ bs, Free x b.exp)
    (ht : ∀ x ∈ tgts inner, (∃ b ∈ bs, b.kind = .c ∧ b.id = x) ∨ x ∈ tgts body ∨ x ∈ tgtsAll (bs.map (·.exp))) (ho : FixOk inner) :
    Res k k' bs body (around bs inner) := by
  refine ⟨hk, fun x => ?_, fun x hx => ?_, fun x hx => ?_, ?_⟩
  · have h1 := cb_around x bs inner
    have h2 := hc x
    have h3 := cB_kinds x bs
    simp only [cB] at h1 h3 ⊢
    omega
  · rcases around_free hx with ⟨b, hb, hs, hx⟩ | ⟨h1, h2⟩
    · refine ⟨fun hm => ?_, Or.inr ⟨b, hb, hx⟩⟩
      obtain ⟨b', hb', rfl⟩ := List.mem_map.mp hm
      exact hB.s b hb hs b' hb' hx
    · have h3 : Free x body ∨ ∃ b ∈ bs, Free x b.exp := by
        rcases h2 with h2 | h2
        · rcases hf x h2 with ⟨b, hb, hk, rfl⟩ | h2
          · exact absurd rfl (h1 b hb (by simp [hk]))
          · exact h2
        · exact Or.inr h2
      refine ⟨fun hm => ?_, h3⟩
      obtain ⟨b, hb, rfl⟩ := List.mem_map.mp hm
      by_cases hu : b.kind = .u
      · obtain ⟨h4, h5⟩ := hB.u b hb hu
        rcases h3 with h3 | ⟨b', hb', h3⟩
        · exact h4 h3
        · exact h5 b' hb' h3
      · exact h1 b hb hu rfl
  · rcases tgts_around hx with hx | hx
    · rcases ht x hx with ⟨b, hb, _, rfl⟩ | h
      · exact Or.inl (List.mem_map.mpr ⟨b, hb, rfl⟩)
      · exact Or.inr h
    · exact Or.inr (Or.inr hx)
  · refine fixOk_around hB.ok.2 ho fun b hb hl => ?_
    obtain ⟨h1, h2⟩ := hB.l b hb hl
    refine ⟨fun h => ?_, h2⟩
    rcases ht _ h with ⟨b', hb', hk, e⟩ | h | h
    · rw [List.inj_on_of_nodup_map hB.nodup hb' hb e, hl] at hk
      cases hk
    · exact h1 h
    · exact h2 h

theorem tgts_kind {c : Kind} {bs : List Bnd} {x : Id} (h : x ∈ tgtsAll ((ofKind c bs).map (·.exp))) : x ∈ tgtsAll (bs.map (·.exp)) := by
  obtain ⟨e, he, h⟩ := mem_tgtsAll.mp h
  obtain ⟨b, hb, rfl⟩ := List.mem_map.mp he
  exact mem_tgtsAll.mpr ⟨_, List.mem_map.mpr ⟨b, (mem_ofKind.mp hb).1, rfl⟩, h⟩

theorem letrec_res {k : Nat} {bs : List Bnd} {body : Exp} (hB : Bs bs body) : Res k (letrecResult k bs body).2 bs body (letrecResult k bs body).1 := by
  simp only [letrecResult]
  by_cases hc : (ofKind .c bs).isEmpty = true
  · rw [if_pos hc]
    refine res_of hB (begins_le _ _) (fun x => ?_) (fun x hx => ?_) (fun x hx => ?_) (fixOk_begins hB.ok.1 _ _ (fixOks_kind hB.ok.2))
    · have := cb_begins x body ((ofKind .u bs).map (·.exp)) k
      simp only at this ⊢
      omega
    · rcases free_begins' _ _ hx with h | ⟨e, he, h⟩
      · exact Or.inr (Or.inl h)
      · obtain ⟨b, hb, rfl⟩ := List.mem_map.mp he
        exact Or.inr (Or.inr ⟨b, (mem_ofKind.mp hb).1, h⟩)
    · rcases tgts_begins _ _ hx with h | h
      · exact Or.inr (Or.inl h)
      · exact Or.inr (Or.inr (tgts_kind h))
  · rw [if_neg hc]
    obtain ⟨v, hv⟩ : ∃ v, v = assignsExp k ((ofKind .c bs).map (·.id)) ((ofKind .c bs).map (·.exp)) := ⟨_, rfl⟩
    rw [← hv]
    show Res k (begins (v.2 + 1) ((ofKind .u bs).map (·.exp)) (beginExp v.2 v.1 body)).2 bs body
      (around bs (begins (v.2 + 1) ((ofKind .u bs).map (·.exp)) (beginExp v.2 v.1 body)).1)
    have hle := assigns_le k ((ofKind .c bs).map (·.id)) ((ofKind .c bs).map (·.exp))
    rw [← hv] at hle
    have hle2 := begins_le (body := beginExp v.2 v.1 body)
      ((ofKind .u bs).map (·.exp)) (v.2 + 1)
    refine res_of hB (Nat.le_trans (Nat.le_succ_of_le hle) hle2) (fun x => ?_) (fun x hx => ?_) (fun x hx => ?_)
      (fixOk_begins (b := beginExp _ _ _) ⟨hB.ok.1, by rw [hv]; exact fixOk_assigns _ _ (fixOks_kind hB.ok.2), trivial⟩ _ _ (fixOks_kind hB.ok.2))
    · have h1 := cb_begins x (beginExp v.2 v.1 body)
        ((ofKind .u bs).map (·.exp)) (v.2 + 1)
      have h2 := cb_assigns x k ((ofKind .c bs).map (·.id)) ((ofKind .c bs).map (·.exp))
      rw [← hv] at h2
      have h3 : ∀ (j : Nat) (e1 e2 : Exp), cb x (beginExp j e1 e2) = [lexId j].count x + cb x e2 + cb x e1 := by
        intro j e1 e2
        simp only [beginExp, cb, binders, bindersAll, List.count_append, List.append_nil]
      rw [h3] at h1
      have h4 := ind_one v.2 x
      have h5 := ind_add hle (Nat.le_add_right _ 1) x
      have h6 := ind_add (Nat.le_trans hle (Nat.le_add_right _ 1)) hle2 x
      omega
    · rcases free_begins' _ _ hx with h | ⟨e, he, h⟩
      · rcases free_app.mp h with h | ⟨e0, he0, h⟩
        · exact Or.inr (Or.inl (free_lam.mp h).2)
        · rw [List.mem_singleton.mp he0] at h
          rw [hv] at h
          rcases free_assigns h with h | ⟨r, hr, h⟩
          · obtain ⟨b, hb, rfl⟩ := List.mem_map.mp h
            exact Or.inl ⟨b, (mem_ofKind.mp hb).1, (mem_ofKind.mp hb).2, rfl⟩
          · obtain ⟨b, hb, rfl⟩ := List.mem_map.mp hr
            exact Or.inr (Or.inr ⟨b, (mem_ofKind.mp hb).1, h⟩)
      · obtain ⟨b, hb, rfl⟩ := List.mem_map.mp he
        exact Or.inr (Or.inr ⟨b, (mem_ofKind.mp hb).1, h⟩)
    · rcases tgts_begins _ _ hx with h | h
      · simp only [beginExp, tgts, tgtsAll, List.mem_append, List.not_mem_nil, or_false] at h
        rcases h with h | h
        · exact Or.inr (Or.inl h)
        · rw [hv] at h
          rcases tgts_assigns h with h | h
          · obtain ⟨b, hb, rfl⟩ := List.mem_map.mp h
            exact Or.inl ⟨b, (mem_ofKind.mp hb).1, (mem_ofKind.mp hb).2, rfl⟩
          · exact Or.inr (Or.inr (tgts_kind h))
      · exact Or.inr (Or.inr (tgts_kind h))

theorem cb_star (x : Id) (bs : List Bnd) : cbs x (starInits bs) = cbs x ((ofKind .c bs).map (·.exp)) + cbs x ((ofKind .u bs).map (·.exp)) := by
  induction bs with
  | nil => rfl
  | cons b bs ih =>
    have hcons : ∀ (e : Exp) (es : List Exp), cbs x (e :: es) = cb x e + cbs x es := fun e es => by
      simp only [cbs, cb, bindersAll, List.count_append]
    cases hk : b.kind with
    | s => 
      have : starInits (b :: bs) = starInits bs := by simp [starInits, hk]
      rw [this, ofKind_neg (by simp [hk]), ofKind_neg (by simp [hk]), ih]
    | l => 
      have : starInits (b :: bs) = starInits bs := by simp [starInits, hk]
      rw [this, ofKind_neg (by simp [hk]), ofKind_neg (by simp [hk]), ih]
    | c =>
      have : starInits (b :: bs) = .set b.id b.exp :: starInits bs := by simp [starInits, hk]
      rw [this, ofKind_pos hk, ofKind_neg (by simp [hk]), hcons, List.map_cons, hcons, ih]
      have : cb x (.set b.id b.exp) = cb x b.exp := rfl
      omega
    | u =>
      have : starInits (b :: bs) = b.exp :: starInits bs := by simp [starInits, hk]
      rw [this, ofKind_neg (by simp [hk]), ofKind_pos hk, hcons, List.map_cons, hcons, ih]
      omega

theorem mem_star {bs : List Bnd} {e : Exp} (h : e ∈ starInits bs) : ∃ b ∈ bs, (b.kind = .c ∧ e = .set b.id b.exp) ∨ e = b.exp := by
  simp only [starInits, List.mem_map, List.mem_filter] at h
  obtain ⟨b, ⟨hb, _⟩, rfl⟩ := h
  refine ⟨b, hb, ?_⟩
  by_cases hk : b.kind = .c
  · rw [if_pos hk]; exact Or.inl ⟨hk, rfl⟩
  · rw [if_neg hk]; exact Or.inr rfl

theorem star_res {k : Nat} {bs : List Bnd} {body : Exp} (hB : Bs bs body) : Res k (letrecStarResult k bs body).2 bs body (letrecStarResult k bs body).1 := by
  simp only [letrecStarResult]
  have hex : ∀ b ∈ bs, FixOk b.exp := fun b hb => fixOks_iff.mp hB.ok.2 _ (List.mem_map.mpr ⟨b, hb, rfl⟩)
  refine res_of hB (begins_le _ _) (fun x => ?_) (fun x hx => ?_) (fun x hx => ?_) (fixOk_begins hB.ok.1 _ _ (fixOks_iff.mpr fun e he => ?_))
  · have := cb_begins x body (starInits bs) k
    rw [cb_star] at this
    omega
  · rcases free_begins' _ _ hx with h | ⟨e, he, h⟩
    · exact Or.inr (Or.inl h)
    · obtain ⟨b, hb, ⟨hk, rfl⟩ | rfl⟩ := mem_star he
      · rcases free_set.mp h with rfl | h
        · exact Or.inl ⟨b, hb, hk, rfl⟩
        · exact Or.inr (Or.inr ⟨b, hb, h⟩)
      · exact Or.inr (Or.inr ⟨b, hb, h⟩)
  · rcases tgts_begins _ _ hx with h | h
    · exact Or.inr (Or.inl h)
    · obtain ⟨e, he, h⟩ := mem_tgtsAll.mp h
      obtain ⟨b, hb, ⟨hk, rfl⟩ | rfl⟩ := mem_star he
      · rcases List.mem_cons.mp h with rfl | h
        · exact Or.inl ⟨b, hb, hk, rfl⟩
        · exact Or.inr (Or.inr (mem_tgtsAll.mpr ⟨_, List.mem_map.mpr ⟨b, hb, rfl⟩, h⟩))
      · exact Or.inr (Or.inr (mem_tgtsAll.mpr ⟨_, List.mem_map.mpr ⟨b, hb, rfl⟩, h⟩))
  · obtain ⟨b, hb, ⟨hk, rfl⟩ | rfl⟩ := mem_star he
    · exact hex b hb
    · exact hex b hb

end Verif.Front

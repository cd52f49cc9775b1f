import Verif.Expand.Spec
import Verif.Macros.Props
import Mathlib.Data.List.Forall2
import Mathlib.Data.Option.Basic
/-
Corresponding forms: two forms of the same shape whose identifiers correspond one to one.  `syntax-rules` treats
corresponding forms alike.
-/
namespace Verif.Expand
open Verif.Macros

/-- forms of the same shape with corresponding identifiers (a vector is represented by a list, 2.sf:215). -/
inductive SxRel (R : IdRel) : Sx → Sx → Prop where
  | nil : SxRel R .nil .nil
  | atom (n : Nat) : SxRel R (.atom n) (.atom n)
  | sid {a b c a' b' c'} : R (a, b, c) (a', b', c') → SxRel R (.sid a b c) (.sid a' b' c')
  | vec {x x'} : isList x = true → SxRel R x x' → SxRel R (.vec x) (.vec x')
  | pair {a a' d d'} : SxRel R a a' → SxRel R d d' → SxRel R (.pair a d) (.pair a' d')

theorem SxRel.mono {R S : IdRel} (h : ∀ s s', R s s' → S s s') : {x x' : Sx} → SxRel R x x' → SxRel S x x'
  | _, _, .nil => .nil
  | _, _, .atom n => .atom n
  | _, _, .sid r => .sid (h _ _ r)
  | _, _, .vec l r => .vec l (r.mono h)
  | _, _, .pair r s => .pair (r.mono h) (s.mono h)

/-- what a program without `syntax-lambda` must not mention. -/
def unsafeLocs : List Key := [.sym "syntax-lambda", .sym "%quote", .sym "%const"]

/-- A correspondence that can be used with two environments: an id determines the identifier on both sides, equal ids
correspond to equal ids, generated ids correspond to generated ids that are at
most `sh` larger, corresponding identifiers denote the same location; all
corresponding identifiers are in `N`.  Without the switch (`gl`), no identifier is one of `unsafeLocs`. -/
structure Link (N : IdRel) (sh : Nat) (gl : Bool) (R : IdRel) (e e' : Env) : Prop where
  clo : ∀ s s' a l, N s s' → N (s.1, .num a, l) (s'.1, .num (a + sh), l)
  name : ∀ s s', R s s' → N s s'
  ids : ∀ s s' t t', R s s' → R t t' → (s.2.1 = t.2.1 ↔ s'.2.1 = t'.2.1)
  det : ∀ s s' t t', R s s' → R t t' → s.2.1 = t.2.1 → s = t ∧ s' = t'
  num : ∀ s s', R s s' → ∀ a, s.2.1 = .num a → ∃ a', s'.2.1 = .num a' ∧ a' ≤ a + sh
  num' : ∀ s s', R s s' → ∀ a', s'.2.1 = .num a' → ∃ a, s.2.1 = .num a
  look : ∀ s s', R s s' → lookupSid s.2.1 s.2.2 e = lookupSid s'.2.1 s'.2.2 e'
  envNum : ∀ a', (assv (.num a') e').isSome = true → ∃ a, (assv (.num a) e).isSome = true ∧ a' ≤ a + sh
  ok : gl = false → ∀ s s', R s s' → s.2.2 ∉ unsafeLocs
  vals : ∀ p ∈ e, ∃ n, p.2 = Key.num n
  vals' : ∀ p ∈ e', ∃ n, p.2 = Key.num n

/-- corresponding ids. -/
def idR (R : IdRel) (k k' : Key) : Prop := ∃ s s', R s s' ∧ s.2.1 = k ∧ s'.2.1 = k'

/-- the macros are made from corresponding forms. -/
structure MacRel (N : IdRel) (sh : Nat) (gl : Bool) (R : IdRel) (m m' : Macro) : Prop where
  link : Link N sh gl R m.env m'.env
  ell : Option.Rel (idR R) m.ellipsisId m'.ellipsisId
  lits : List.Forall₂ (idR R) m.literals m'.literals
  rules : List.Forall₂ (fun r r' => SxRel R r.1 r'.1 ∧ SxRel R r.2 r'.2) m.rules m'.rules

section
variable {N : IdRel} {sh : Nat} {gl : Bool} {R : IdRel} {e e' : Env}

theorem Link.idR_iff (hl : Link N sh gl R e e') {a a' b b' : Key} (h1 : idR R a a') (h2 : idR R b b') : a = b ↔ a' = b' := by
  obtain ⟨s, s', hs, rfl, rfl⟩ := h1
  obtain ⟨t, t', ht, rfl, rfl⟩ := h2
  exact hl.ids s s' t t' hs ht

theorem Link.mono {S : IdRel} (hl : Link N sh gl R e e') (h : ∀ s s', S s s' → R s s') : Link N sh gl S e e' where
  clo := hl.clo
  name s s' r := hl.name s s' (h _ _ r)
  ids s s' t t' r q := hl.ids s s' t t' (h _ _ r) (h _ _ q)
  det s s' t t' r q := hl.det s s' t t' (h _ _ r) (h _ _ q)
  num s s' r := hl.num s s' (h _ _ r)
  num' s s' r := hl.num' s s' (h _ _ r)
  ok hg s s' r := hl.ok hg s s' (h _ _ r)
  look s s' r := hl.look s s' (h _ _ r)
  envNum := hl.envNum
  vals := hl.vals
  vals' := hl.vals'

theorem mem_rel (hl : Link N sh gl R e e') {a a' : Key} (h : idR R a a') : ∀ {l l' : List Key}, List.Forall₂ (idR R) l l' →
    (a ∈ l ↔ a' ∈ l')
  | _, _, .nil => by simp
  | _, _, .cons h1 h2 => by
    simp only [List.mem_cons, mem_rel hl h h2, hl.idR_iff h h1]

theorem assv_rel {V W : Type} {P : V → W → Prop} (hl : Link N sh gl R e e') {a a' : Key} (h : idR R a a') :
    ∀ {l : List (Key × V)} {l' : List (Key × W)}, List.Forall₂ (fun p p' => idR R p.1 p'.1 ∧ P p.2 p'.2) l l' →
    Option.Rel P (assv a l) (assv a' l')
  | _, _, .nil => .none
  | (k, v) :: l, (k', v') :: l', .cons ⟨h1, h2⟩ h3 => by
    simp only [assv]
    by_cases hk : a = k
    · rw [if_pos hk, if_pos ((hl.idR_iff h h1).mp hk)]; exact .some h2
    · rw [if_neg hk, if_neg (fun hk' => hk ((hl.idR_iff h h1).mpr hk'))]; exact assv_rel hl h h3
end

section
variable {R : IdRel}

theorem isList_rel : {x x' : Sx} → SxRel R x x' → isList x = isList x'
  | _, _, .nil => rfl
  | _, _, .atom _ => rfl
  | _, _, .sid _ => rfl
  | _, _, .vec _ _ => rfl
  | _, _, .pair _ h => by simpa only [isList] using isList_rel h

theorem items_rel : {x x' : Sx} → SxRel R x x' → List.Forall₂ (SxRel R) (items x) (items x')
  | _, _, .nil => .nil
  | _, _, .atom _ => .nil
  | _, _, .sid _ => .nil
  | _, _, .vec _ _ => .nil
  | _, _, .pair h1 h2 => .cons h1 (items_rel h2)

theorem listS_rel {t t' : Sx} (ht : SxRel R t t') : {xs xs' : List Sx} → List.Forall₂ (SxRel R) xs xs' →
    SxRel R (listS xs t) (listS xs' t')
  | _, _, .nil => ht
  | _, _, .cons h1 h2 => .pair h1 (listS_rel ht h2)

theorem tailS_rel : (n : Nat) → {x x' : Sx} → SxRel R x x' → SxRel R (tailS n x) (tailS n x')
  | 0, _, _, h => h
  | _ + 1, _, _, .nil => .nil
  | _ + 1, _, _, .atom n => .atom n
  | _ + 1, _, _, .sid h => .sid h
  | _ + 1, _, _, .vec l h => .vec l h
  | n + 1, _, _, .pair _ h => tailS_rel n h
end

section
variable {N : IdRel} {sh : Nat} {gl : Bool} {Rm : IdRel} {m m' : Macro} (hm : MacRel N sh gl Rm m m')
include hm

theorem ell_rel {x x' : Sx} (h : SxRel Rm x x') : m.ell x = m'.ell x' := by
  cases h with
  | sid r =>
    rename_i a b c a' b' c'
    simp only [Macro.ell]
    have he := hm.ell
    cases h1 : m.ellipsisId with
    | none =>
      cases h2 : m'.ellipsisId with
      | none => simp only [hm.link.look _ _ r]
      | some k => rw [h1, h2] at he; cases he
    | some k =>
      cases h2 : m'.ellipsisId with
      | none => rw [h1, h2] at he; cases he
      | some k' =>
        rw [h1, h2] at he
        cases he with
        | some he => exact decide_eq_decide.mpr (hm.link.idR_iff he ⟨_, _, r, rfl, rfl⟩)
  | _ => rfl

theorem ellPair_rel {x x' : Sx} (h : SxRel Rm x x') : m.ellPair x = m'.ellPair x' := by
  cases h with
  | pair h1 h2 => exact ell_rel hm h1
  | _ => rfl

mutual
theorem checkEll_rel (t : Bool) : ∀ (x x' : Sx), SxRel Rm x x' → checkEll m t x = checkEll m' t x'
  | .nil, _, .nil => rfl
  | .atom _, _, .atom _ => rfl
  | .sid _ _ _, _, .sid _ => rfl
  | .vec x, _, .vec _ h => by simp only [checkEll, ellPair_rel hm h, checkEll_rel t x _ h]
  | .pair a d, .pair a' d', .pair ha hd => by
    rcases pairCase m d with ⟨e, r, rfl, he⟩ | he
    · cases hd with
      | pair h1 h2 =>
        rename_i e' r'
        have he' : m'.ell e' = true := by rw [← ell_rel hm h1]; exact he
        rw [checkEll_ell he, checkEll_ell he', ell_rel hm ha, checkEll_rel t a _ ha, ell_rel hm h2, ellPair_rel hm h2,
          checkEll_rel t r _ h2, isList_rel h2, checkItems_rel t r _ h2]
    · have he' : m'.ellPair d' = false := by rw [← ellPair_rel hm hd]; exact he
      rw [checkEll_pair he, checkEll_pair he', ell_rel hm ha, checkEll_rel t a _ ha, ell_rel hm hd, checkEll_rel t d _ hd]
theorem checkItems_rel (t : Bool) : ∀ (x x' : Sx), SxRel Rm x x' → checkItems m t x = checkItems m' t x'
  | .nil, _, .nil => rfl
  | .atom _, _, .atom _ => rfl
  | .sid _ _ _, _, .sid _ => rfl
  | .vec x, _, .vec _ h => rfl
  | .pair a d, _, .pair ha hd => by
    simp only [checkItems, ell_rel hm ha, checkEll_rel t a _ ha, checkItems_rel t d _ hd]
end

theorem notLit_rel {a a' : Key} (h : idR Rm a a') : m.notLit a = m'.notLit a' := by
  simp only [Macro.notLit]
  congr 1
  exact decide_eq_decide.mpr (mem_rel hm.link h hm.lits)

theorem patEnv_rel : ∀ (x x' : Sx) (n : Nat) (l l' : List (Key × Nat)), SxRel Rm x x' →
    List.Forall₂ (fun p p' => idR Rm p.1 p'.1 ∧ p.2 = p'.2) l l' →
    Option.Rel (List.Forall₂ (fun p p' => idR Rm p.1 p'.1 ∧ p.2 = p'.2)) (patEnv m x n l) (patEnv m' x' n l')
  | .nil, _, _, _, _, .nil, hl => .some hl
  | .atom _, _, _, _, _, .atom _, hl => .some hl
  | .sid _ id _, .sid _ id' _, n, l, l', .sid r, hl => by
    have hid : idR Rm id id' := ⟨_, _, r, rfl, rfl⟩
    simp only [patEnv]
    by_cases h1 : id ∈ m.literals
    · rw [if_pos h1, if_pos ((mem_rel hm.link hid hm.lits).mp h1)]; exact .some hl
    · rw [if_neg h1, if_neg (fun h => h1 ((mem_rel hm.link hid hm.lits).mpr h))]
      have ha := assv_rel hm.link hid hl
      cases h2 : assv id l with
      | none =>
        cases h3 : assv id' l' with
        | none => exact .some (.cons ⟨hid, rfl⟩ hl)
        | some _ => rw [h2, h3] at ha; cases ha
      | some _ =>
        cases h3 : assv id' l' with
        | none => rw [h2, h3] at ha; cases ha
        | some _ => exact .none
  | .vec x, _, n, l, l', .vec _ h, hl => by simpa only [patEnv] using patEnv_rel x _ n l l' h hl
  | .pair a d, .pair a' d', n, l, l', .pair ha hd, hl => by
    rcases pairCase m d with ⟨e, r, rfl, he⟩ | he
    · cases hd with
      | pair h1 h2 =>
        rename_i e' r'
        have he' : m'.ell e' = true := by rw [← ell_rel hm h1]; exact he
        rw [patEnv_ell he, patEnv_ell he']
        have hr := patEnv_rel r _ n l l' h2 hl
        revert hr
        cases patEnv m r n l <;> cases patEnv m' r' n l' <;> intro hr
        · exact .none
        · cases hr
        · cases hr
        · cases hr with
          | some hr => exact patEnv_rel a _ (n + 1) _ _ ha hr
    · have he' : m'.ellPair d' = false := by rw [← ellPair_rel hm hd]; exact he
      rw [patEnv_pair he, patEnv_pair he']
      have hr := patEnv_rel d _ n l l' hd hl
      revert hr
      cases patEnv m d n l <;> cases patEnv m' d' n l' <;> intro hr
      · exact .none
      · cases hr
      · cases hr
      · cases hr with
        | some hr => exact patEnv_rel a _ n _ _ ha hr

theorem checkDepths_rel {l l' : List (Key × Nat)} (hl : List.Forall₂ (fun p p' => idR Rm p.1 p'.1 ∧ p.2 = p'.2) l l') :
    ∀ (x x' : Sx) (n : Nat), SxRel Rm x x' → checkDepths m l x n = checkDepths m' l' x' n
  | .nil, _, _, .nil => rfl
  | .atom _, _, _, .atom _ => rfl
  | .sid _ id _, .sid _ id' _, n, .sid r => by
    have hid : idR Rm id id' := ⟨_, _, r, rfl, rfl⟩
    simp only [checkDepths]
    have ha := assv_rel hm.link hid hl
    cases h2 : assv id l with
    | none =>
      cases h3 : assv id' l' with
      | none => rfl
      | some _ => rw [h2, h3] at ha; cases ha
    | some _ =>
      cases h3 : assv id' l' with
      | none => rw [h2, h3] at ha; cases ha
      | some _ => rw [h2, h3] at ha; cases ha with | some ha => subst ha; rfl
  | .vec x, _, n, .vec _ h => by simpa only [checkDepths] using checkDepths_rel hl x _ n h
  | .pair a d, .pair a' d', n, .pair ha hd => by
    rcases pairCase m d with ⟨e, r, rfl, he⟩ | he
    · cases hd with
      | pair h1 h2 =>
        rename_i e' r'
        have he' : m'.ell e' = true := by rw [← ell_rel hm h1]; exact he
        rw [checkDepths_ell he, checkDepths_ell he', checkDepths_rel hl a _ _ ha, checkDepths_rel hl r _ _ h2]
    · have he' : m'.ellPair d' = false := by rw [← ellPair_rel hm hd]; exact he
      rw [checkDepths_pair he, checkDepths_pair he', checkDepths_rel hl a _ _ ha, checkDepths_rel hl d _ _ hd]

theorem checkRule_rel {p p' t t' : Sx} (hp : SxRel Rm p p') (ht : SxRel Rm t t') : checkRule m p t = checkRule m' p' t' := by
  simp only [checkRule, checkPattern, checkTemplate, ell_rel hm hp, ellPair_rel hm hp, checkEll_rel hm _ _ _ hp,
    ell_rel hm ht, checkEll_rel hm _ _ _ ht]
  congr 1
  have := patEnv_rel hm _ _ 0 [] [] hp .nil
  revert this
  cases patEnv m p 0 [] <;> cases patEnv m' p' 0 [] <;> intro this
  · rfl
  · cases this
  · cases this
  · cases this with
    | some this => simp only [checkDepths_rel hm this _ _ 0 ht]

theorem listIds_rel {pred pred' : Key → Bool} (hp : ∀ a a', idR Rm a a' → pred a = pred' a') : ∀ (x x' : Sx) (inc : Bool)
    (l l' : List Key), SxRel Rm x x' → List.Forall₂ (idR Rm) l l' →
    List.Forall₂ (idR Rm) (listIds m pred x inc l) (listIds m' pred' x' inc l')
  | .nil, _, _, _, _, .nil, hl => hl
  | .atom _, _, _, _, _, .atom _, hl => hl
  | .sid _ id _, .sid _ id' _, inc, l, l', .sid r, hl => by
    have hid : idR Rm id id' := ⟨_, _, r, rfl, rfl⟩
    simp only [listIds, hp _ _ hid]
    split
    · exact .cons hid hl
    · exact hl
  | .vec x, _, inc, l, l', .vec _ h, hl => by simpa only [listIds] using listIds_rel hp x _ inc l l' h hl
  | .pair a d, .pair a' d', inc, l, l', .pair ha hd, hl => by
    rcases pairCase m d with ⟨e, r, rfl, he⟩ | he
    · cases hd with
      | pair h1 h2 =>
        rename_i e' r'
        have he' : m'.ell e' = true := by rw [← ell_rel hm h1]; exact he
        rw [listIds_ell he, listIds_ell he']
        exact listIds_rel hp a _ _ _ _ ha (listIds_rel hp r _ _ _ _ h2 hl)
    · have he' : m'.ellPair d' = false := by rw [← ellPair_rel hm hd]; exact he
      rw [listIds_pair he, listIds_pair he']
      exact listIds_rel hp a _ _ _ _ ha (listIds_rel hp d _ _ _ _ hd hl)
end

theorem skip_rel {R S : IdRel} : {p p' s s' : Sx} → SxRel R p p' → SxRel S s s' → Option.Rel (SxRel S) (skip p s) (skip p' s')
  | _, _, _, _, .nil, hs => by simpa only [skip] using .some hs
  | _, _, _, _, .atom _, hs => by simpa only [skip] using .some hs
  | _, _, _, _, .sid _, hs => by simpa only [skip] using .some hs
  | _, _, _, _, .vec _ _, hs => by simpa only [skip] using .some hs
  | _, _, _, _, .pair _ h, .pair _ hs => by simpa only [skip] using skip_rel h hs
  | _, _, _, _, .pair _ h, .nil => by simpa only [skip] using .none
  | _, _, _, _, .pair _ h, .atom _ => by simpa only [skip] using .none
  | _, _, _, _, .pair _ h, .sid _ => by simpa only [skip] using .none
  | _, _, _, _, .pair _ h, .vec _ _ => by simpa only [skip] using .none

theorem matchCars_rel {S : IdRel} {f f' g g' : Sx → Bool} (hf : ∀ x x', SxRel S x x' → f x = f' x')
    (hg : ∀ x x', SxRel S x x' → g x = g' x') : {p p' s s' : Sx} → SxRel S p p' → SxRel S s s' →
    matchCars f g p s = matchCars f' g' p' s'
  | _, _, _, _, .nil, hs => by simpa only [matchCars] using hg _ _ hs
  | _, _, _, _, .atom _, hs => by simpa only [matchCars] using hg _ _ hs
  | _, _, _, _, .sid _, hs => by simpa only [matchCars] using hg _ _ hs
  | _, _, _, _, .vec _ _, hs => by simpa only [matchCars] using hg _ _ hs
  | _, _, _, _, .pair _ h, .pair ha hs => by simp only [matchCars, hf _ _ ha, matchCars_rel hf hg h hs]
  | _, _, _, _, .pair _ h, .nil => rfl
  | _, _, _, _, .pair _ h, .atom _ => rfl
  | _, _, _, _, .pair _ h, .sid _ => rfl
  | _, _, _, _, .pair _ h, .vec _ _ => rfl

section
variable {N : IdRel} {sh : Nat} {gl : Bool} {Rm R : IdRel} {m m' : Macro} (hm : MacRel N sh gl Rm m m')
include hm

theorem matches_rel {e e' : Env} (hR : Link N sh gl R e e') : ∀ (p p' s s' : Sx), SxRel Rm p p' → SxRel R s s' →
    matches_ m e p s = matches_ m' e' p' s'
  | .nil, _, s, s', .nil, hs => by
    simp only [matches_]
    cases hs <;> rfl
  | .atom _, _, s, s', .atom _, hs => by
    simp only [matches_]
    cases hs <;> rfl
  | .sid _ id loc, .sid _ id' loc', s, s', .sid r, hs => by
    have hid : idR Rm id id' := ⟨_, _, r, rfl, rfl⟩
    simp only [matches_, notLit_rel hm hid]
    cases hs with
    | sid q => simp only [hm.link.look _ _ r, hR.look _ _ q]
    | _ => rfl
  | .vec x, _, s, s', .vec _ h, hs => by
    simp only [matches_]
    cases hs with
    | vec _ q => exact matches_rel hR x _ _ _ h q
    | _ => rfl
  | .pair a d, .pair a' d', s, s', .pair ha hd, hs => by
    rcases pairCase m d with ⟨e, r, rfl, he⟩ | he
    · cases hd with
      | pair h1 h2 =>
        rename_i e' r'
        have he' : m'.ell e' = true := by rw [← ell_rel hm h1]; exact he
        rw [matches_ell he, matches_ell he']
        have hk := skip_rel h2 hs
        revert hk
        cases skip r s <;> cases skip r' s' <;> intro hk
        · rfl
        · cases hk
        · cases hk
        · cases hk with
          | some hk =>
            exact matchCars_rel (fun x x' hx => matches_rel hR a _ x x' ha hx) (fun x x' hx => matches_rel hR r _ x x' h2 hx)
              hk hs
    · have he' : m'.ellPair d' = false := by rw [← ellPair_rel hm hd]; exact he
      rw [Bool.eq_iff_iff, matches_pair he, matches_pair he']
      constructor
      · rintro ⟨x, y, rfl, h1, h2⟩
        cases hs with
        | pair hx hy => exact ⟨_, _, rfl, by rw [← matches_rel hR a _ _ _ ha hx]; exact h1, by rw [← matches_rel hR d _ _ _ hd hy]; exact h2⟩
      · rintro ⟨x, y, rfl, h1, h2⟩
        cases hs with
        | pair hx hy => exact ⟨_, _, rfl, by rw [matches_rel hR a _ _ _ ha hx]; exact h1, by rw [matches_rel hR d _ _ _ hd hy]; exact h2⟩
end

/-! ### bindings and templates -/

/-- corresponding bindings of pattern variables. -/
abbrev BindRel (Rm R : IdRel) : List (Key × Sx) → List (Key × Sx) → Prop :=
  List.Forall₂ (fun p p' => idR Rm p.1 p'.1 ∧ SxRel R p.2 p'.2)

theorem any_isEmpty_rel {V W : Type} {P : V → W → Prop} : ∀ {rows : List (List V)} {rows' : List (List W)},
    List.Forall₂ (List.Forall₂ P) rows rows' → rows.any List.isEmpty = rows'.any List.isEmpty
  | _, _, .nil => rfl
  | _, _, .cons h1 h2 => by
    simp only [List.any_cons, any_isEmpty_rel h2]
    cases h1 <;> rfl

theorem headD_rel {R : IdRel} {l l' : List Sx} (h : List.Forall₂ (SxRel R) l l') : SxRel R (l.headD .nil) (l'.headD .nil) := by
  cases h with
  | nil => exact .nil
  | cons h _ => exact h

theorem tail_rel {V W : Type} {P : V → W → Prop} {l : List V} {l' : List W} (h : List.Forall₂ P l l') :
    List.Forall₂ P l.tail l'.tail := by
  cases h with
  | nil => exact .nil
  | cons _ h => exact h

theorem map_rel {A B C D : Type} {P : A → B → Prop} {Q : C → D → Prop} {f : A → C} {g : B → D}
    (h : ∀ a b, P a b → Q (f a) (g b)) : ∀ {l : List A} {l' : List B}, List.Forall₂ P l l' →
    List.Forall₂ Q (l.map f) (l'.map g)
  | _, _, .nil => .nil
  | _, _, .cons h1 h2 => .cons (h _ _ h1) (map_rel h h2)

theorem transBind_rel {Rm R : IdRel} : ∀ {vs vs' : List Key} {rows rows' : List (List Sx)}, List.Forall₂ (idR Rm) vs vs' →
    List.Forall₂ (List.Forall₂ (SxRel R)) rows rows' → BindRel Rm R (transBind vs rows) (transBind vs' rows')
  | _, _, _, _, .nil, _ => .nil
  | _, _, rows, rows', .cons h1 h2, hr => by
    simp only [transBind, any_isEmpty_rel hr]
    split
    · exact .nil
    · exact .cons ⟨h1, listS_rel .nil (map_rel (fun _ _ h => headD_rel h) hr)⟩
        (transBind_rel h2 (map_rel (fun _ _ h => tail_rel h) hr))

theorem take_rel {V W : Type} {P : V → W → Prop} : ∀ (n : Nat) {l : List V} {l' : List W}, List.Forall₂ P l l' →
    List.Forall₂ P (l.take n) (l'.take n)
  | 0, _, _, _ => by simp
  | _ + 1, _, _, .nil => .nil
  | n + 1, _, _, .cons h1 h2 => .cons h1 (take_rel n h2)

section
variable {N : IdRel} {sh : Nat} {gl : Bool} {Rm R : IdRel} {m m' : Macro} (hm : MacRel N sh gl Rm m m')
include hm

theorem bindings_rel : ∀ (p p' s s' : Sx) (b b' : List (Key × Sx)), SxRel Rm p p' → SxRel R s s' → BindRel Rm R b b' →
    BindRel Rm R (bindings m p s b) (bindings m' p' s' b')
  | .nil, _, s, s', _, _, .nil, hs, hb => by simpa only [bindings] using hb
  | .atom _, _, s, s', _, _, .atom _, hs, hb => by simpa only [bindings] using hb
  | .sid _ id loc, .sid _ id' loc', s, s', b, b', .sid r, hs, hb => by
    have hid : idR Rm id id' := ⟨_, _, r, rfl, rfl⟩
    simp only [bindings, notLit_rel hm hid]
    split
    · exact .cons ⟨hid, hs⟩ hb
    · exact hb
  | .vec x, _, s, s', b, b', .vec _ h, hs, hb => by
    simp only [bindings]
    cases hs with
    | vec _ q => exact bindings_rel x _ _ _ b b' h q hb
    | _ => exact hb
  | .pair a d, .pair a' d', s, s', b, b', .pair ha hd, hs, hb => by
    rcases pairCase m d with ⟨e, r, rfl, he⟩ | he
    · cases hd with
      | pair h1 h2 =>
        rename_i e' r'
        have he' : m'.ell e' = true := by rw [← ell_rel hm h1]; exact he
        rw [bindings_ell he, bindings_ell he']
        have hi := items_rel hs
        rw [hi.length_eq, (items_rel h2).length_eq]
        refine List.rel_append (transBind_rel (listIds_rel hm (fun a a' h => notLit_rel hm h) a _ true [] [] ha .nil) ?_)
          (bindings_rel r _ _ _ b b' h2 (tailS_rel _ hs) hb)
        refine map_rel (P := SxRel R) (fun x x' hx => ?_) (take_rel _ hi)
        exact map_rel (P := fun p p' => idR Rm p.1 p'.1 ∧ SxRel R p.2 p'.2) (fun _ _ h => h.2)
          (bindings_rel a _ x x' [] [] ha hx .nil)
    · have he' : m'.ellPair d' = false := by rw [← ellPair_rel hm hd]; exact he
      cases hs with
      | pair hx hy =>
        rw [bindings_pair he, bindings_pair he']
        exact bindings_rel a _ _ _ _ _ ha hx (bindings_rel d _ _ _ b b' hd hy hb)
      | _ =>
        have nope : ∀ (q : Macro) (a d s : Sx), q.ellPair d = false → (∀ x y, s ≠ .pair x y) → ∀ b, bindings q (.pair a d) s b = b := by
          intro q a d s hq hne b
          cases d with
          | pair e r =>
            simp only [Macro.ellPair] at hq
            rw [bindings]
            · simp only [hq]; cases s <;> simp_all
            · exact hne
          | _ => cases s <;> simp_all [bindings]
        rw [nope m _ _ _ he (by simp), nope m' _ _ _ he' (by simp)]
        exact hb

theorem mem_iff_rel {a a' : Key} (h : idR Rm a a') {l l' : List Key} (hl : List.Forall₂ (idR Rm) l l') : a ∈ l ↔ a' ∈ l' :=
  mem_rel hm.link h hl

theorem removeDups_rel {l l' : List Key} (h : List.Forall₂ (idR Rm) l l') :
    List.Forall₂ (idR Rm) (removeDups l) (removeDups l') := by
  have : ∀ {l l' : List Key}, List.Forall₂ (idR Rm) l l' → ∀ {r r' : List Key}, List.Forall₂ (idR Rm) r r' →
      List.Forall₂ (idR Rm) (removeDups.loop l r) (removeDups.loop l' r') := by
    intro l l' h
    induction h with
    | nil => intro r r' hr; exact hr
    | cons h1 h2 ih =>
      intro r r' hr
      rename_i a a' l l'
      simp only [removeDups.loop]
      by_cases hx : a ∈ r
      · rw [if_pos hx, if_pos ((mem_rel hm.link h1 hr).mp hx)]; exact ih hr
      · rw [if_neg hx, if_neg (fun hx' => hx ((mem_rel hm.link h1 hr).mpr hx'))]; exact ih (.cons h1 hr)
  exact this h .nil

theorem memv_rel {a a' : Key} (h : idR Rm a a') : ∀ {l l' : List Key}, List.Forall₂ (idR Rm) l l' →
    (memv a l).length = (memv a' l').length
  | _, _, .nil => rfl
  | x :: l, x' :: l', .cons h1 h2 => by
    simp only [memv]
    by_cases hx : a = x
    · rw [if_pos hx, if_pos ((hm.link.idR_iff h h1).mp hx)]; simp [h2.length_eq]
    · rw [if_neg hx, if_neg (fun hx' => hx ((hm.link.idR_iff h h1).mpr hx'))]; exact memv_rel h h2
end

/-- both succeed with related results or both fail. -/
inductive ExRel {V W : Type} (P : V → W → Prop) : Except Err V → Except Err W → Prop where
  | ok {v w} : P v w → ExRel P (.ok v) (.ok w)
  | error (e e') : ExRel P (.error e) (.error e')

theorem valLists_rel {N : IdRel} {sh : Nat} {gl : Bool} {Rm R : IdRel} {e e' : Env} (hl : Link N sh gl Rm e e') {b b' : List (Key × Sx)}
    (hb : BindRel Rm R b b') : ∀ {vs vs' : List Key}, List.Forall₂ (idR Rm) vs vs' →
    ExRel (List.Forall₂ (List.Forall₂ (SxRel R))) (valLists b vs) (valLists b' vs')
  | _, _, .nil => .ok .nil
  | v :: vs, v' :: vs', .cons h1 h2 => by
    simp only [valLists]
    have ha := assv_rel (P := SxRel R) hl h1 hb
    revert ha
    cases assv v b <;> cases assv v' b' <;> intro ha
    · exact .error _ _
    · cases ha
    · cases ha
    · cases ha with
      | some ha =>
        simp only [isList_rel ha]
        split
        · have ih := valLists_rel hl hb h2
          revert ih
          cases valLists b vs <;> cases valLists b' vs' <;> intro ih
          · exact .error _ _
          · cases ih
          · cases ih
          · cases ih with | ok ih => exact .ok (.cons (items_rel ha) ih)
        · exact .error _ _

theorem applyMapList_rel {R : IdRel} : ∀ {l l' : List Sx} {ls ls' : List (List Sx)}, List.Forall₂ (SxRel R) l l' →
    List.Forall₂ (List.Forall₂ (SxRel R)) ls ls' →
    List.Forall₂ (List.Forall₂ (SxRel R)) (applyMapList l ls) (applyMapList l' ls')
  | _, _, _, _, .nil, _ => .nil
  | _, _, ls, ls', .cons h1 h2, hr => by
    simp only [applyMapList, any_isEmpty_rel hr]
    split
    · exact .nil
    · exact .cons (.cons h1 (map_rel (fun _ _ h => headD_rel h) hr))
        (applyMapList_rel h2 (map_rel (fun _ _ h => tail_rel h) hr))

theorem mapE_rel {R : IdRel} {A B : Type} {P : A → B → Prop} {f : A → Except Err Sx} {f' : B → Except Err Sx}
    (hf : ∀ a b, P a b → ExRel (SxRel R) (f a) (f' b)) : ∀ {l : List A} {l' : List B}, List.Forall₂ P l l' →
    ExRel (List.Forall₂ (SxRel R)) (mapE f l) (mapE f' l')
  | _, _, .nil => .ok .nil
  | x :: l, x' :: l', .cons h1 h2 => by
    simp only [mapE]
    have h := hf _ _ h1
    revert h
    cases f x <;> cases f' x' <;> intro h
    · exact .error _ _
    · cases h
    · cases h
    · cases h with
      | ok h =>
        have ih := mapE_rel hf h2
        revert ih
        cases mapE f l <;> cases mapE f' l' <;> intro ih
        · exact .error _ _
        · cases ih
        · cases ih
        · cases ih with | ok ih => exact .ok (.cons h ih)

theorem zip_rel {Rm R : IdRel} : ∀ {vs vs' : List Key} {xs xs' : List Sx}, List.Forall₂ (idR Rm) vs vs' →
    List.Forall₂ (SxRel R) xs xs' → BindRel Rm R (vs.zip xs) (vs'.zip xs')
  | _, _, _, _, .nil, _ => .nil
  | _, _, _, _, .cons _ _, .nil => .nil
  | _, _, _, _, .cons h1 h2, .cons h3 h4 => .cons ⟨h1, h3⟩ (zip_rel h2 h4)

theorem all_len_rel {P : Sx → Sx → Prop} (n : Nat) : ∀ {ls ls' : List (List Sx)}, List.Forall₂ (List.Forall₂ P) ls ls' →
    ls.all (fun r => decide (r.length = n)) = ls'.all (fun r => decide (r.length = n))
  | _, _, .nil => rfl
  | _, _, .cons h1 h2 => by simp only [List.all_cons, h1.length_eq, all_len_rel n h2]

theorem expand_isList (c : Ctx) : ∀ (t : Sx) (b : List (Key × Sx)) (y : Sx), isList t = true → expand c t b = .ok y → isList y = true
  | .nil, b, y, _, h => by simp only [expand, Except.ok.injEq] at h; subst h; rfl
  | .atom _, b, y, hl, _ => by simp [isList] at hl
  | .sid _ _ _, b, y, hl, _ => by simp [isList] at hl
  | .vec _, b, y, hl, _ => by simp [isList] at hl
  | .pair a d, b, y, hl, h => by
    simp only [isList] at hl
    rcases pairCase c.m d with ⟨e, r, rfl, he⟩ | he
    · simp only [isList] at hl
      simp only [expand, he, if_true] at h
      split at h
      · cases h
      · cases h
      · split at h
        · split at h
          · cases h
          · split at h
            · cases h
            · rename_i hr
              cases h
              rw [isList_listS]
              exact expand_isList c r b _ hl hr
        · cases h
    · rw [expand_pair he rfl] at h
      split at h
      · cases h
      · split at h
        · cases h
        · rename_i hr
          cases h
          simpa only [isList] using expand_isList c d b _ hl hr

/-- the correspondence of the identifiers inserted by a template. -/
def newR (Rm : IdRel) (m m' : Macro) (idn idn' : Nat) (lits lits' : List Key) : IdRel := fun s s' =>
  ∃ t t', Rm t t' ∧ t.2.1 ∈ lits ∧
    s = (t.1, .num (idn + ((memv t.2.1 lits).length - 1)), lookupSid t.2.1 t.2.2 m.env) ∧
    s' = (t'.1, .num (idn' + ((memv t'.2.1 lits').length - 1)), lookupSid t'.2.1 t'.2.2 m'.env)

section
variable {N : IdRel} {sh : Nat} {gl : Bool} {Rm R : IdRel} {m m' : Macro} (hm : MacRel N sh gl Rm m m')
include hm

theorem expand_rel {c c' : Ctx} (hc : c.m = m) (hc' : c'.m = m') (htop : BindRel Rm R c.top c'.top)
    (hlits : List.Forall₂ (idR Rm) c.lits c'.lits) (hell : List.Forall₂ (idR Rm) c.ellVars c'.ellVars) :
    ∀ (t t' : Sx) (b b' : List (Key × Sx)), SxRel Rm t t' → BindRel Rm R b b' →
    (∀ id ∈ listIds m (fun id => (assv id c.top).isNone) t true [], id ∈ c.lits) →
    ExRel (SxRel (fun s s' => R s s' ∨ newR Rm m m' c.idn c'.idn c.lits c'.lits s s')) (expand c t b) (expand c' t' b')
  | .nil, _, b, b', .nil, hb, _ => .ok .nil
  | .atom _, _, b, b', .atom n, hb, _ => .ok (.atom n)
  | .sid name id loc, .sid name' id' loc', b, b', .sid r, hb, hv => by
    have hid : idR Rm id id' := ⟨_, _, r, rfl, rfl⟩
    simp only [expand]
    have h1 := assv_rel (P := SxRel R) hm.link hid hb
    revert h1
    cases assv id b <;> cases assv id' b' <;> intro h1
    · have h2 := assv_rel (P := SxRel R) hm.link hid htop
      cases ht : assv id c.top <;> cases ht' : assv id' c'.top <;> rw [ht, ht'] at h2
      · refine .ok (.sid (Or.inr ⟨_, _, r, hv id (by simp [listIds, ht]), ?_, ?_⟩))
        · rw [hc]
        · rw [hc']
      · cases h2
      · cases h2
      · cases h2 with | some h2 => exact .ok (h2.mono fun _ _ h => Or.inl h)
    · cases h1
    · cases h1
    · cases h1 with | some h1 => exact .ok (h1.mono fun _ _ h => Or.inl h)
  | .vec x, .vec x', b, b', .vec hlx h, hb, hv => by
    simp only [expand]
    have ih := expand_rel hc hc' htop hlits hell x x' b b' h hb (by simpa only [listIds] using hv)
    revert ih
    cases hxe : expand c x b <;> cases expand c' x' b' <;> intro ih
    · exact .error _ _
    · cases ih
    · cases ih
    · cases ih with | ok ih => exact .ok (.vec (expand_isList c x b _ hlx hxe) ih)
  | .pair a d, .pair a' d', b, b', .pair ha hd, hb, hv => by
    rcases pairCase m d with ⟨e, r, rfl, he⟩ | he
    · cases hd with
      | pair h1 h2 =>
        rename_i e' r'
        have he' : m'.ell e' = true := by rw [← ell_rel hm h1]; exact he
        have hva : ∀ id ∈ listIds m (fun id => (assv id c.top).isNone) a true [], id ∈ c.lits := fun id h => hv id (by
          rw [listIds_ell he, listIds_acc]; exact List.mem_append_left _ h)
        have hvr : ∀ id ∈ listIds m (fun id => (assv id c.top).isNone) r true [], id ∈ c.lits := fun id h => hv id (by
          rw [listIds_ell he, listIds_acc]; exact List.mem_append_right _ h)
        have hvars := listIds_rel hm (pred := fun id => decide (id ∈ c.ellVars)) (pred' := fun id => decide (id ∈ c'.ellVars))
          (fun a a' h => decide_eq_decide.mpr (mem_rel hm.link h hell)) a a' true [] [] ha .nil
        have hlist := valLists_rel hm.link hb hvars
        simp only [expand, hc, hc', he, he', if_true]
        revert hlist
        generalize listIds m (fun id => decide (id ∈ c.ellVars)) a true [] = vs at hvars ⊢
        generalize listIds m' (fun id => decide (id ∈ c'.ellVars)) a' true [] = vs' at hvars ⊢
        cases valLists b vs <;> cases valLists b' vs' <;> intro hlist
        · exact .error _ _
        · cases hlist
        · cases hlist
        · cases hlist with
          | ok hlist =>
            cases hlist with
            | nil => exact .error _ _
            | cons hl1 hl2 =>
              rename_i l l' ls ls'
              simp only [hl1.length_eq, all_len_rel _ hl2]
              split
              · have hmap := mapE_rel (R := fun s s' => R s s' ∨ newR Rm m m' c.idn c'.idn c.lits c'.lits s s')
                  (f := fun vals => expand c a (vs.zip vals)) (f' := fun vals => expand c' a' (vs'.zip vals))
                  (fun vals vals' hvals => expand_rel hc hc' htop hlits hell a a' _ _ ha (zip_rel hvars hvals) hva)
                  (applyMapList_rel hl1 hl2)
                revert hmap
                cases mapE (fun vals => expand c a (vs.zip vals)) (applyMapList l ls) <;>
                  cases mapE (fun vals => expand c' a' (vs'.zip vals)) (applyMapList l' ls') <;> intro hmap
                · exact .error _ _
                · cases hmap
                · cases hmap
                · cases hmap with
                  | ok hmap =>
                    have ih := expand_rel hc hc' htop hlits hell r r' b b' h2 hb hvr
                    revert ih
                    cases expand c r b <;> cases expand c' r' b' <;> intro ih
                    · exact .error _ _
                    · cases ih
                    · cases ih
                    · cases ih with | ok ih => exact .ok (listS_rel ih hmap)
              · exact .error _ _
    · have he' : m'.ellPair d' = false := by rw [← ellPair_rel hm hd]; exact he
      rw [expand_pair he hc, expand_pair he' hc']
      have iha := expand_rel hc hc' htop hlits hell a a' b b' ha hb (fun id h => hv id (by
          rw [listIds_pair he, listIds_acc]; exact List.mem_append_left _ h))
      have ihd := expand_rel hc hc' htop hlits hell d d' b b' hd hb (fun id h => hv id (by
          rw [listIds_pair he, listIds_acc]; exact List.mem_append_right _ h))
      revert iha ihd
      cases expand c a b <;> cases expand c' a' b' <;> intro iha ihd
      · exact .error _ _
      · cases iha
      · cases iha
      · cases iha with
        | ok iha =>
          revert ihd
          cases expand c d b <;> cases expand c' d' b' <;> intro ihd
          · exact .error _ _
          · cases ihd
          · cases ihd
          · cases ihd with | ok ihd => exact .ok (.pair iha ihd)
end

end Verif.Expand

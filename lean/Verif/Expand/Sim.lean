import Verif.Expand.Compile
/-
Corresponding forms expand to corresponding outputs: the relations, and the quoted constants.
-/
namespace Verif.Expand
open Verif.Macros

theorem OutsRel.of {h : Host} {N : IdRel} : {os os' : List Out} → List.Forall₂ (OutRel h N) os os' → OutsRel h N os os'
  | _, _, .nil => .nil
  | _, _, .cons a b => .cons a (OutsRel.of b)

/-- corresponding values. -/
inductive ValRel (h : Host) (N : IdRel) (sh : Nat) (gl : Bool) : Val → Val → Prop where
  | var {v v'} : VarRel N v v' → ValRel h N sh gl (.var v) (.var v')
  | code {o o'} : OutRel h N o o' → ValRel h N sh gl (.code o) (.code o')
  | builtin (s) : (gl = false → s ≠ "syntax-lambda") → ValRel h N sh gl (.builtin s) (.builtin s)
  | rules {m m'} : MacroRel N sh gl m m' → ValRel h N sh gl (.rules m) (.rules m')
  | slam {fs fs' bs bs' e e'} (R : IdRel) : Link N sh gl R e e' → List.Forall₂ (SxRel R) fs fs' → List.Forall₂ (SxRel R) bs bs' →
    (∀ f ∈ fs, isSid f = true) → gl = true → ValRel h N sh gl (.slam fs bs e) (.slam fs' bs' e')

/-- the reserved keywords are what they are at the start. -/
def Sane (st : Store) : Prop :=
  assv (.sym "%quote") st = some (.builtin "%quote") ∧ assv (.sym "%const") st = some (.builtin "%const")

/-- corresponding stores; without the switch, what must not be mentioned may hold anything. -/
def EntryRel (h : Host) (N : IdRel) (sh : Nat) (gl : Bool) (p p' : Key × Val) : Prop :=
  p.1 = p'.1 ∧ ((gl = true ∨ p.1 ∉ unsafeLocs) → ValRel h N sh gl p.2 p'.2)
@[inherit_doc EntryRel]
structure StoreRel (h : Host) (N : IdRel) (sh : Nat) (gl : Bool) (st st' : Store) : Prop where
  rel : List.Forall₂ (EntryRel h N sh gl) st st'
  sane : Sane st
  sane' : Sane st'

section
variable {h : Host} {N : IdRel} {sh : Nat} {gl : Bool}

theorem store_assv (k : Key) (hk : gl = true ∨ k ∉ unsafeLocs) : ∀ {st st' : Store}, List.Forall₂ (EntryRel h N sh gl) st st' →
    Option.Rel (ValRel h N sh gl) (assv k st) (assv k st')
  | _, _, .nil => .none
  | (a, v) :: _, (a', v') :: _, .cons h1 h2 => by
    obtain ⟨h1, h3⟩ := h1
    simp only at h1 h3
    subst h1
    simp only [assv]
    split
    · rename_i h4
      subst h4
      exact .some (h3 hk)
    · exact store_assv k hk h2

theorem StoreRel.lookup {st st' : Store} (hs : StoreRel h N sh gl st st') (l : Key) (hl : gl = true ∨ l ∉ unsafeLocs) :
    Option.Rel (ValRel h N sh gl) (lookupLocation l st) (lookupLocation l st') := by
  have := store_assv l hl hs.rel
  simp only [lookupLocation]
  revert this
  cases assv l st <;> cases assv l st' <;> intro this
  · cases l with
    | sym s => exact .some (.var (.glob s))
    | num n => exact .none
  · cases this
  · cases this
  · exact this

theorem Link.lookOk {R : IdRel} {e e' : Env} (hg : Link N sh gl R e e') {a b c a' b' c'} (r : R (a, b, c) (a', b', c')) :
    gl = true ∨ lookupSid b c e ∉ unsafeLocs := by
  cases h1 : gl with
  | true => exact Or.inl rfl
  | false => exact Or.inr (lookupSid_ok hg.vals _ (hg.ok h1 _ _ r))

theorem Sane.cons {st : Store} (hs : Sane st) (n : Nat) (v : Val) : Sane ((.num n, v) :: st) := by
  obtain ⟨h1, h2⟩ := hs
  exact ⟨by simp [assv, h1], by simp [assv, h2]⟩

theorem StoreRel.cons {st st' : Store} (hs : StoreRel h N sh gl st st') (n : Nat) {v v' : Val} (hv : ValRel h N sh gl v v') :
    StoreRel h N sh gl ((.num n, v) :: st) ((.num n, v') :: st') :=
  ⟨.cons ⟨rfl, fun _ => hv⟩ hs.rel, hs.sane.cons n v, hs.sane'.cons n v'⟩

/-! ### constants -/

/-- what follows `%const` in a constant. -/
def constTail (h : Host) : Sx → List Sx
  | .nil => [.sym "null"]
  | .atom n => h.lit n
  | .sid name _ _ => .sym "symbol" :: h.text name
  | .vec x => .sym "vector" :: decomposeItems h x
  | .pair a d =>
    if isList d then .sym "list" :: decompose h a :: decomposeItems h d else [.sym "pair", decompose h a, decompose h d]

theorem decompose_eq (h : Host) (x : Sx) : decompose h x = listOf (.sym "%const" :: constTail h x) := by
  cases x <;> simp only [decompose, constTail]
  split <;> rfl

theorem listOf_crel : ∀ {xs xs' : List Sx}, List.Forall₂ (CRel h N) xs xs' → CRel h N (listOf xs) (listOf xs')
  | _, _, .nil => .refl _
  | _, _, .cons a b => by simpa only [listOf, listS] using CRel.pair a (listOf_crel b)

mutual
theorem decompose_crel {R : IdRel} (hR : ∀ s s', R s s' → N s s') : ∀ (x x' : Sx), SxRel R x x' →
    CRel h N (decompose h x) (decompose h x')
  | .nil, _, .nil => .refl _
  | .atom _, _, .atom _ => .refl _
  | .sid _ _ _, _, .sid r => by
    simp only [decompose]
    exact .text ⟨_, _, _, _, hR _ _ r⟩
  | .vec x, .vec x', .vec _ r => by
    simp only [decompose]
    exact listOf_crel (.cons (.refl _) (.cons (.refl _) (decomposeItems_crel hR x x' r)))
  | .pair a d, .pair a' d', .pair r s => by
    simp only [decompose, isList_rel s]
    split
    · exact listOf_crel (.cons (.refl _) (.cons (.refl _) (.cons (decompose_crel hR a a' r) (decomposeItems_crel hR d d' s))))
    · exact listOf_crel (.cons (.refl _) (.cons (.refl _) (.cons (decompose_crel hR a a' r) (.cons (decompose_crel hR d d' s) .nil))))
theorem decomposeItems_crel {R : IdRel} (hR : ∀ s s', R s s' → N s s') : ∀ (x x' : Sx), SxRel R x x' →
    List.Forall₂ (CRel h N) (decomposeItems h x) (decomposeItems h x')
  | .nil, _, .nil => .nil
  | .atom _, _, .atom _ => .nil
  | .sid _ _ _, _, .sid _ => .nil
  | .vec _, _, .vec _ _ => .nil
  | .pair a d, .pair a' d', .pair r s => by
    simp only [decomposeItems]
    exact .cons (decompose_crel hR a a' r) (decomposeItems_crel hR d d' s)
end

theorem sx_crel {R : IdRel} (hR : ∀ s s', R s s' → N s s') : ∀ {x x' : Sx}, SxRel R x x' → CRel h N x x'
  | _, _, .nil => .refl _
  | _, _, .atom _ => .refl _
  | _, _, .sid r => .sid (hR _ _ r)
  | _, _, .vec _ r => .vec (sx_crel hR r)
  | _, _, .pair r s => .pair (sx_crel hR r) (sx_crel hR s)

theorem isList_listOf : ∀ (xs : List Sx), isList (listOf xs) = true
  | [] => rfl
  | _ :: xs => by simpa only [listOf, listS, isList] using isList_listOf xs

theorem any_builtin {g : Bool} {st : Store} {s : String} (hs : assv (.sym s) st = some (.builtin s)) (n idn ln : Nat) (lsd : Bool)
    (ek : Option EK) (sk : SK) (dk : Option DK) (bk : Option BK) :
    (recs h g (n + 1)).any (.sym s) idn [] st ln lsd ek (some sk) dk bk = sk (.builtin s) (.sym s) st ln := by
  simp only [recs, anyF, Sx.sym, anySid, lookupSid, lookupLocation, assv, Option.getD_none, hs]

theorem const_run {g : Bool} {st : Store} (hs : Sane st) (n idn ln : Nat) (lsd : Bool) (t : List Sx)
    (ek : Option EK) (sk : Option SK) (dk : Option DK) (bk : Option BK) :
    (recs h g n).any (listOf (.sym "%const" :: t)) idn [] st ln lsd ek sk dk bk =
      if n < 2 ∨ t = [] then none else match ek with | none => none | some ek => ek (.raw "%const" t) := by
  match n with
  | 0 => rfl
  | 1 => simp [recs, anyF, listOf, listS]
  | n + 2 =>
    show anyF h g (recs h g (n + 1)).any (recs h g (n + 1)).dfn (.pair (.sym "%const") (listOf t)) idn [] st ln lsd ek sk dk bk = _
    simp only [anyF, isList_listOf, if_true, any_builtin hs.2, handleSyntaxUse, useBuiltin, exprBuiltin, items_listOf,
      primNames]
    have h2 : ¬ (n + 2 < 2) := by omega
    cases ek <;> cases t <;> simp [h2]

theorem quote_run {g : Bool} {st : Store} (hs : Sane st) (n idn ln : Nat) (lsd : Bool) (t : List Sx)
    (ek : Option EK) (sk : Option SK) (dk : Option DK) (bk : Option BK) :
    (recs h g n).any (listOf [.sym "%quote", listOf (.sym "%const" :: t)]) idn [] st ln lsd ek sk dk bk =
      if n < 3 ∨ t = [] then none else match ek with | none => none | some ek => ek (.form "%quote" [.raw "%const" t]) := by
  match n with
  | 0 => rfl
  | 1 => simp [recs, anyF, listOf, listS]
  | n + 2 =>
    show anyF h g (recs h g (n + 1)).any (recs h g (n + 1)).dfn (.pair (.sym "%quote") (listOf [listOf (.sym "%const" :: t)]))
      idn [] st ln lsd ek sk dk bk = _
    simp only [anyF, isList_listOf, if_true, any_builtin hs.1, handleSyntaxUse, useBuiltin, exprBuiltin, items_listOf,
      primNames, expandExpr, outOf, const_run hs _ _ _ _ t]
    match n with
    | 0 => cases ek <;> simp
    | n + 1 =>
      have h2 : ¬ (n + 1 + 1 < 2) := by omega
      have h3 : ¬ (n + 1 + 2 < 3) := by omega
      cases ek <;> cases t <;> simp [h2, h3]
end

end Verif.Expand

import Verif.Expand.Step2
/-
Corresponding programs expand to corresponding outputs: the top level.
-/
namespace Verif.Expand
open Verif.Macros

section
variable {h : Host} {N : IdRel} {sh : Nat} {gl : Bool}

theorem dropLoc_rel (l : Key) : ∀ {st st' : Store}, List.Forall₂ (EntryRel h N sh gl) st st' →
    List.Forall₂ (EntryRel h N sh gl) (dropLoc l st) (dropLoc l st')
  | _, _, .nil => .nil
  | (a, v) :: _, (a', v') :: _, .cons h1 h2 => by
    obtain ⟨h1, h3⟩ := h1
    simp only at h1 h3
    subst h1
    simp only [dropLoc]
    split
    · exact h2
    · exact .cons ⟨rfl, h3⟩ (dropLoc_rel l h2)

theorem assv_dropLoc {l k : Key} (hk : k ≠ l) : ∀ (st : Store), assv k (dropLoc l st) = assv k st
  | [] => rfl
  | (a, v) :: st => by
    simp only [dropLoc]
    split
    · rename_i h1
      subst h1
      simp [assv, hk]
    · simp only [assv, assv_dropLoc hk st]

theorem isOwnVar_rel (l : Key) {v v' : Val} (hv : ValRel h N sh gl v v') : isOwnVar l v = isOwnVar l v' := by
  cases hv with
  | var hv => cases hv <;> cases l <;> rfl
  | _ => cases l <;> rfl

theorem assv_substStore {l k : Key} (hk : k ≠ l) (st : Store) (v : Val) : assv k (substStore st l v) = assv k st := by
  simp only [substStore]
  split
  · exact assv_dropLoc hk st
  · simp [assv, hk, assv_dropLoc hk st]

theorem Sane.subst {st : Store} (hs : Sane st) {l : Key} (hl : l ∉ reserved) (v : Val) : Sane (substStore st l v) := by
  have key : ∀ k ∈ reserved, assv k (substStore st l v) = assv k st := fun k hk =>
    assv_substStore (by rintro rfl; exact hl hk) st v
  obtain ⟨h1, h2⟩ := hs
  exact ⟨by rw [key _ (by simp [reserved]), h1], by rw [key _ (by simp [reserved]), h2]⟩

theorem StoreRel.subst {st st' : Store} (hs : StoreRel h N sh gl st st') {l : Key} (hl : l ∉ reserved) {v v' : Val} (hv : ValRel h N sh gl v v') :
    StoreRel h N sh gl (substStore st l v) (substStore st' l v') := by
  refine ⟨?_, hs.sane.subst hl v, hs.sane'.subst hl v'⟩
  simp only [substStore, isOwnVar_rel l hv]
  split
  · exact dropLoc_rel l hs.rel
  · exact .cons ⟨rfl, fun _ => hv⟩ (dropLoc_rel l hs.rel)

/-- Corresponding top-level forms `xs`, `xs'`, followed by `fs`, `fs'`. -/
theorem topN_sim (hN : ∀ s s', N s s' → s.2.2 = s'.2.2) {A : Ans → Ans → Prop} (hA : OutA h N A) :
    ∀ (n : Nat) {R : IdRel} {xs xs' fs fs' : List Sx} {idn : Nat} {e e' : Env} {st st' : Store} {ln : Nat} {acc acc' : List Out}
      {k k' : TopK}, List.Forall₂ (SxRel R) xs xs' → Good N sh gl R e e' idn → StoreRel h N sh gl st st' → List.Forall₂ (OutRel h N) acc acc' →
      (∀ m st st' ln acc acc', StoreRel h N sh gl st st' → List.Forall₂ (OutRel h N) acc acc' →
        Q A (topN h gl m fs idn e st ln acc k) (topN h false m fs' (idn + sh) e' st' ln acc' k')) →
      Q A (topN h gl n (xs ++ fs) idn e st ln acc k) (topN h false n (xs' ++ fs') (idn + sh) e' st' ln acc' k') := by
  intro n
  induction n with
  | zero => intros; exact Q.none
  | succ n ih =>
    intro R xs xs' fs fs' idn e e' st st' ln acc acc' k k' hx hg hs hacc htail
    cases hx with
    | nil => exact htail (n + 1) _ _ _ _ _ hs hacc
    | cons h1 h2 =>
      rename_i x x' rest rest'
      have ha := (recs_sim (h := h) (N := N) (sh := sh) (gl := gl) n).1
      have hek : EKRel h N A (fun o => topN h gl n (rest ++ fs) idn e st ln (o :: acc) k)
          (fun o => topN h false n (rest' ++ fs') (idn + sh) e' st' ln (o :: acc') k') := fun o o' ho =>
        ih h2 hg hs (.cons ho hacc) htail
      show Q A (topF gl (recs h gl n).any (topN h gl n) (x :: (rest ++ fs)) idn e st ln acc k)
        (topF false (recs h false n).any (topN h false n) (x' :: (rest' ++ fs')) (idn + sh) e' st' ln acc' k')
      simp only [topF]
      refine ha A (fun _ _ _ => True) R x x' idn e e' st st' ln true _ _ none none _ _ _ _ hA hg h1 hs (fun _ _ _ _ => trivial)
        (.some hek) .none (.some ?_) (.some ?_)
      · intro R2 b hd hd' y y' idn2 e2 e2' st2 st2' ln2 _ hg2 hy hs2
        cases hy with
        | pair h3 h4 =>
          cases h4 with
          | nil =>
            rename_i z z'
            simp only [topDk]
            cases e5 : expandExpr (recs h gl n).any z idn2 e2 st2 ln2 with
            | none => exact Q.none
            | some o =>
              obtain ⟨o', q1, q2⟩ := expandExpr_sim ha hg2 h3 hs2 e5
              rw [q1]
              exact hek _ _ q2
          | pair h5 h6 =>
            rename_i w w' _ _
            cases h6 with
            | nil =>
              cases h3 with
              | sid r =>
                rename_i na ida loc na' ida' loc'
                have hloc := hN _ _ (hg2.name _ _ r)
                simp only at hloc
                subst hloc
                simp only [topDk, Bool.and_eq_true, Bool.false_and, Bool.false_eq_true, if_false, decide_eq_true_eq]
                split
                · exact Q.none
                · rename_i hres0
                  have hres : loc ∉ reserved := by
                    cases hgl : gl with
                    | true => exact fun hm => hres0 ⟨hgl, hm⟩
                    | false =>
                      have := hg2.ok hgl _ _ r
                      simp only [unsafeLocs, reserved, List.mem_cons, not_or] at this ⊢
                      exact this.2
                  split
                  · refine expandVal_sim ha hA hg2 h5 hs2 ?_
                    intro v v' st st' ln hv hs
                    exact ih h2 hg (hs.subst hres hv) hacc htail
                  · cases e5 : expandExpr (recs h gl n).any w idn2 e2 st2 ln2 with
                    | none => exact Q.none
                    | some o =>
                      obtain ⟨o', q1, q2⟩ := expandExpr_sim ha hg2 h5 hs2 e5
                      rw [q1]
                      have hv : VarRel N (locVar loc na) (locVar loc na') := by
                        cases loc with
                        | sym s => exact .glob s
                        | num m => exact .loc m ⟨_, _, _, _, hg2.name _ _ r⟩
                      exact ih h2 hg (hs2.subst hres (.var hv)) (.cons (.define hv q2) hacc) htail
              | _ => exact Q.none
            | _ => cases h3 <;> exact Q.none
          | _ => cases h3 <;> exact Q.none
        | _ => exact Q.none
      · intro R2 hd hd' y y' idn2 e2 e2' st2 st2' ln2 _ hg2 hy hs2
        simp only
        rw [← List.append_nil (items y), ← List.append_nil (items y')]
        refine ih (items_rel hy) hg2 hs2 hacc ?_
        intro m st st' ln acc acc' hs hacc
        cases m with
        | zero => exact Q.none
        | succ m => exact ih h2 hg hs hacc htail

/-! ### the same program on both sides -/

/-- a symbol is itself. -/
def symR (P : String → Prop) : IdRel := fun s s' => s = s' ∧ ∃ a, s = (a, .sym a, .sym a) ∧ P a

theorem Plain.rel {P : String → Prop} : ∀ {x : Sx}, Plain P x → SxRel (symR P) x x
  | .nil, _ => .nil
  | .atom n, _ => .atom n
  | .sid a b c, hx => by
    obtain ⟨rfl, rfl, hp⟩ := hx
    exact .sid ⟨rfl, a, rfl, hp⟩
  | .vec x, hx => .vec hx.1 (Plain.rel hx.2)
  | .pair a d, hx => .pair (Plain.rel hx.1) (Plain.rel hx.2)

theorem Tame.safe {a : String} (ha : Tame a) : Key.sym a ∉ unsafeLocs := by
  obtain ⟨h1, h2, h3⟩ := ha
  simp [unsafeLocs, h1, h2, h3]

theorem symR_good {P : String → Prop} (hP : gl = false → ∀ a, P a → Tame a) (N : IdRel)
    (hclo : ∀ s s' a l, N s s' → N (s.1, .num a, l) (s'.1, .num (a + sh), l)) (hrefl : ∀ s, N s s) (idn : Nat) :
    Good N sh gl (symR P) [] [] idn where
  clo := hclo
  name s s' hs := hs.1 ▸ hrefl s
  ids s s' t t' hs ht := by rw [hs.1, ht.1]
  det s s' t t' hs ht he := by
    obtain ⟨rfl, a, rfl, _⟩ := hs
    obtain ⟨rfl, b, rfl, _⟩ := ht
    simp only [Key.sym.injEq] at he
    subst he
    exact ⟨rfl, rfl⟩
  num s s' hs a ha := ⟨a, by rw [← hs.1, ha], by omega⟩
  num' s s' hs a ha := ⟨a, by rw [hs.1, ha]⟩
  look s s' hs := by rw [hs.1]
  envNum a ha := by cases ha
  ok hg s s' hs := by
    obtain ⟨rfl, a, rfl, hp⟩ := hs
    exact (hP hg a hp).safe
  vals p hp := by cases hp
  vals' p hp := by cases hp
  fresh s s' hs a ha := by
    obtain ⟨rfl, b, rfl, _⟩ := hs
    cases ha
  envFresh a ha := by cases ha

theorem nameR_eq {a b : String} (hab : nameR Eq a b) : a = b := by
  obtain ⟨k, l, k', l', h⟩ := hab
  cases h; rfl

theorem VarRel.eq {v v' : Var} (hv : VarRel Eq v v') : v = v' := by
  cases hv with
  | glob s => rfl
  | loc n hn => rw [nameR_eq hn]

theorem CRel.eq {x x' : Sx} (hx : CRel h Eq x x') : x = x' := by
  induction hx with
  | refl x => rfl
  | sid hs => cases hs; rfl
  | vec _ ih => rw [ih]
  | pair _ _ ih1 ih2 => rw [ih1, ih2]
  | text hn => rw [nameR_eq hn]

theorem varsRel_eq {vs vs' : List Var} (hv : List.Forall₂ (VarRel Eq) vs vs') : vs = vs' := by
  induction hv with
  | nil => rfl
  | cons a b ih => rw [a.eq, ih]

mutual
theorem OutRel.eq : ∀ {o o' : Out}, OutRel h Eq o o' → o = o'
  | _, _, .var hv => by rw [hv.eq]
  | _, _, .lam h1 h2 h3 => by
    rw [varsRel_eq h1, h3.eq]
    cases h2 with
    | none => rfl
    | some h2 => rw [h2.eq]
  | _, _, .letcc h1 h2 => by rw [h1.eq, h2.eq]
  | _, _, .set h1 h2 => by rw [h1.eq, h2.eq]
  | _, _, .form kw h1 => by rw [h1.eq]
  | _, _, .raw kw h1 => by
    have := congrArg items h1.eq
    simp only [items_listOf, List.cons.injEq, true_and] at this
    rw [this]
  | _, _, .prim kw sf h1 => by rw [h1.eq]
  | _, _, .letrec h1 h2 h3 => by rw [varsRel_eq h1, h2.eq, h3.eq]
  | _, _, .app h1 h2 => by rw [h1.eq, h2.eq]
  | _, _, .define h1 h2 => by rw [h1.eq, h2.eq]
theorem OutsRel.eq : ∀ {os os' : List Out}, OutsRel h Eq os os' → os = os'
  | _, _, .nil => rfl
  | _, _, .cons h1 h2 => by rw [h1.eq, h2.eq]
end

theorem eqClo : ∀ (s s' : Ident) (a : Nat) (l : Key), s = s' → (s.1, Key.num a, l) = (s'.1, Key.num (a + 0), l) := by
  rintro s _ a l rfl; rfl

/-- a store of macros made from the program itself. -/
theorem builtinStore_rel (N : IdRel) : StoreRel h N sh gl builtinStore builtinStore := by
  refine ⟨?_, ⟨rfl, rfl⟩, ⟨rfl, rfl⟩⟩
  have : ∀ (l : List String), List.Forall₂ (EntryRel h N sh gl)
      (l.map fun b => (.sym b, .builtin b)) (l.map fun b => (.sym b, .builtin b)) := by
    intro l
    induction l with
    | nil => exact .nil
    | cons a l ih =>
      refine .cons ⟨rfl, fun ha => .builtin a ?_⟩ ih
      rintro hg rfl
      rcases ha with ha | ha
      · rw [hg] at ha; cases ha
      · simp [unsafeLocs] at ha
  exact List.rel_reverse (this builtinNames)

/-! ### more names correspond, and a larger distance -/

variable {M : IdRel} {sh' : Nat}

theorem Link.up {R : IdRel} {e e' : Env} (hNM : ∀ s s', N s s' → M s s') (hle : sh ≤ sh') (hclo : ∀ s s' a l, M s s' → M (s.1, .num a, l) (s'.1, .num (a + sh'), l))
    (hl : Link N sh gl R e e') : Link M sh' gl R e e' :=
  { hl with
    clo := hclo
    name := fun s s' hs => hNM _ _ (hl.name s s' hs)
    num := fun s s' hs a ha => by
      obtain ⟨a', h1, h2⟩ := hl.num s s' hs a ha
      exact ⟨a', h1, by omega⟩
    envNum := fun a' ha' => by
      obtain ⟨a, h1, h2⟩ := hl.envNum a' ha'
      exact ⟨a, h1, by omega⟩ }

theorem nameR.up (hNM : ∀ s s', N s s' → M s s') {a b : String} (hn : nameR N a b) : nameR M a b := by
  obtain ⟨k, l, k', l', h⟩ := hn
  exact ⟨k, l, k', l', hNM _ _ h⟩

theorem VarRel.up (hNM : ∀ s s', N s s' → M s s') {v v' : Var} (hv : VarRel N v v') : VarRel M v v' := by
  cases hv with
  | glob s => exact .glob s
  | loc n hn => exact .loc n (hn.up hNM)

theorem CRel.up (hNM : ∀ s s', N s s' → M s s') {x x' : Sx} (hx : CRel h N x x') : CRel h M x x' := by
  induction hx with
  | refl x => exact .refl x
  | sid hs => exact .sid (hNM _ _ hs)
  | vec _ ih => exact .vec ih
  | pair _ _ ih1 ih2 => exact .pair ih1 ih2
  | text hn => exact .text (hn.up hNM)

mutual
theorem OutRel.up (hNM : ∀ s s', N s s' → M s s') : ∀ {o o' : Out}, OutRel h N o o' → OutRel h M o o'
  | _, _, .var hv => .var (hv.up hNM)
  | _, _, .lam h1 h2 h3 => .lam (forall₂_mono (fun _ _ q => q.up hNM) h1) (by
      cases h2 with
      | none => exact .none
      | some h2 => exact .some (h2.up hNM)) (h3.up hNM)
  | _, _, .letcc h1 h2 => .letcc (h1.up hNM) (h2.up hNM)
  | _, _, .set h1 h2 => .set (h1.up hNM) (h2.up hNM)
  | _, _, .form kw h1 => .form kw (h1.up hNM)
  | _, _, .raw kw h1 => .raw kw (h1.up hNM)
  | _, _, .prim kw sf h1 => .prim kw sf (h1.up hNM)
  | _, _, .letrec h1 h2 h3 => .letrec (forall₂_mono (fun _ _ q => q.up hNM) h1) (h2.up hNM) (h3.up hNM)
  | _, _, .app h1 h2 => .app (h1.up hNM) (h2.up hNM)
  | _, _, .define h1 h2 => .define (h1.up hNM) (h2.up hNM)
theorem OutsRel.up (hNM : ∀ s s', N s s' → M s s') : ∀ {os os' : List Out}, OutsRel h N os os' → OutsRel h M os os'
  | _, _, .nil => .nil
  | _, _, .cons h1 h2 => .cons (h1.up hNM) (h2.up hNM)
end

theorem ValRel.up (hNM : ∀ s s', N s s' → M s s') (hle : sh ≤ sh') (hclo : ∀ s s' a l, M s s' → M (s.1, .num a, l) (s'.1, .num (a + sh'), l)) {v v' : Val}
    (hv : ValRel h N sh gl v v') : ValRel h M sh' gl v v' := by
  cases hv with
  | var hv => exact .var (hv.up hNM)
  | code ho => exact .code (ho.up hNM)
  | builtin s hb => exact .builtin s hb
  | rules hm =>
    obtain ⟨Rm, m, m', h1, h2, h3⟩ := hm
    exact .rules ⟨Rm, m, m', ⟨h1.link.up hNM hle hclo, h1.ell, h1.lits, h1.rules⟩, h2, h3⟩
  | slam R h1 h2 h3 h4 h5 => exact .slam R (h1.up hNM hle hclo) h2 h3 h4 h5

theorem StoreRel.up (hNM : ∀ s s', N s s' → M s s') (hle : sh ≤ sh') (hclo : ∀ s s' a l, M s s' → M (s.1, .num a, l) (s'.1, .num (a + sh'), l)) {st st' : Store}
    (hs : StoreRel h N sh gl st st') : StoreRel h M sh' gl st st' :=
  ⟨forall₂_mono (fun _ _ q => ⟨q.1, fun ha => (q.2 ha).up hNM hle hclo⟩) hs.rel, hs.sane, hs.sane'⟩

end
end Verif.Expand

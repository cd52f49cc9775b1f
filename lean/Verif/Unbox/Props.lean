import Verif.Unbox.Main
import Verif.Fold.Props
/-
C63: unboxing of values preserves meaning.
-/
namespace Verif.Unbox
open Verif.Core
open Verif.Fold (Uniform)
variable {W τ : Type} [DecidableEq τ]

mutual
/-- The shape of programs after `lambda-lift`, without the condition on tests of global variables in `Plain`. -/
def Shape : Exp → Prop
  | .var _ => True
  | .set _ e => Shape e
  | .ite a b c => Shape a ∧ Shape b ∧ Shape c
  | .prim _ _ es => Shapes es
  | .app f es => isDegLet f = false ∧ Shape f ∧ Shapes es
  | .lam _ b => Shape b
  | .fix _ lams b => Shapes lams ∧ Shape b
  | .letcc _ _ => False
  | .withcc _ _ => False
/-- for lists. -/
def Shapes : List Exp → Prop
  | [] => True
  | e :: es => Shape e ∧ Shapes es
end

/-- The full claim of C63: if the tables of C types are right, a program behaves as before, and a variable with a C type
only gets values of its type.  False: `c63_counterexample`, `c63_global_counterexample`. -/
def C63Full : Prop :=
  ∀ (W τ : Type) (_ : DecidableEq τ) (M : Sem W) (t : CTypes τ) (has : τ → View → Bool) (Q : Op → List Exp → List Nat) (k : Nat) (e : Exp),
    Honest M t has → FairOrder Q → Uniform Q → Shape e → Uniq e → (∀ x ∈ binders e, x.isGlobal = false) → (∀ x, x ∈ binders e ∨ Free x e → x.ts < k) →
    ∀ (w : W) (g : Id → Option Val), (∀ x v, g x = some v → ∃ a, v = .atom a) →
      Behaves (step M (srcOrder Q)) (ustep M Q has (fun x => typeIn x (unboxValues t k e).2))
        (.ev e .nil .halt ⟨g, [], w⟩) (.ev (unboxValues t k e).1 .nil .halt ⟨g, [], w⟩)

/-! ### types of ids -/

omit [DecidableEq τ] in
theorem typeIn_mem {x : Id} {T : τ} : ∀ {l : List (Id × τ)}, (l.map Prod.fst).Nodup → (x, T) ∈ l → typeIn x l = some T := by
  intro l
  induction l with
  | nil => intro _ h; simp at h
  | cons p l ih =>
    intro hn h
    obtain ⟨y, U⟩ := p
    simp only [List.map_cons, List.nodup_cons] at hn
    rcases List.mem_cons.mp h with h | h
    · injection h with h1 h2; subst h1; subst h2; simp [typeIn]
    · have : x ≠ y := fun e => hn.1 (List.mem_map.mpr ⟨(x, T), h, e⟩)
      rw [typeIn, if_neg this]; exact ih hn.2 h

omit [DecidableEq τ] in
theorem typeIn_none {x : Id} : ∀ {l : List (Id × τ)}, x ∉ l.map Prod.fst → typeIn x l = none := by
  intro l
  induction l with
  | nil => intro _; rfl
  | cons p l ih =>
    intro h
    obtain ⟨y, U⟩ := p
    simp only [List.map_cons, List.mem_cons, not_or] at h
    rw [typeIn, if_neg h.1]; exact ih h.2

theorem typedOf_keys {t : CTypes τ} {b : Exp} {ids : List Id} : ((typedOf t b ids).map Prod.fst).Sublist ids := by
  induction ids with
  | nil => exact .slnil
  | cons x ids ih =>
    simp only [typedOf, List.filterMap_cons] at ih ⊢
    cases h : (formalType t x b).map (x, ·) with
    | none => exact ih.cons _
    | some p =>
      obtain ⟨T, _, rfl⟩ := Option.map_eq_some_iff.mp h
      simp only [List.map_cons]
      exact ih.cons_cons _

mutual
theorem typedFormals_keys (t : CTypes τ) : (e : Exp) → ((typedFormals t e).map Prod.fst).Sublist (binders e)
  | .var _ => by simp [typedFormals]
  | .set _ e => by simpa [typedFormals, binders] using typedFormals_keys t e
  | .ite a b c => by
    simp only [typedFormals, binders, List.map_append]
    exact (typedFormals_keys t a).append ((typedFormals_keys t b).append (typedFormals_keys t c))
  | .prim _ _ es => by simpa [typedFormals, binders] using typedFormalsAll_keys t es
  | .app (.lam ids b) es => by
    simp only [typedFormals, binders, List.map_append]
    refine (List.Sublist.append ?_ (typedFormals_keys t b)).append (typedFormalsAll_keys t es)
    split
    · simp
    · exact typedOf_keys
  | .app (.var x) es => app_keys (typedFormals_keys t (.var x)) (typedFormalsAll_keys t es) (by intro _ _ h; cases h)
  | .app (.set x e) es => app_keys (typedFormals_keys t (.set x e)) (typedFormalsAll_keys t es) (by intro _ _ h; cases h)
  | .app (.ite a b c) es => app_keys (typedFormals_keys t (.ite a b c)) (typedFormalsAll_keys t es) (by intro _ _ h; cases h)
  | .app (.prim a b c) es => app_keys (typedFormals_keys t (.prim a b c)) (typedFormalsAll_keys t es) (by intro _ _ h; cases h)
  | .app (.app a b) es => app_keys (typedFormals_keys t (.app a b)) (typedFormalsAll_keys t es) (by intro _ _ h; cases h)
  | .app (.fix a b c) es => app_keys (typedFormals_keys t (.fix a b c)) (typedFormalsAll_keys t es) (by intro _ _ h; cases h)
  | .app (.letcc a b) es => app_keys (typedFormals_keys t (.letcc a b)) (typedFormalsAll_keys t es) (by intro _ _ h; cases h)
  | .app (.withcc a b) es => app_keys (typedFormals_keys t (.withcc a b)) (typedFormalsAll_keys t es) (by intro _ _ h; cases h)
  | .lam ids b => by
    simp only [typedFormals, binders, List.map_append]
    exact typedOf_keys.append (typedFormals_keys t b)
  | .fix ids lams b => by
    simp only [typedFormals, binders, List.map_append]
    exact ((typedFormalsAll_keys t lams).append (typedFormals_keys t b)).trans (List.sublist_append_right _ _)
  | .letcc x b => by
    simp only [typedFormals, binders]
    exact (typedFormals_keys t b).cons _
  | .withcc a b => by
    simp only [typedFormals, binders, List.map_append]
    exact (typedFormals_keys t a).append (typedFormals_keys t b)
theorem typedFormalsAll_keys (t : CTypes τ) : (es : List Exp) → ((typedFormalsAll t es).map Prod.fst).Sublist (bindersAll es)
  | [] => by simp [typedFormalsAll]
  | e :: es => by
    simp only [typedFormalsAll, bindersAll, List.map_append]
    exact (typedFormals_keys t e).append (typedFormalsAll_keys t es)
theorem app_keys {t : CTypes τ} {f : Exp} {es : List Exp} (h1 : ((typedFormals t f).map Prod.fst).Sublist (binders f)) (h2 : ((typedFormalsAll t es).map Prod.fst).Sublist (bindersAll es)) (hf : ∀ ids b, f ≠ .lam ids b) :
    ((typedFormals t (.app f es)).map Prod.fst).Sublist (binders (.app f es)) := by
  have hnl : isLetL (f :: es) = false := by
    cases f with
    | lam ids b => exact absurd rfl (hf ids b)
    | _ => rfl
  rw [typedFormals_app hnl]
  simp only [binders, List.map_append]
  exact h1.append h2
end

theorem good_values {t : CTypes τ} {k : Nat} {e : Exp} : Good k (uv t [] ⟨k, []⟩ e).2 :=
  (uv_ext t e [] ⟨k, []⟩).2.2 k ⟨Nat.le_refl _, fun p hp => by simp at hp, List.nodup_nil⟩

theorem final_values {t : CTypes τ} {k : Nat} {e : Exp} (he : Input t k e) :
    Final (fun x => typeIn x (unboxValues t k e).2) (fun x => typeIn x (typedFormals t e)) k t e (uv t [] ⟨k, []⟩ e).2 where
  types p hp := typeIn_mem good_values.nodup hp
  old y hy := typeIn_none (fun hm => by
    obtain ⟨p, hp, e⟩ := List.mem_map.mp hm
    have := (good_values.new p hp).ge
    rw [e] at this; omega)
  formals x T hm := typeIn_mem ((typedFormals_keys t e).nodup he.uniq.1) hm

theorem inv_values {t : CTypes τ} {k : Nat} {e : Exp} (he : Input t k e) : Inv t k [] ⟨k, []⟩ [] e :=
  ⟨he.plain, he.uniq, he.loc, he.old, Nat.le_refl _, fun p hp => by simp at hp, fun y hy => by simp [Fold.tlook] at hy, fun _ p hp => by simp at hp⟩

/-! ### the theorems -/

/-- **C63** (partial).  Unboxing preserves the result and the sequence of worlds of a program, and a variable with a C type
gets only values of this type, provided that the parameters that are used more than once, always with the same C type, only get
values of this type, and that no test of the type of a global variable unboxes it (part of `Input`).  Both conditions are needed:
`c63_counterexample`, `c63_global_counterexample`. -/
theorem c63_unbox_values_partial (M : Sem W) (t : CTypes τ) (has : τ → View → Bool) (Q : Op → List Exp → List Nat) (k : Nat) (e : Exp)
    (hh : Honest M t has) (hQ : FairOrder Q) (hU : Uniform Q) (he : Input t k e)
    (w : W) (g : Id → Option Val) (hg : ∀ x v, g x = some v → ∃ a, v = .atom a) :
    Behaves (ustep M (srcOrder Q) has (fun x => typeIn x (typedFormals t e))) (ustep M Q has (fun x => typeIn x (unboxValues t k e).2))
      (.ev e .nil .halt ⟨g, [], w⟩) (.ev (unboxValues t k e).1 .nil .halt ⟨g, [], w⟩) :=
  unbox_behaves hQ hU hh (uv_U hh.text e (inv_values he) (final_values he)) w g hg

omit [DecidableEq τ] in
theorem ustep_none {M : Sem W} {ord : Op → List Exp → List Nat} {has : τ → View → Bool} : ustep M ord has (fun _ => none) = step M ord := by
  funext s
  cases s with
  | ap f vs κ σ =>
    rw [ustep, if_pos]
    simp [fits]
  | _ => rfl

/-- **C63** for programs in which no parameter is used more than once, always with the same C type: the given program can be run
on the machine without types. -/
theorem c63_untyped_formals (M : Sem W) (t : CTypes τ) (has : τ → View → Bool) (Q : Op → List Exp → List Nat) (k : Nat) (e : Exp)
    (hh : Honest M t has) (hQ : FairOrder Q) (hU : Uniform Q) (he : Input t k e) (hn : typedFormals t e = [])
    (w : W) (g : Id → Option Val) (hg : ∀ x v, g x = some v → ∃ a, v = .atom a) :
    Behaves (step M (srcOrder Q)) (ustep M Q has (fun x => typeIn x (unboxValues t k e).2))
      (.ev e .nil .halt ⟨g, [], w⟩) (.ev (unboxValues t k e).1 .nil .halt ⟨g, [], w⟩) := by
  have h := c63_unbox_values_partial M t has Q k e hh hQ hU he w g hg
  rw [hn] at h
  simp only [typeIn] at h
  rwa [ustep_none] at h

/-- **C63**.  In the new program, variables with a C type are used only as operands of primitives that convert the operand to
this type: the conversion can be left out, and the value is never needed as an object. -/
theorem c63_uses (t : CTypes τ) (k : Nat) (e : Exp) (he : Input t k e) : Direct t (fun x => typeIn x (unboxValues t k e).2) (unboxValues t k e).1 :=
  uv_D e (inv_values he) (fun p hp => by simp at hp) (final_values he)

/-- **C63**.  The new variables are distinct, local, and unused in the given program. -/
theorem c63_new_ids (t : CTypes τ) (k : Nat) (e : Exp) :
    ((unboxValues t k e).2.map Prod.fst).Nodup ∧ ∀ p ∈ (unboxValues t k e).2, p.1.isGlobal = false ∧ (k : Int) ≤ p.1.ts :=
  ⟨good_values.nodup, fun p hp => ⟨(good_values.new p hp).loc, (good_values.new p hp).ge⟩⟩

/-! ### examples -/

/-- `op 0` adds numbers that are at least 10, `op 1` tests whether its operand is one, others are constants. -/
def sem : Sem Unit := ⟨fun n vs w =>
  match n, vs with
  | 0, [.atom a, .atom b] => if 10 ≤ a ∧ 10 ≤ b then some (a + b, w) else none
  | 1, [.atom a] => if 10 ≤ a then some (2, w) else some (0, w)
  | n + 2, [] => some (n + 2, w)
  | _, _ => none⟩

/-- the types: `op 0` converts its operands, `op 1` is a type check, the results of `op 0` and `op 20` have the type. -/
def types : CTypes Unit where
  ret p := if p = .op 20 ∨ p = .op 0 then some () else none
  check p := if p = .op 1 then some () else none
  assert _ := none
  arg p _ := if p = .op 0 then some () else none

/-- the values of the type. -/
def big : Unit → View → Bool
  | _, .atom a => decide (10 ≤ a)
  | _, _ => false

theorem honest_types : Honest sem types big := by
  refine ⟨?_, ?_, ?_⟩
  · intro p T vs σ v σ' h1 h2
    simp only [types] at h1
    split at h1
    · rename_i hp
      rcases hp with rfl | rfl
      · cases vs with
        | nil => simp only [doPrim, sem] at h2; cases h2; rfl
        | cons u vs => simp [doPrim, sem] at h2
      · simp only [doPrim, sem] at h2
        split at h2
        · rename_i a b _ _
          by_cases hab : 10 ≤ a ∧ 10 ≤ b
          · simp only [if_pos hab] at h2; cases h2
            simp [Val.view, big]; omega
          · simp only [if_neg hab] at h2; cases h2
        · rename_i h _; cases h
        · rename_i h _; cases h
        · cases h2
    · cases h1
  · intro p T u σ v σ' h1 h2 h3
    simp only [types] at h1
    split at h1
    · rename_i hp; subst hp
      cases u with
      | atom a =>
        simp only [doPrim, sem, List.map_cons, List.map_nil, Val.view] at h2
        by_cases ha : 10 ≤ a
        · simpa [Val.view, big] using ha
        · simp only [if_neg ha] at h2; cases h2; cases h3
      | _ => simp [doPrim, sem, Val.view] at h2
    · cases h1
  · intro p T h1
    simp only [types] at h1 ⊢
    split at h1
    · rename_i hp; subst hp; rfl
    · cases h1

/-- The machine gets stuck after `n` steps. -/
def stuckAt (f : State W → Option (State W)) (n : Nat) (s : State W) : Bool :=
  match iter f n s with
  | some (.ap g vs κ σ) => (f (.ap g vs κ σ)).isNone
  | _ => false

theorem stuckAt_fails {f : State W → Option (State W)} {n : Nat} {s : State W} (h : stuckAt f n s = true) : Fails f s := by
  unfold stuckAt at h
  split at h
  · rename_i hi
    refine ⟨_, ⟨n, hi⟩, by simpa using h, ?_⟩
    intro _ _ e; cases e
  · cases h

theorem not_fails {f : State W → Option (State W)} [Core.Final f] {s : State W} {v : Val} {w : W} (h : Reach f s (.done v w)) : ¬ Fails f s := by
  rintro ⟨s', h1, h2, h3⟩
  rcases reach_total h h1 with h4 | h4
  · exact h3 v w (reach_final (step_done v w) h4)
  · exact h3 v w (reach_final h2 h4).symm

/-- no global variables. -/
def noGlobs : Id → Option Val := fun _ => none

/-- `(fix ([f (lambda (x y) (if y (op0 x x) 4))]) (f 4 (op1 4)))`. -/
def early : Exp :=
  .fix [lexId 0] [.lam [lexId 1, lexId 2] (.ite (.var (lexId 2)) (.prim noEffect (.op 0) [.var (lexId 1), .var (lexId 1)]) (.prim noEffect (.op 4) []))]
    (.app (.var (lexId 0)) [.prim noEffect (.op 4) [], .prim noEffect (.op 1) [.prim noEffect (.op 4) []]])

/-- Parameters are converted on entry, also if the conversion is only needed in a branch that is not taken: the program `early`
returns 4; after unboxing, it converts an object that is not a number. -/
theorem c63_counterexample : ¬ C63Full := by
  intro h
  have hp := Fold.foldProg_of (k := 3) (e := early) (by decide +kernel) (by decide +kernel) (by decide +kernel)
  have hb := h Unit Unit inferInstance sem types big leftToRight 3 early honest_types Beta.fair_leftToRight Fold.uniform_leftToRight
    (by simp [early, Shape, Shapes, isDegLet, isNullLet, isIdLet]) hp.uniq hp.loc hp.old () noGlobs (fun x v hx => by cases hx)
  obtain ⟨u, h1, _⟩ := outcome_reach (f := step sem (srcOrder leftToRight)) (s := .ev early .nil .halt ⟨noGlobs, [], ()⟩) (n := 25) (u := .atom 4) (w := ()) (by decide +kernel)
  exact not_fails h1 (hb.fails (stuckAt_fails (n := 27) (by decide +kernel)))

/-- a global variable. -/
def glob : Id := ⟨-1, false⟩

/-- the global variable has the value 10 at first. -/
def globs : Id → Option Val := fun x => if x = glob then some (.atom 10) else none

/-- `(fix ([h (lambda () (set! g 20))]) (if (op1 g) (begin (h) (op0 g g)) 4))`. -/
def cached : Exp :=
  .fix [lexId 0] [.lam [] (.set glob (.prim noEffect (.op 20) []))]
    (.ite (.prim noEffect (.op 1) [.var glob]) (.app (.lam [lexId 1] (.prim noEffect (.op 0) [.var glob, .var glob])) [.app (.var (lexId 0)) []]) (.prim noEffect (.op 4) []))

/-- The value of a global variable is kept from the test of its type: the program `cached` returns 40, and 20 after unboxing,
though no parameter has a type. -/
theorem c63_global_counterexample : typedFormals types cached = [] ∧ ¬ C63Full := by
  refine ⟨by decide +kernel, ?_⟩
  intro h
  have hp := Fold.foldProg_of (k := 2) (e := cached) (by decide +kernel) (by decide +kernel) (by decide +kernel)
  have hb := h Unit Unit inferInstance sem types big leftToRight 2 cached honest_types Beta.fair_leftToRight Fold.uniform_leftToRight
    (by simp [cached, Shape, Shapes, isDegLet, isNullLet, isIdLet]) hp.uniq hp.loc hp.old () globs (fun x v hx => by
      simp only [globs] at hx
      split at hx
      · injection hx with hx; exact ⟨10, hx.symm⟩
      · cases hx)
  obtain ⟨u, h1, e1⟩ := outcome_reach (f := step sem (srcOrder leftToRight)) (s := .ev cached .nil .halt ⟨globs, [], ()⟩) (n := 35) (u := .atom 40) (w := ()) (by decide +kernel)
  obtain ⟨u', h2, e2⟩ := outcome_reach (f := ustep sem leftToRight big (fun x => typeIn x (unboxValues types 2 cached).2)) (s := .ev (unboxValues types 2 cached).1 .nil .halt ⟨globs, [], ()⟩) (n := 44) (u := .atom 20) (w := ())
    (by decide +kernel)
  obtain ⟨v, hv, e⟩ := hb.result _ _ h1
  rw [(done_unique hv h2).1, e1, e2] at e
  cases e

/-- `(lambda (z) (let ((y 20)) (if (op1 z) (op0 (op0 z z) y) (op0 y y))))`. -/
def sums : Exp :=
  .lam [lexId 0] (.app (.lam [lexId 1] (.ite (.prim noEffect (.op 1) [.var (lexId 0)])
    (.prim noEffect (.op 0) [.prim noEffect (.op 0) [.var (lexId 0), .var (lexId 0)], .var (lexId 1)])
    (.prim noEffect (.op 0) [.var (lexId 1), .var (lexId 1)]))) [.prim noEffect (.op 20) []])

/-- a program with two variables that are unboxed meets the conditions of all theorems above. -/
example : Honest sem types big ∧ Input types 2 sums ∧ typedFormals types sums = [] ∧ unboxValues types 2 sums =
    (.lam [lexId 0] (.app (.lam [lexId 2] (.ite (.prim noEffect (.op 1) [.var (lexId 0)])
      (.app (.lam [lexId 3] (.prim noEffect (.op 0) [.prim noEffect (.op 0) [.var (lexId 3), .var (lexId 3)], .var (lexId 2)])) [.var (lexId 0)])
      (.prim noEffect (.op 0) [.var (lexId 2), .var (lexId 2)]))) [.prim noEffect (.op 20) []]), [(lexId 3, ()), (lexId 2, ())]) := by
  have hp := Fold.foldProg_of (k := 2) (e := sums) (by decide +kernel) (by decide +kernel) (by decide +kernel)
  refine ⟨honest_types, ⟨?_, hp.uniq, hp.loc, hp.old⟩, by decide +kernel, by rfl⟩
  simp only [sums, Plain, Plains, isDegLet, isNullLet, isIdLet, and_true, true_and]
  refine ⟨rfl, fun x T h => ?_⟩
  obtain ⟨⟨_, _, e, _⟩, _⟩ := testOf_inv h
  simp only [Exp.prim.injEq, List.cons.injEq, Exp.var.injEq, and_true] at e
  rw [← e.2.2]; rfl

/-- a program with a parameter that is unboxed. -/
example : Input types 1 (.lam [lexId 0] (.prim noEffect (.op 0) [.var (lexId 0), .var (lexId 0)])) ∧
    typedFormals types (.lam [lexId 0] (.prim noEffect (.op 0) [.var (lexId 0), .var (lexId 0)])) = [(lexId 0, ())] ∧
    unboxValues types 1 (.lam [lexId 0] (.prim noEffect (.op 0) [.var (lexId 0), .var (lexId 0)])) =
      (.lam [lexId 0] (.app (.lam [lexId 1] (.prim noEffect (.op 0) [.var (lexId 1), .var (lexId 1)])) [.var (lexId 0)]), [(lexId 1, ())]) := by
  have hp := Fold.foldProg_of (k := 1) (e := .lam [lexId 0] (.prim noEffect (.op 0) [.var (lexId 0), .var (lexId 0)])) (by decide +kernel) (by decide +kernel) (by decide +kernel)
  exact ⟨⟨by simp [Plain, Plains], hp.uniq, hp.loc, hp.old⟩, by decide +kernel, by rfl⟩

end Verif.Unbox

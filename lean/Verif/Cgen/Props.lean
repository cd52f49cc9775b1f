import Verif.Cgen.Tails
/-
C53: the code generator preserves the meaning of programs.
-/
namespace Verif.Core.Sys
variable {W : Type} {A B : Sys W}

/-- one more step at the start. -/
theorem Behaves.of_step {s s1 : A.S} {t : B.S} (h : A.step s = some s1) (hw : A.world s1 = A.world s) (hb : Behaves A B s1 t) : Behaves A B s t := by
  refine ⟨hw ▸ hb.start, fun hf => .of_step h (hb.fails hf), ?_, ?_, ?_, ?_⟩
  · rintro ws u ⟨n, s', hp, ho⟩
    cases hp with
    | refl => rw [A.final _ _ ho] at h; cases h
    | same g1 g2 g3 => rw [h] at g1; injection g1 with g1; subst g1; exact hb.ends _ _ ⟨_, _, g3, ho⟩
    | new g1 g2 g3 => rw [h] at g1; injection g1 with g1; subst g1; exact absurd hw g2
  · intro ws u hu
    rcases hb.ends' ws u hu with g | ⟨n, s', hp, ho⟩
    · exact Or.inl (.of_step h g)
    · exact Or.inr ⟨n + 1, s', .same h hw hp, ho⟩
  · rintro ws ⟨n, s', hp⟩
    cases hp with
    | refl => exact Or.inr ⟨0, t, .refl t⟩
    | same g1 g2 g3 =>
      rw [h] at g1; injection g1 with g1; subst g1
      rcases hb.visits _ ⟨_, _, g3⟩ with g | g
      · exact Or.inl (.of_step h g)
      · exact Or.inr g
    | new g1 g2 g3 => rw [h] at g1; injection g1 with g1; subst g1; exact absurd hw g2
  · intro ws hv
    rcases hb.visits' ws hv with g | ⟨n, s', hp⟩
    · exact Or.inl (.of_step h g)
    · exact Or.inr ⟨n + 1, s', .same h hw hp⟩

/-- execution of at most `n` steps: the worlds, and the last state. -/
def trace [DecidableEq W] (A : Sys W) : Nat → A.S → List W × A.S
  | 0, s => ([], s)
  | n + 1, s =>
    match A.step s with
    | none => ([], s)
    | some s1 => if A.world s1 = A.world s then trace A n s1 else (A.world s1 :: (trace A n s1).1, (trace A n s1).2)

theorem trace_path [DecidableEq W] (A : Sys W) : ∀ n s, ∃ m, Path A m s (trace A n s).1 (trace A n s).2 := by
  intro n
  induction n with
  | zero => intro s; exact ⟨0, .refl s⟩
  | succ n ih =>
    intro s
    unfold trace
    split
    · exact ⟨0, .refl s⟩
    · rename_i s1 hs
      obtain ⟨m, hm⟩ := ih s1
      split
      · rename_i hw; exact ⟨m + 1, .same hs hw hm⟩
      · rename_i hw; exact ⟨m + 1, .new hs hw hm⟩

/-- a program ends in one way only. -/
theorem Ends.unique {s : A.S} {ws ws' : List W} {u u' : View} (h : A.Ends s ws u) (h' : A.Ends s ws' u') : ws = ws' ∧ u = u' := by
  obtain ⟨n, x, hp, ho⟩ := h
  obtain ⟨m, y, hp', ho'⟩ := h'
  rcases hp.split hp' with ⟨_, l, e, d⟩ | ⟨_, l, e, d⟩
  · obtain ⟨_, rfl, rfl⟩ := d.stuck (A.final _ _ ho)
    rw [ho] at ho'; injection ho' with ho'
    exact ⟨by simp [e], ho'⟩
  · obtain ⟨_, rfl, rfl⟩ := d.stuck (A.final _ _ ho')
    rw [ho] at ho'; injection ho' with ho'
    exact ⟨by simp [e], ho'⟩

/-- a program that ends does not fail. -/
theorem Ends.not_fails {s : A.S} {ws : List W} {u : View} (h : A.Ends s ws u) : ¬ A.Fails s := by
  rintro ⟨m, ws', y, hp', hs', ho'⟩
  obtain ⟨n, x, hp, ho⟩ := h
  rcases hp.split hp' with ⟨_, l, e, d⟩ | ⟨_, l, e, d⟩
  · obtain ⟨_, rfl, rfl⟩ := d.stuck (A.final _ _ ho); rw [ho] at ho'; cases ho'
  · obtain ⟨_, rfl, rfl⟩ := d.stuck hs'; rw [ho] at ho'; cases ho'

theorem Ends.of_trace [DecidableEq W] {s : A.S} {ws : List W} {u : View} (n : Nat) (hw : (trace A n s).1 = ws) (ho : A.out (trace A n s).2 = some u) : A.Ends s ws u := by
  obtain ⟨m, hm⟩ := trace_path A n s
  exact ⟨m, _, hw ▸ hm, ho⟩

end Verif.Core.Sys

namespace Verif.Cgen
open Verif.Core Sys
variable {W : Type} {M : Sem W} {T : Texts} {Q : PrimName → Nat → List Nat} {P : Prog}

/-- the parts of a program. -/
def globOf (labs : List Id) (lams : List Exp) (body : Exp) : Glob := ⟨labs, lams, curryAlist labs lams body, constLabel lams body⟩

theorem find_label {cs : List Curry} {l : Id} {c : Curry} (h : cs.find? (fun c => c.label = l) = some c) : c.label = l := by
  simpa using List.find?_some h

theorem curryAlist_labels (lams : List Exp) (body : Exp) (labs : List Id) : ((curryAlist labs lams body).map Curry.label).Sublist labs := by
  unfold curryAlist
  induction labs with
  | nil => exact .slnil
  | cons l labs ih =>
    rw [List.filterMap_cons]
    split
    · exact ih.cons _
    · rename_i c hc
      rw [List.map_cons, find_label hc]
      exact ih.cons_cons _

theorem constLabel_global {lams : List Exp} {body : Exp} {x l : Id} (h : constLabel lams body x = some l) : x.isGlobal = true := by
  unfold constLabel at h
  split at h
  · rename_i hg; simp only [Id.isGlobalConst, Bool.and_eq_true] at hg; exact hg.1
  · cases h

theorem compile_facts {labs : List Id} {lams : List Exp} {body : Exp} (hL : Lifted M T labs lams body) (hP : compile T labs lams body = some P) :
    Facts M T P (globOf labs lams body) ∧ P.entry = cgTo ((globOf labs lams body).ctx T) body [] (.reg 0) ∧
      ∀ c ∈ curries body, c ∈ curryAlist labs lams body := by
  unfold compile at hP
  simp only at hP
  split at hP
  · rename_i hall
    injection hP with hP
    subst hP
    have hmem : ∀ c ∈ allCurries lams body, c ∈ curryAlist labs lams body := by
      intro c hc
      have := List.all_eq_true.1 hall c hc
      simpa [ctxOf] using this
    refine ⟨⟨hL.labels, ?_, hL.len, ?_, fun x l => constLabel_global, ?_, rfl⟩, rfl, fun c hc => hmem c (List.mem_append_right _ hc)⟩
    · exact (curryAlist_labels lams body labs).nodup hL.nodup
    · intro e he
      obtain ⟨ps, b, rfl, h1, h2, h3, h4⟩ := hL.lam e he
      exact ⟨ps, b, rfl, h1, h2, h3, h4, fun c hc => hmem c (List.mem_append_left _ (curriesAll_mem.2 ⟨b, List.mem_map.2 ⟨_, he, rfl⟩, hc⟩))⟩
    · intro l i hi
      show (idxOf l labs).bind _ = _
      rw [show idxOf l labs = some i from hi]
      rfl
  · cases hP

/-- Global variables that other modules have given simple values. -/
def atoms (g : Id → Option Nat) : Id → Option Val := fun y => (g y).map .atom
@[inherit_doc atoms]
def catoms (g : Id → Option Nat) : Id → Option CVal := fun y => (g y).map .atom

/-- **C53** (partial: the hypotheses in `Value.ite` and `Value.prim` are needed, see `c53_counterexample` and
`c53_counterexample_alloc`).  Generated code behaves like the program. -/
theorem c53_code_generation_partial (hQ : ∀ p n, (Q p n).Perm (List.range n)) (hT : TypesOk M T) {labs : List Id} {lams : List Exp} {body : Exp}
    (hL : Lifted M T labs lams body) (hP : compile T labs lams body = some P) (g : Id → Option Nat) (hg : ∀ x, (constLabel lams body x).isSome → g x = none)
    (w : W) (r : Regs) :
    FairOrder (cgOrder T Q) ∧
    Behaves (coreSys M (cgOrder T Q)) (cSys M Q P) (.ev (.fix labs lams body) .nil .halt ⟨atoms g, [], w⟩) (.run P.entry r ⟨catoms g, [], w⟩) := by
  refine ⟨cgOrder_fair T hQ, ?_⟩
  obtain ⟨F, hent, hcur⟩ := compile_facts hL hP
  have hstep : (coreSys M (cgOrder T Q)).step (.ev (.fix labs lams body) .nil .halt ⟨atoms g, [], w⟩) = some (.ev body (.fix labs lams .nil) .halt ⟨atoms g, [], w⟩) := rfl
  refine Behaves.of_step hstep rfl ((sim_ok hQ hT F).behaves ?_)
  refine ⟨body, _, _, [], .reg 0, [], r, ⟨catoms g, [], w⟩, rfl, ?_, hL.main, hcur, ⟨?_, ?_⟩, ⟨?_, .nil, rfl, ?_⟩⟩
  · rw [List.append_nil, hent]
  · intro l i hi
    show Env.lookup _ _ = _
    rw [Env.lookup, show idxOf l labs = some i from hi]
    rfl
  · intro x hx hp
    rcases hL.closed x hx with h | h
    · rw [hp.1] at h; cases h
    · have := hL.labels x h; rw [hp.2] at this; cases this
  · intro y
    simp only [atoms, catoms]
    cases g y with
    | none => exact Or.inl ⟨rfl, rfl⟩
    | some n => exact Or.inr ⟨_, _, rfl, rfl, .atom n⟩
  · intro x l v hl hv
    have := hg x (by rw [show constLabel lams body x = some l from hl]; rfl)
    simp [atoms, this] at hv

/-! ### example -/

/-- `(eq? n 0)`, `n - 1` (visible outside), and 3. -/
def exSem : Sem Nat where
  op
    | 0, [.atom n], w => some (if n = 0 then 2 else 0, w)
    | 1, [.atom n], w => some (n - 1, w + 1)
    | 2, [], w => some (3, w)
    | _, _, _ => none

/-- operators are C expressions, the first one has type `bool`. -/
def exTexts : Texts := ⟨fun p => match p with | .op _ => true | .void => true | _ => false, fun p => p == .op 0, fun _ => false⟩

/-- the labels and the global variable. -/
def exL (i : Int) : Id := ⟨i, true⟩
@[inherit_doc exL]
def exG : Id := ⟨-1, true⟩

/-- `(fix ([loop (n k) (if (zero? n) (k n) (loop (- n 1) k))] [end (m) (halt m)]) (begin (set! g (curry end)) (loop 3 g)))`. -/
def exLams : List Exp :=
  [.lam [lexId 1, lexId 2] (.ite (.prim noEffect (.op 0) [.var (lexId 1)]) (.app (.var (lexId 2)) [.var (lexId 1)])
    (.app (.var (exL 10)) [.prim ⟨false, true, true⟩ (.op 1) [.var (lexId 1)], .var (lexId 2)])),
   .lam [lexId 3] (.prim noEffect .halt [.var (lexId 3)])]
@[inherit_doc exLams]
def exBody : Exp :=
  letExp [lexId 4] [.set exG (.lam [lexId 5] (curryBody (exL 11) [lexId 5] []))] (.app (.var (exL 10)) [.prim noEffect (.op 2) [], .var exG])
@[inherit_doc exLams]
def exProg : Option Prog := compile exTexts [exL 10, exL 11] exLams exBody

theorem exQ : ∀ (_ : PrimName) (n : Nat), (List.range n).Perm (List.range n) := fun _ _ => .refl _

theorem exTypes : TypesOk exSem exTexts := by
  refine ⟨fun p hp => ⟨0, by simpa [exTexts] using hp, fun vs w r h => ?_⟩, fun p hp => by simp [exTexts] at hp, rfl⟩
  rcases vs with _ | ⟨v, _ | ⟨_, _⟩⟩
  · simp [exSem] at h
  · cases v with
    | atom n => simp only [exSem, Option.some.injEq] at h; subst h; by_cases hn : n = 0 <;> simp [hn]
    | _ => simp [exSem] at h
  · simp [exSem] at h

theorem exLifted : Lifted exSem exTexts [exL 10, exL 11] exLams exBody := by
  have free : ∀ (b : Exp) (l : List Id), (∀ y ∈ freeLexvars b, y ∈ l) → ∀ y, Free y b → y.isGlobal = true ∨ y ∈ l := by
    intro b l h y hy
    cases hg : y.isGlobal with
    | true => exact Or.inl rfl
    | false => exact Or.inr (h y ((c47_free_lexvars y b).1.2 ⟨hg, hy⟩))
  have hv : ∀ x : Id, x.isLabel = false → Value exSem exTexts (constLabel exLams exBody) [exL 10, exL 11] (.var x) := fun x h => .var h
  have hvs : ∀ xs : List Id, (∀ x ∈ xs, x.isLabel = false) → ∀ e ∈ xs.map Exp.var, Value exSem exTexts (constLabel exLams exBody) [exL 10, exL 11] e := by
    intro xs h e he
    obtain ⟨x, hx, rfl⟩ := List.mem_map.1 he
    exact .var (h x hx)
  have hp : ∀ x ∈ [lexId 1, lexId 2, lexId 3, lexId 4, lexId 5], plain x := by
    intro x hx; simp only [List.mem_cons, List.not_mem_nil, or_false] at hx; rcases hx with rfl | rfl | rfl | rfl | rfl <;> exact ⟨by decide, by decide⟩
  refine ⟨by decide, by decide, rfl, ?_, ?_, ?_⟩
  · intro e he
    simp only [exLams, List.mem_cons, List.not_mem_nil, or_false] at he
    rcases he with rfl | rfl
    · refine ⟨_, _, rfl, by decide, fun x hx => hp x (by simp only [List.mem_cons, List.not_mem_nil, or_false] at hx; rcases hx with rfl | rfl <;> decide), ?_, ?_⟩
      · refine .ite (.prim (by decide) (hvs [lexId 1] (by decide)) (by decide)) (.call (hv _ (by decide)) (hvs [lexId 1] (by decide)) (by intro _ _ h; cases h)) (.goto (by decide) ?_)
        intro e he
        simp only [List.mem_cons, List.not_mem_nil, or_false] at he
        rcases he with rfl | rfl
        · exact .prim (by decide) (hvs [lexId 1] (by decide)) (by decide)
        · exact hv _ (by decide)
      · intro y hy
        rcases free _ [lexId 1, lexId 2, exL 10] (by decide +kernel) y hy with h | h
        · exact Or.inl h
        · simp only [List.mem_cons, List.not_mem_nil, or_false] at h ⊢
          tauto
    · refine ⟨_, _, rfl, by decide, fun x hx => hp x (by simp only [List.mem_cons, List.not_mem_nil, or_false] at hx; subst hx; decide), .halt (hv _ (by decide)), ?_⟩
      intro y hy
      rcases free _ [lexId 3] (by decide +kernel) y hy with h | h
      · exact Or.inl h
      · exact Or.inr (Or.inl h)
  · refine .letE rfl (by decide) (fun x hx => hp x (by simp only [List.mem_cons, List.not_mem_nil, or_false] at hx; subst hx; decide)) ?_ ?_ (.goto (by decide) ?_)
    · intro e he
      rw [List.mem_singleton.1 he]
      refine .set (by decide) (.curry (by decide) (by decide) (fun x hx => hp x (by simp only [List.mem_cons, List.not_mem_nil, or_false] at hx; subst hx; decide)) (by simp) (by simp)) ?_
      intro l hl
      have : l = exL 11 := by
        have h : constLabel exLams exBody exG = some (exL 11) := by decide +kernel
        rw [h] at hl; injection hl with hl; exact hl.symm
      subst this
      exact ⟨_, rfl⟩
    · intro x hx e he hf
      rw [List.mem_singleton.1 hx, List.mem_singleton.1 he] at hf
      have := (c47_free_lexvars _ _).1.2 ⟨by decide, hf⟩
      exact absurd this (by decide +kernel)
    · intro e he
      simp only [List.mem_cons, List.not_mem_nil, or_false] at he
      rcases he with rfl | rfl
      · exact .prim (by decide) (by simp) (by decide)
      · exact hv _ (by decide)
  · intro y hy
    exact free _ [exL 10, exL 11] (by decide +kernel) y hy

/-- the hypotheses of `c53_code_generation_partial` can be met, and the two programs run. -/
example : (∀ p n, ((fun (_ : PrimName) n => List.range n) p n).Perm (List.range n)) ∧ TypesOk exSem exTexts ∧ Lifted exSem exTexts [exL 10, exL 11] exLams exBody ∧
    ∃ P, exProg = some P ∧
      (coreSys exSem (cgOrder exTexts (fun _ n => List.range n))).Ends (.ev (.fix [exL 10, exL 11] exLams exBody) .nil .halt ⟨atoms (fun _ => none), [], 0⟩) [1, 2, 3] (.atom 0) ∧
      (cSys exSem (fun _ n => List.range n) P).Ends (.run P.entry (fun _ => none) ⟨catoms (fun _ => none), [], 0⟩) [1, 2, 3] (.atom 0) :=
  ⟨exQ, exTypes, exLifted, _, rfl, .of_trace 400 (by decide +kernel) (by decide +kernel), .of_trace 400 (by decide +kernel) (by decide +kernel)⟩

/-! ### the two defects -/

/-- nothing is known about texts; with it, `Lifted` has no conditions other than those on the shape of programs. -/
def noTexts : Texts := ⟨fun _ => false, fun _ => false, fun _ => false⟩

/-- The full statement: all lifted programs. -/
def C53Full : Prop := ∀ (W : Type) (M : Sem W) (T : Texts) (Q : PrimName → Nat → List Nat) (P : Prog) (labs : List Id) (lams : List Exp) (body : Exp)
    (g : Id → Option Nat) (w : W) (r : Regs),
    (∀ p n, (Q p n).Perm (List.range n)) → TypesOk M T → Lifted M noTexts labs lams body → compile T labs lams body = some P →
    (∀ x, (constLabel lams body x).isSome → g x = none) →
    Behaves (coreSys M (cgOrder T Q)) (cSys M Q P) (.ev (.fix labs lams body) .nil .halt ⟨atoms g, [], w⟩) (.run P.entry r ⟨catoms g, [], w⟩)

/-- `(read-bit)`, visible outside; `#t`. -/
def badSem : Sem Nat where
  op
    | 0, [], w => some (2, w + 1)
    | 1, [], w => some (2, w)
    | _, _, _ => none

/-- `(halt (if (read-bit) (read-bit) (yes)))`. -/
def badBody : Exp :=
  .prim noEffect .halt [.ite (.prim ⟨false, true, true⟩ (.op 0) []) (.prim ⟨false, true, true⟩ (.op 0) []) (.prim noEffect (.op 1) [])]
@[inherit_doc badBody]
def badTexts : Texts := ⟨fun p => match p with | .op _ => true | _ => false, fun p => p == .op 0 || p == .op 1, fun _ => false⟩

/-- The generated code for `(if e e c)` is `e || c`: the effects of `e` happen once instead of twice. -/
theorem c53_counterexample : ¬ C53Full := by
  intro h
  have hT : TypesOk badSem badTexts := by
    refine ⟨fun p hp => ?_, fun p hp => by simp [badTexts] at hp, rfl⟩
    simp only [badTexts, Bool.or_eq_true, beq_iff_eq] at hp
    rcases hp with rfl | rfl
    · refine ⟨0, rfl, fun vs w r hr => ?_⟩
      cases vs <;> simp [badSem] at hr
      subst hr; exact Or.inr rfl
    · refine ⟨1, rfl, fun vs w r hr => ?_⟩
      cases vs <;> simp [badSem] at hr
      subst hr; exact Or.inr rfl
  have hv : ∀ eff n, Value badSem noTexts (constLabel [] badBody) [] (.prim eff (.op n) []) := fun eff n => .prim (by simp) (by simp) (by simp [noTexts])
  have hL : Lifted badSem noTexts [] [] badBody := by
    refine ⟨.nil, by simp, rfl, by simp, .halt (.ite (hv _ _) (hv _ _) (hv _ _) (by intro hb; simp [boolE, noTexts] at hb)), ?_⟩
    intro y hy
    cases hg : y.isGlobal with
    | true => exact Or.inl rfl
    | false => exact absurd ((c47_free_lexvars y badBody).1.2 ⟨hg, hy⟩) (by rw [show freeLexvars badBody = [] from by decide +kernel]; simp)
  have hb := h Nat badSem badTexts (fun _ n => List.range n) _ [] [] badBody (fun _ => none) 0 (fun _ => none) exQ hT hL rfl (fun _ _ => rfl)
  have h1 : (coreSys badSem (cgOrder badTexts (fun _ n => List.range n))).Ends (.ev (.fix [] [] badBody) .nil .halt ⟨atoms (fun _ => none), [], 0⟩) [1, 2] (.atom 2) :=
    .of_trace 100 (by decide +kernel) (by decide +kernel)
  have h2 := hb.ends _ _ h1
  have h3 := (Ends.of_trace (s := _) (ws := [1]) (u := .atom 2) 100 (by decide +kernel) (by decide +kernel)).unique h2
  exact absurd h3.1 (by decide)

/-- `(string=? (symbol->string a) (symbol->string b))`, the result of the program: all three are C expressions. -/
def allocBody : Exp :=
  .prim noEffect .halt [.prim noEffect (.op 1) [.prim ⟨true, false, false⟩ (.op 0) [], .prim ⟨true, false, false⟩ (.op 0) []]]
@[inherit_doc allocBody]
def allocSem : Sem Nat := ⟨fun _ _ w => some (0, w)⟩

/-- The generated code for a C expression with allocations inside allocates while the C compiler holds values. -/
theorem c53_counterexample_alloc : ¬ C53Full := by
  intro h
  have hT : TypesOk allocSem ⟨badTexts.cexp, fun _ => false, fun _ => false⟩ := ⟨fun p hp => by simp at hp, fun p hp => by simp at hp, rfl⟩
  have hL : Lifted allocSem noTexts [] [] allocBody := by
    have hv : ∀ eff n, Value allocSem noTexts (constLabel [] allocBody) [] (.prim eff (.op n) []) := fun eff n => .prim (by simp) (by simp) (by simp [noTexts])
    refine ⟨.nil, by simp, rfl, by simp, .halt (.prim (by simp) ?_ (by simp [noTexts])), ?_⟩
    · intro e he
      simp only [List.mem_cons, List.not_mem_nil, or_false, or_self] at he
      subst he; exact hv _ _
    · intro y hy
      cases hg : y.isGlobal with
      | true => exact Or.inl rfl
      | false => exact absurd ((c47_free_lexvars y allocBody).1.2 ⟨hg, hy⟩) (by rw [show freeLexvars allocBody = [] from by decide +kernel]; simp)
  have hb := h Nat allocSem _ (fun _ n => List.range n) _ [] [] allocBody (fun _ => none) 0 (fun _ => none) exQ hT hL rfl (fun _ _ => rfl)
  have h1 : (coreSys allocSem (cgOrder ⟨badTexts.cexp, fun _ => false, fun _ => false⟩ (fun _ n => List.range n))).Ends (.ev (.fix [] [] allocBody) .nil .halt ⟨atoms (fun _ => none), [], 0⟩) [] (.atom 0) :=
    .of_trace 100 (by decide +kernel) (by decide +kernel)
  refine h1.not_fails (hb.fails ?_)
  obtain ⟨m, hm⟩ := trace_path (cSys allocSem (fun _ n => List.range n) _) 100 _
  exact ⟨m, _, _, hm, by decide +kernel, by decide +kernel⟩

end Verif.Cgen

import Verif.Letrec.Gen
import Verif.Fold.Props
/-
C35: `fix-letrecs` preserves meaning.
-/
namespace Verif.Letrec
open Verif.Core
variable {W : Type}

/-- Programs as they are given to the pass: every local variable is bound once; time stamps of ids are below `k`. -/
structure FixProg (k : Nat) (e : Exp) : Prop where
  uniq : Uniq e
  loc : ∀ x ∈ binders e, x.isGlobal = false
  old : ∀ x, x ∈ binders e ∨ Free x e → x.ts < k

/-- Full statement of C35: a program behaves as before, whatever the order of evaluation of operands is.  Reading a variable
of a `letrec` or `letrec*` before its initialization is an error. -/
def C35Full : Prop :=
  ∀ (W : Type) (M : Sem W) (ord : Op → Nat → List Nat) (n k : Nat) (e : Exp), FairPos ord → FixProg k e →
    ∀ (w : W) (g : Id → Option Val), (∀ x v, g x = some v → ∃ a, v = .atom a) →
      Behaves (rstep (fun x => decide (x ∈ recIds e)) M (positional ord)) (cstep M (positional ord))
        (.ev e .nil .halt ⟨g, [], w⟩) (.ev (fixLetrecs n k e) .nil .halt ⟨g, [], w⟩)

/-- **C35** (partial).  `fix-letrecs` preserves the result and the sequence of worlds of a program, as long as it does not run
into an error, for programs in which

* each operand of a `letrec` is a procedure or a constant, and the variables of a `letrec` are not assigned;
* each operand of a `letrec*` that is classified as simple is a procedure or a constant.

Other operands of `letrec*` are arbitrary: calls, assignments, captured continuations.  Without the second condition the
statement is false (`c35_counterexample`).  Missing: complex operands of `letrec`, and variables and primitive applications that no
other initialization can influence as simple operands. -/
theorem c35_fix_letrecs_partial (M : Sem W) (K : Nat → Option Nat) (ord : Op → Nat → List Nat) (n k : Nat) (e : Exp) (hf : FairPos ord) (hK : Const M K)
    (he : FixProg k e) (hg : Good K e) (w : W) (g : Id → Option Val) (ha : ∀ x v, g x = some v → ∃ a, v = .atom a) :
    Behaves (rstep (fun x => decide (x ∈ recIds e)) M (positional ord)) (cstep M (positional ord))
      (.ev e .nil .halt ⟨g, [], w⟩) (.ev (fixLetrecs n k e) .nil .halt ⟨g, [], w⟩) :=
  fix_behaves (P := ⟨fun x => decide (x ∈ recIds e), K⟩) hf hK
    (fixL_ok n k e ⟨he.uniq, he.loc, fun x h => he.old x (Or.inl h), fun x h => he.old x (Or.inr h), hg, marks_recIds he.uniq.1⟩).1.1 w g ha

/-! ### examples -/

theorem fixProg_of {k : Nat} {e : Exp} (h1 : (binders e).Nodup) (h2 : ∀ x ∈ binders e, x.isGlobal = false ∧ x ∉ freeVars e ∧ x.ts < k) (h3 : ∀ x ∈ freeVars e, x.ts < k) : FixProg k e :=
  ⟨⟨h1, fun x hx hf => (h2 x hx).2.1 ((c47_free_vars x e).1.mpr hf)⟩, fun x hx => (h2 x hx).1, fun x hx => hx.elim (fun h => (h2 x h).2.2) (fun h => h3 x ((c47_free_vars x e).1.mpr h))⟩

/-- `op n` without operands returns `n`, with one it returns the operand and changes the world. -/
def sem : Sem Nat := ⟨fun n vs w =>
  match vs with
  | [] => some (n, w)
  | [.atom a] => some (a, w + n)
  | _ => none⟩

/-- the constants. -/
def consts : Nat → Option Nat := some

theorem const_sem : Const sem consts := by
  intro n m h w
  simp only [consts, Option.some.injEq] at h
  subst h; rfl

/-- operator and operands from left to right. -/
def lr : Op → Nat → List Nat := fun _ n => List.range n

theorem fair_lr : FairPos lr := fun _ _ => List.Perm.refl _

/-- `(let ((x 5)) (letrec* ((a (set! x 6)) (b x)) b))`. -/
def reorders : Exp :=
  letExp [lexId 0] [.prim noEffect (.op 5) []] (letExp [lexId 1, lexId 2] [voidExp, voidExp]
    (letExp [lexId 3] [.set (lexId 1) (.set (lexId 0) (.prim noEffect (.op 6) []))]
      (letExp [lexId 4] [.set (lexId 2) (.var (lexId 0))] (.var (lexId 2)))))

/-- The operands of a `letrec*` are not evaluated in their order: those classified as simple come first, even if they mention a
variable that an earlier one assigns to. The program `reorders` returns 6, and 5 after the pass. -/
theorem c35_counterexample : ¬ C35Full := by
  intro h
  have hb := h Nat sem lr 20 5 reorders fair_lr (fixProg_of (by decide +kernel) (by decide +kernel) (by decide +kernel)) 0 (fun _ => none) (fun x v hx => by cases hx)
  obtain ⟨u, h1, e1⟩ := outcome_reach (f := rstep (fun x => decide (x ∈ recIds reorders)) sem (positional lr)) (s := .ev reorders .nil .halt ⟨fun _ => none, [], 0⟩) (n := 54) (u := .atom 6) (w := 0)
    (by decide +kernel)
  obtain ⟨u', h2, e2⟩ := outcome_reach (f := cstep sem (positional lr)) (s := .ev (fixLetrecs 20 5 reorders) .nil .halt ⟨fun _ => none, [], 0⟩) (n := 34) (u := .atom 5) (w := 0)
    (by decide +kernel)
  obtain ⟨v, hv, e⟩ := hb.result _ _ h1
  rw [(done_unique hv h2).1, e1, e2] at e
  cases e

/-! #### a check for the conditions -/

/-- `OkRec` and `OkStar` as tests. -/
def okRecB (K : Nat → Option Nat) (ids : List Id) (rands : List Exp) (body : Exp) : Bool :=
  (ids.zip rands).all fun p => quick K p.2 && decide (classify ids (vinfoAll rands (vinfo body)) p.1 p.2 ≠ .c)
@[inherit_doc okRecB]
def okStarB (K : Nat → Option Nat) (ids : List Id) (rands : List Exp) (body : Exp) : Bool :=
  (ids.zip rands).all fun p => decide (classify ids (vinfoAll rands (vinfo body)) p.1 p.2 ≠ .s) || quick K p.2

mutual
/-- `Good` as a test. -/
def goodB (K : Nat → Option Nat) : Exp → Bool
  | .var _ => true
  | .set _ e => goodB K e
  | .ite a b c => goodB K a && (goodB K b && goodB K c)
  | .prim _ p es => (p ≠ .void || es.isEmpty) && goodsB K es
  | .app f es => (match letrecParts (.app f es) with | some (ids, rands, body) => okRecB K ids rands body | none => true) &&
      ((match letrecStarParts (.app f es) with | some (ids, rands, body) => okStarB K ids rands body | none => true) && (goodB K f && goodsB K es))
  | .lam _ b => goodB K b
  | .fix _ _ _ => false
  | .letcc _ b => goodB K b
  | .withcc c e => goodB K c && goodB K e
/-- for lists. -/
def goodsB (K : Nat → Option Nat) : List Exp → Bool
  | [] => true
  | e :: es => goodB K e && goodsB K es
end

theorem mem_zip {ids : List Id} {rands : List Exp} {i : Nat} {x : Id} {r : Exp} (h1 : ids[i]? = some x) (h2 : rands[i]? = some r) : (x, r) ∈ ids.zip rands :=
  List.mem_iff_getElem?.mpr ⟨i, by rw [List.getElem?_zip_eq_some]; exact ⟨h1, h2⟩⟩

mutual
theorem good_of {K : Nat → Option Nat} : (e : Exp) → goodB K e = true → Good K e
  | .var _, _ => trivial
  | .set _ e, h => good_of e h
  | .ite a b c, h => by
    simp only [goodB, Bool.and_eq_true] at h
    exact ⟨good_of a h.1, good_of b h.2.1, good_of c h.2.2⟩
  | .prim _ p es, h => by
    simp only [goodB, Bool.and_eq_true, Bool.or_eq_true, decide_eq_true_eq, List.isEmpty_iff] at h
    exact ⟨fun hp => h.1.resolve_left (fun hn => hn hp), goods_of es h.2⟩
  | .app f es, h => by
    simp only [goodB, Bool.and_eq_true] at h
    refine ⟨fun ids rands body hp => ?_, fun ids rands body hp => ?_, good_of f h.2.2.1, goods_of es h.2.2.2⟩
    · have h1 := h.1
      rw [hp] at h1
      intro i x r hx hr
      simpa using List.all_eq_true.mp h1 _ (mem_zip hx hr)
    · have h1 := h.2.1
      rw [hp] at h1
      intro i x r hx hr hc
      simpa [hc] using List.all_eq_true.mp h1 _ (mem_zip hx hr)
  | .lam _ b, h => good_of b h
  | .letcc _ b, h => good_of b h
  | .withcc c e, h => by
    simp only [goodB, Bool.and_eq_true] at h
    exact ⟨good_of c h.1, good_of e h.2⟩
theorem goods_of {K : Nat → Option Nat} : (es : List Exp) → goodsB K es = true → Goods K es
  | [], _ => trivial
  | e :: es, h => by
    simp only [goodsB, Bool.and_eq_true] at h
    exact ⟨good_of e h.1, goods_of es h.2⟩
end

/-- `(letrec* ((f (lambda (n) (if 0 (g n) 3))) (c 7) (v (op c)) (g (lambda (m) (if m (f c) v))) (w (lambda () 0))) (g v))`. -/
def recs : Exp :=
  letExp [lexId 0, lexId 1, lexId 2, lexId 3, lexId 4] [voidExp, voidExp, voidExp, voidExp, voidExp]
    (letExp [lexId 5] [.set (lexId 0) (.lam [lexId 6] (.ite (.prim noEffect (.op 0) []) (.app (.var (lexId 3)) [.var (lexId 6)]) (.prim noEffect (.op 3) [])))]
    (letExp [lexId 7] [.set (lexId 1) (.prim noEffect (.op 7) [])]
    (letExp [lexId 8] [.set (lexId 2) (.prim ⟨false, true, true⟩ (.op 1) [.var (lexId 1)])]
    (letExp [lexId 9] [.set (lexId 3) (.lam [lexId 10] (.ite (.var (lexId 10)) (.app (.var (lexId 0)) [.var (lexId 1)]) (.var (lexId 2))))]
    (letExp [lexId 11] [.set (lexId 4) (.lam [] (.prim noEffect (.op 0) []))]
      (.app (.var (lexId 3)) [.var (lexId 2)]))))))

/-- it meets the conditions; `c` is bound by `let`, `v` is assigned, `f` and `g` become a `fix`, and the unused `w` is evaluated only. -/
example : FairPos lr ∧ Const sem consts ∧ FixProg 12 recs ∧ Good consts recs ∧ fixLetrecs 20 12 recs =
    letExp [lexId 1, lexId 2] [.prim noEffect (.op 7) [], voidExp]
      (.fix [lexId 0, lexId 3]
        [.lam [lexId 6] (.ite (.prim noEffect (.op 0) []) (.app (.var (lexId 3)) [.var (lexId 6)]) (.prim noEffect (.op 3) [])),
         .lam [lexId 10] (.ite (.var (lexId 10)) (.app (.var (lexId 0)) [.var (lexId 1)]) (.var (lexId 2)))]
        (letExp [lexId 12] [.set (lexId 2) (.prim ⟨false, true, true⟩ (.op 1) [.var (lexId 1)])]
          (letExp [lexId 13] [.lam [] (.prim noEffect (.op 0) [])]
            (.app (.var (lexId 3)) [.var (lexId 2)])))) :=
  ⟨fair_lr, const_sem, fixProg_of (by decide +kernel) (by decide +kernel) (by decide +kernel), good_of _ (by decide +kernel), by rfl⟩

/-- `(letrec ((f (lambda (n) (g n))) (g (lambda (m) (f m)))) f)`. -/
def recs' : Exp :=
  letExp [lexId 0, lexId 1] [voidExp, voidExp]
    (letExp [lexId 2] [letExp [lexId 3, lexId 4] [.lam [lexId 5] (.app (.var (lexId 1)) [.var (lexId 5)]), .lam [lexId 6] (.app (.var (lexId 0)) [.var (lexId 6)])]
      (letExp [lexId 7] [.set (lexId 0) (.var (lexId 3))] (letExp [lexId 8] [.set (lexId 1) (.var (lexId 4))] voidExp))]
      (.var (lexId 0)))

/-- it meets the conditions, too. -/
example : FixProg 9 recs' ∧ Good consts recs' ∧ fixLetrecs 20 9 recs' =
    letExp [] [] (.fix [lexId 0, lexId 1] [.lam [lexId 5] (.app (.var (lexId 1)) [.var (lexId 5)]), .lam [lexId 6] (.app (.var (lexId 0)) [.var (lexId 6)])] (.var (lexId 0))) :=
  ⟨fixProg_of (by decide +kernel) (by decide +kernel) (by decide +kernel), good_of _ (by decide +kernel), by rfl⟩

end Verif.Letrec

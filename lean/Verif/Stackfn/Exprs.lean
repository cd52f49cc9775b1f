import Verif.Stackfn.Sim
import Verif.Core.Uniq
/-
C expressions compute what their source expressions compute.
-/
namespace Verif.Stackfn
open Verif.Core
variable {W : Type}

/-- A value is returned to `κ`, and global variables are as before. -/
def Ret (κ : Kont) (σ : Store W) : Val × Store W → State W → Prop := fun r t => t = .ret r.1 κ r.2 ∧ r.2.glob = σ.glob

/-- What is fixed in the proof: meaning of primitives, texts, the function and its closure, the meaning of calls. -/
structure Ctx (W : Type) where
  M : Sem W
  T : Texts
  f : Id
  clos : Val
  known : Id → Bool
  F : Callee W
  n : Nat

/-- Calls behave like applications of the closure. -/
structure Ctx.OK (C : Ctx W) : Prop where
  glob : C.f.isGlobal = true
  known : ∀ x, C.known x = true → x.isGlobal = true
  call : ∀ vs κ σ, σ.glob C.f = some C.clos → Sim C.M C.n (.ap C.clos vs κ σ) (C.F vs σ) (Ret κ σ)

/-- positions of operands that are C expressions. -/
def cexpPos (T : Texts) (f : Id) : List Exp → Nat → List Nat
  | [], _ => []
  | e :: es, i => if isCexp T f e then i :: cexpPos T f es (i + 1) else cexpPos T f es (i + 1)

/-- the temporaries hold the values of the other operands. -/
def HTmp (T : Texts) (f : Id) (fr : Frame) (d : Nat → Val) : List Exp → Nat → Nat → Prop
  | [], _, _ => True
  | e :: es, k, i => if isCexp T f e then HTmp T f fr d es k (i + 1) else fr (lexId k) = some (d i) ∧ HTmp T f fr d es (k + 1) (i + 1)

theorem HTmp.congr {T : Texts} {f : Id} {fr : Frame} {d d' : Nat → Val} : ∀ (es : List Exp) (k i : Nat), (∀ j, i ≤ j → d' j = d j) → HTmp T f fr d es k i →
    HTmp T f fr d' es k i := by
  intro es
  induction es with
  | nil => intros; trivial
  | cons e es ih =>
    intro k i hd h
    by_cases hc : isCexp T f e = true
    · simp only [HTmp, hc, if_true] at h ⊢
      exact ih _ _ (fun j hj => hd j (by omega)) h
    · simp only [HTmp, hc, if_false] at h ⊢
      rw [hd i (Nat.le_refl i)]
      exact ⟨h.1, ih _ _ (fun j hj => hd j (by omega)) h.2⟩

theorem lexId_local (k : Nat) : (lexId k).isGlobal = false := by
  simp only [lexId, Id.isGlobal]
  exact decide_eq_false (by show ¬ ((k : Int) < 0); omega)

theorem agStacks_mem {f : Id} {known : Id → Bool} {es : List Exp} {xs ls : List Id} (h : agStacks f known es xs ls = true) : ∀ e ∈ es, agStack f known e xs ls false = true := by
  induction es with
  | nil => intro e he; cases he
  | cons a es ih =>
    simp only [agStacks, Bool.and_eq_true] at h
    intro e he
    rcases List.mem_cons.1 he with rfl | he
    · exact h.1
    · exact ih h.2 e he

theorem areCexp_mem {T : Texts} {f : Id} {es : List Exp} (h : areCexp T f es = true) : ∀ e ∈ es, isCexp T f e = true := by
  induction es with
  | nil => intro e he; cases he
  | cons a es ih =>
    simp only [areCexp, Bool.and_eq_true] at h
    intro e he
    rcases List.mem_cons.1 he with rfl | he
    · exact h.1
    · exact ih h.2 e he

theorem hoisted_all {T : Texts} {f : Id} {es : List Exp} (h : areCexp T f es = true) (k : Nat) : hoisted T f es k = cgCexps es := by
  induction es with
  | nil => rfl
  | cons a es ih =>
    simp only [areCexp, Bool.and_eq_true] at h
    simp [hoisted, cgCexps, h.1, ih h.2]

theorem cexpPos_all {T : Texts} {f : Id} {es : List Exp} (h : areCexp T f es = true) (i : Nat) : cexpPos T f es i = List.range' i es.length := by
  induction es generalizing i with
  | nil => rfl
  | cons a es ih =>
    simp only [areCexp, Bool.and_eq_true] at h
    simp [cexpPos, h.1, ih h.2, List.range'_succ]

theorem HTmp_all {T : Texts} {f : Id} {fr : Frame} {d : Nat → Val} {es : List Exp} (h : areCexp T f es = true) (k i : Nat) : HTmp T f fr d es k i := by
  induction es generalizing i with
  | nil => trivial
  | cons a es ih =>
    simp only [areCexp, Bool.and_eq_true] at h
    simp only [HTmp, h.1, if_true]
    exact ih h.2 _

/-- Evaluation of the operands that are not in temporaries. -/
theorem hoist_ok {C : Ctx W} {op : Op} {ES : List Exp} {ρ : Env} {κ : Kont} {fr : Frame} {todo : List Nat} : ∀ (es : List Exp) (i k : Nat) (d : Nat → Val) (σ : Store W),
    (∀ j e, es[j]? = some e → ES[i + j]? = some e) → HTmp C.T C.f fr d es k i → σ.glob C.f = some C.clos →
    (∀ e ∈ es, isCexp C.T C.f e = true → ∀ κ (σ : Store W), σ.glob C.f = some C.clos → Sim C.M (C.n + 1) (.ev e ρ κ σ) (evalC C.M C.F fr (cgCexp e) σ) (Ret κ σ)) →
    Sim C.M (C.n + 1) (.args op ES d (cexpPos C.T C.f es i ++ todo) ρ κ σ) (evalCs C.M C.F fr (hoisted C.T C.f es k) σ) (fun r t =>
      ∃ d', t = .args op ES d' todo ρ κ r.2 ∧ r.2.glob = σ.glob ∧ (∀ j, j < i → d' j = d j) ∧ r.1 = (List.range' i es.length).map d') := by
  intro es
  induction es with
  | nil =>
    intro i k d σ _ _ _ _
    exact Sim.ok ⟨d, rfl, rfl, fun _ _ => rfl, rfl⟩
  | cons e es ih =>
    intro i k d σ hES ht hg he
    simp only [hoisted, cexpPos]
    have hES' : ∀ j e', es[j]? = some e' → ES[i + 1 + j]? = some e' := fun j e' hj => by
      rw [show i + 1 + j = i + (j + 1) by omega]; exact hES (j + 1) e' (by simpa using hj)
    by_cases hc : isCexp C.T C.f e = true
    · simp only [hc, if_true, List.cons_append, evalCs]
      refine Sim.step' (any_arg (by simpa using hES 0 e rfl) _ _ _) ?_
      refine Sim.bind (he e (by simp) hc _ σ hg) ?_
      rintro ⟨v, σ1⟩ t ⟨rfl, hg1⟩
      refine Sim.step' (any_ret _ _ _ _ _ _ _ _ _) ?_
      simp only [HTmp, hc, if_true] at ht
      have hg1' : σ1.glob C.f = some C.clos := by
        simp only at hg1; rw [hg1]; exact hg
      refine Sim.bind (ih (i + 1) k (upd d i v) σ1 hES' (ht.congr _ _ _ (fun j hj => by simp only [upd]; rw [if_neg (by omega)])) hg1'
        (fun e' h' => he e' (by simp [h']))) ?_
      rintro ⟨vs, σ2⟩ t ⟨d', rfl, hg2, hd, hv⟩
      refine Sim.ok ⟨d', rfl, by simp_all, fun j hj => ?_, ?_⟩
      · rw [hd j (by omega)]; simp only [upd]; rw [if_neg (by omega)]
      · simp only at hv ⊢
        rw [List.length_cons, List.range'_succ, List.map_cons, ← hv, hd i (by omega)]
        simp [upd]
    · have hc' : isCexp C.T C.f e = false := by simpa using hc
      simp only [hc', Bool.false_eq_true, if_false, evalCs]
      simp only [HTmp, hc', Bool.false_eq_true, if_false] at ht
      simp only [evalC, lexId_local, Bool.false_eq_true, if_false, ht.1]
      show Sim C.M (C.n + 1) _ ((evalCs C.M C.F fr (hoisted C.T C.f es (k + 1)) σ).bind _) _
      refine Sim.bind (ih (i + 1) (k + 1) d σ hES' ht.2 hg (fun e' h' => he e' (by simp [h']))) ?_
      rintro ⟨vs, σ2⟩ t ⟨d', rfl, hg2, hd, hv⟩
      refine Sim.ok ⟨d', rfl, by simpa using hg2, fun j hj => hd j (by omega), ?_⟩
      simp only at hv ⊢
      rw [List.length_cons, List.range'_succ, List.map_cons, ← hv, hd i (by omega)]

theorem vals_cons (d : Nat → Val) (n : Nat) : vals d (n + 1) = d 0 :: (List.range' 1 n).map d := by
  simp only [vals, List.range_eq_range', List.range'_succ, List.map_cons]

/-- **C expressions.** -/
theorem cexp_ok {C : Ctx W} (hC : C.OK) {fr : Frame} : ∀ (e : Exp) (xs ls : List Id) (tail : Bool) (ρ : Env) (κ : Kont) (σ : Store W),
    isCexp C.T C.f e = true → agStack C.f C.known e xs ls tail = true → (∀ x ∈ binders e, x.isGlobal = false) → Agr xs ρ fr →
    σ.glob C.f = some C.clos → Sim C.M (C.n + 1) (.ev e ρ κ σ) (evalC C.M C.F fr (cgCexp e) σ) (Ret κ σ)
  | .var x, xs, ls, tail, ρ, κ, σ, hc, ha, hl, hr, hg => by
    simp only [cgCexp, evalC]
    cases hx : x.isGlobal with
    | true =>
      simp only [if_true]
      cases hv : σ.glob x with
      | some v => exact Sim.step' (any_var_glob hx hv _ _) (Sim.ok ⟨rfl, rfl⟩)
      | none => exact Sim.stuck ⟨fun ord => by simp [Core.step, hx, hv], by intro v w; simp⟩
    | false =>
      simp only [Bool.false_eq_true, if_false]
      simp only [agStack, Bool.or_eq_true] at ha
      rcases ha with ha | ha
      · obtain ⟨v, h1, h2⟩ := hr x (by simpa using ha)
        rw [h2]
        exact Sim.step' (any_var_loc hx h1 _ _) (Sim.ok ⟨rfl, rfl⟩)
      · rw [hC.known x ha] at hx; cases hx
  | .ite a b c, xs, ls, tail, ρ, κ, σ, hc, ha, hl, hr, hg => by
    simp only [isCexp, Bool.and_eq_true] at hc
    simp only [agStack, Bool.and_eq_true] at ha
    simp only [cgCexp, evalC]
    refine Sim.step' (any_ite _ _ _ _ _ _) (Sim.bind (cexp_ok hC a xs ls false ρ _ σ hc.1.1 ha.1.1 (fun x h => hl x (by simp [binders, h])) hr hg) ?_)
    rintro ⟨v, σ1⟩ t ⟨rfl, hg1⟩
    refine Sim.step' (any_ret_ite _ _ _ _ _ _) ?_
    simp only at hg1 ⊢
    have hg1' : σ1.glob C.f = some C.clos := by rw [hg1]; exact hg
    cases hv : v.isFalse with
    | true =>
      simp only [if_true]
      exact (cexp_ok hC c xs ls tail ρ κ σ1 hc.2 ha.2 (fun x h => hl x (by simp [binders, h])) hr hg1').imp (fun r t h => ⟨h.1, h.2.trans hg1⟩)
    | false =>
      simp only [Bool.false_eq_true, if_false]
      exact (cexp_ok hC b xs ls tail ρ κ σ1 hc.1.2 ha.1.2 (fun x h => hl x (by simp [binders, h])) hr hg1').imp (fun r t h => ⟨h.1, h.2.trans hg1⟩)
  | .prim eff p es, xs, ls, tail, ρ, κ, σ, hc, ha, hl, hr, hg => by
    simp only [isCexp, Bool.and_eq_true] at hc
    simp only [agStack, Bool.and_eq_true] at ha
    simp only [cgCexp, evalC]
    refine Sim.step' (any_prim eff p es (cexpPos C.T C.f es 0) (by rw [cexpPos_all hc.2, List.range_eq_range']) _ _ _) ?_
    rw [← hoisted_all (T := C.T) (f := C.f) hc.2 0]
    have := hoist_ok (C := C) (op := .prim eff p) (ES := es) (ρ := ρ) (κ := κ) (fr := fr) (todo := []) es 0 0 (fun _ => .trap) σ
      (fun j e h => by simpa using h) (HTmp_all hc.2 _ _) hg
      (fun e he hce κ σ hg => cexp_ok hC e xs ls false ρ κ σ hce (agStacks_mem ha.2 e he) (fun x h => hl x (by simp only [binders, List.mem_append, mem_bindersAll]; first | exact ⟨e, he, h⟩ | exact Or.inr ⟨e, he, h⟩)) hr hg)
    rw [List.append_nil] at this
    refine Sim.bind this ?_
    rintro ⟨vs, σ1⟩ t ⟨d', rfl, hg1, -, hv⟩
    simp only at hv hg1 ⊢
    have hvs : vs = vals d' es.length := by rw [hv, vals, List.range_eq_range']
    rw [hvs]
    split
    · trivial
    refine sim_prim.imp ?_
    rintro ⟨v, σ2⟩ t ⟨rfl, v', σ', h1, h2⟩
    refine ⟨rfl, ?_⟩
    injection h2 with h3 h4; subst h3; subst h4
    exact (doPrim_glob h1).trans hg1
  | .app (.var g) es, xs, ls, tail, ρ, κ, σ, hc, ha, hl, hr, hg => by
    simp only [isCexp, Bool.and_eq_true, decide_eq_true_eq] at hc
    obtain ⟨rfl, hc⟩ := hc
    simp only [agStack, Bool.and_eq_true] at ha
    simp only [cgCexp, evalC]
    refine Sim.step' (any_app _ es (0 :: cexpPos C.T C.f es 1) (by
      rw [cexpPos_all hc, List.range_eq_range', List.length_cons, List.range'_succ]) _ _ _) ?_
    refine Sim.step' (any_arg (e := .var C.f) rfl _ _ _) ?_
    refine Sim.step' (any_var_glob hC.glob hg _ _) ?_
    refine Sim.step' (any_ret _ _ _ _ _ _ _ _ _) ?_
    rw [← hoisted_all (T := C.T) (f := C.f) hc 0]
    have := hoist_ok (C := C) (op := .call) (ES := .var C.f :: es) (ρ := ρ) (κ := κ) (fr := fr) (todo := []) es 1 0 (upd (fun _ => .trap) 0 C.clos) σ
      (fun j e h => by rw [show 1 + j = j + 1 by omega]; simpa using h) (HTmp_all hc _ _) hg
      (fun e he hce κ σ hg => cexp_ok hC e xs ls false ρ κ σ hce (agStacks_mem ha.2 e he) (fun x h => hl x (by simp only [binders, List.mem_append, mem_bindersAll]; first | exact ⟨e, he, h⟩ | exact Or.inr ⟨e, he, h⟩)) hr hg)
    rw [List.append_nil] at this
    refine Sim.bind this ?_
    rintro ⟨vs, σ1⟩ t ⟨d', rfl, hg1, hd, hv⟩
    simp only at hv hg1 ⊢
    have hvs : vals d' (.var C.f :: es).length = C.clos :: vs := by
      rw [List.length_cons, vals_cons, hv, hd 0 (by omega)]; simp [upd]
    refine Sim.step (any_call hvs _ _ _) ?_
    refine (hC.call vs κ σ1 (by rw [hg1]; exact hg)).imp ?_
    intro r t h
    exact ⟨h.1, h.2.trans hg1⟩
  | .app (.lam [] b) [], xs, ls, tail, ρ, κ, σ, hc, ha, hl, hr, hg => by
    simp only [isCexp] at hc
    simp only [agStack, Bool.and_eq_true, List.nil_append] at ha
    simp only [cgCexp]
    refine Sim.step' (any_app _ [] [0] (by simp) _ _ _) ?_
    refine Sim.step' (any_arg (e := .lam [] b) rfl _ _ _) ?_
    refine Sim.step' (any_lam _ _ _ _ _) ?_
    refine Sim.step' (any_ret _ _ _ _ _ _ _ _ _) ?_
    refine Sim.step' (any_call (f := .clos [] b ρ) (vs := []) (by simp [vals, upd]) _ _ _) ?_
    refine Sim.step' (any_clos rfl _ _ _ _) ?_
    exact cexp_ok hC b xs ls tail ρ κ σ hc ha.2 (fun x h => hl x (by simp [binders, h])) hr hg
  | .app (.lam [x] (.var y)) [e], xs, ls, tail, ρ, κ, σ, hc, ha, hl, hr, hg => by
    simp only [isCexp, Bool.and_eq_true, decide_eq_true_eq] at hc
    obtain ⟨rfl, hc⟩ := hc
    simp only [agStack, agStacks, Bool.and_eq_true] at ha
    simp only [cgCexp]
    refine Sim.step' (any_app _ [e] [0, 1] (by simp [List.range_succ]) _ _ _) ?_
    refine Sim.step' (any_arg (e := .lam [x] (.var x)) rfl _ _ _) ?_
    refine Sim.step' (any_lam _ _ _ _ _) ?_
    refine Sim.step' (any_ret _ _ _ _ _ _ _ _ _) ?_
    refine Sim.step' (any_arg (e := e) rfl _ _ _) ?_
    refine Sim.after (cexp_ok hC e xs ls false ρ _ σ hc ha.1.2.1 (fun x h => hl x (by simp [binders, bindersAll, h])) hr hg) ?_
    rintro ⟨v, σ1⟩ t ⟨rfl, hg1⟩
    refine ⟨_, _, .step (any_ret _ _ _ _ _ _ _ _ _) (.step (any_call (f := .clos [x] (.var x) ρ) (vs := [v]) (by simp [vals, upd, List.range_succ]) _ _ _)
      (.step (any_clos rfl _ _ _ _) (.step (any_var_loc (hl x (by simp [binders])) (v := v) (by simp [bindAll, Env.lookup]) _ _) (.refl _)))), rfl, hg1⟩
termination_by e => sizeOf e
decreasing_by
  all_goals simp_wf
  all_goals first
    | omega
    | (have := List.sizeOf_lt_of_mem he; omega)

end Verif.Stackfn

import Verif.Interp.Spec
import Verif.Arity.Props
import Mathlib.Data.List.Forall2
/-
C45: the interpreter executes what it is given.
-/
namespace Verif.Interp

/-! ### the specialised code behaves like the general case -/

theorem Res.bind_assoc {V S W T X U : Type} (r : Res V S) (k : V → S → Res W T) (l : W → T → Res X U) :
    (r.bind k).bind l = r.bind fun v s => (k v s).bind l := by
  cases r <;> rfl

@[simp] theorem Res.ok_bind {V S W T : Type} (v : V) (s : S) (k : V → S → Res W T) :
    (Res.ok v s).bind k = k v s := rfl

section
variable (app : CVal → List CVal → CSt → Res CVal CSt)

theorem run_genComb (f : Code) (as : List Code) (rte : CVal) (s : CSt) :
    run app (genComb f as) rte s =
      (run app f rte s).bind fun vf s => (runAll app as rte s).bind fun vs s => app vf vs s := by
  match as with
  | [] => simp [genComb, run, runAll]
  | [a] => simp [genComb, run, runAll, Res.bind_assoc]
  | [a, b] => simp [genComb, run, runAll, Res.bind_assoc]
  | [a, b, c] => simp [genComb, run, runAll, Res.bind_assoc]
  | [a, b, c, d] => simp [genComb, run, runAll, Res.bind_assoc]
  | a :: b :: c :: d :: e :: as => simp [genComb, run]

theorem run_genGComb (x : Name) (as : List Code) (rte : CVal) (s : CSt) :
    run app (genGComb x as) rte s = (runAll app as rte s).bind fun vs s' => app (s.glob x) vs s' := by
  match as with
  | [] => simp [genGComb, run, runAll]
  | [a] => simp [genGComb, run, runAll, Res.bind_assoc]
  | [a, b] => simp [genGComb, run, runAll, Res.bind_assoc]
  | [a, b, c] => simp [genGComb, run, runAll, Res.bind_assoc]
  | [a, b, c, d] => simp [genGComb, run, runAll, Res.bind_assoc]
  | a :: b :: c :: d :: e :: as => simp [genGComb, run]

theorem setRes_alloc (f : List CVal) (s : CSt) (i : Nat) (v : CVal) (h : i < f.length) :
    setRes (alloc f s).1 i v (alloc f s).2 = .ok (.atom .void) (alloc (f.set i v) s).2 := by
  simp [setRes, alloc, vecSet, h]

theorem run_genLetrec (vs : List Code) (b : Code) (rte : CVal) (s : CSt) (h : vs ≠ []) :
    run app (genLetrec vs b) rte s =
      let a := alloc (rte :: List.replicate vs.length (.atom (letrecInit vs.length))) s
      (runLet app vs a.1 1 a.2).bind fun _ s => run app b a.1 s := by
  match vs, h with
  | [a], _ => simp [genLetrec, run, runLet, Res.bind_assoc, letrecInit]
  | [a, b], _ => simp [genLetrec, run, runLet, Res.bind_assoc, letrecInit, List.replicate]
  | [a, b, c], _ => simp [genLetrec, run, runLet, Res.bind_assoc, letrecInit, List.replicate]
  | a :: b1 :: c :: d :: vs, _ =>
    have e : letrecInit (a :: b1 :: c :: d :: vs).length = .void := by
      simp [letrecInit]
    rw [e]
    generalize hv : (a :: b1 :: c :: d :: vs) = ws
    have hg : genLetrec ws b = .letrecN ws.length ws b := by subst hv; rfl
    rw [hg, run]
    simp only
    rw [setRes_alloc _ _ _ _ (by simp)]
    rfl

/-- the kind of a fixed-arity procedure. -/
def fkind (nb : Nat) : LKind :=
  match nb with
  | 0 => .f0 | 1 => .f1 | 2 => .f2 | 3 => .f3 | 4 => .f4 | nb => .fn nb

/-- the kind of a rest procedure. -/
def rkind (nb : Nat) : LKind :=
  match nb with
  | 1 => .r1 | 2 => .r2 | 3 => .r3 | nb => .rn nb

theorem run_genLambda (nb : Nat) (b : Code) (rte : CVal) (s : CSt) :
    run app (genLambda nb b) rte s = .ok (mkClos (fkind nb) nb false b rte) s := by
  match nb with
  | 0 => rfl
  | 1 => rfl
  | 2 => rfl
  | 3 => rfl
  | 4 => rfl
  | n+5 => simp [genLambda, run, fkind]

theorem run_genLambdaRest (nb : Nat) (b : Code) (rte : CVal) (s : CSt) :
    run app (genLambdaRest nb b) rte s = .ok (mkClos (rkind nb) nb true b rte) s := by
  match nb with
  | 0 => rfl
  | 1 => rfl
  | 2 => rfl
  | 3 => rfl
  | n+4 => simp [genLambdaRest, run, rkind]
end

theorem fillFixed_spec : ∀ (l : List CVal) (fuel i : Nat) (a m : List CVal) (n : Nat),
    i = a.length → m.length = l.length → n + 1 = a.length + l.length → l.length < fuel →
    fillFixed n fuel i (a ++ m) l = some (a ++ l)
  | [], fuel, i, a, m, n, hi, hm, hn, hf => by
    cases fuel with
    | zero => omega
    | succ fuel =>
      have : m = [] := List.eq_nil_of_length_eq_zero hm
      subst this
      simp only [List.length_nil, Nat.add_zero] at hn
      rw [fillFixed, if_neg (by omega)]
  | v :: l, fuel, i, a, [], n, hi, hm, hn, hf => by simp at hm
  | v :: l, fuel, i, a, w :: m, n, hi, hm, hn, hf => by
    cases fuel with
    | zero => simp at hf
    | succ fuel =>
      simp only [List.length_cons] at hm hn hf
      rw [fillFixed, if_pos (by omega)]
      rw [if_pos (by simp; omega)]
      have e : (a ++ w :: m).set i v = (a ++ [v]) ++ m := by subst hi; simp
      rw [e, fillFixed_spec l fuel (i + 1) (a ++ [v]) m n (by simp [hi]) (by omega) (by simp; omega) (by omega)]
      simp

theorem fillRest_spec : ∀ (l : List CVal) (fuel i : Nat) (a m : List CVal) (n : Nat),
    i = a.length → i + m.length = n + 1 → i ≤ n → m.length ≤ l.length + 1 → m.length ≤ fuel →
    fillRest n fuel i (a ++ m) l = some (a ++ l.take (n - i) ++ [listC (l.drop (n - i))])
  | l, 0, i, a, m, n, hi, hm, hn, hl, hf => by omega
  | l, fuel+1, i, a, m, n, hi, hm, hn, hl, hf => by
    cases m with
    | nil => simp at hm; omega
    | cons w m =>
      rw [fillRest.eq_def]
      simp only [List.length_cons] at hm hl hf
      simp only
      by_cases h : i < n
      · rw [if_pos h]
        cases l with
        | nil => simp at hl; subst hl; simp at hm; omega
        | cons v l =>
          simp only
          rw [if_pos (by simp; omega)]
          have e : (a ++ w :: m).set i v = (a ++ [v]) ++ m := by subst hi; simp
          rw [e, fillRest_spec l fuel (i + 1) (a ++ [v]) m n (by simp [hi]) (by omega) (by omega)
            (by simp at hl; omega) (by omega)]
          obtain ⟨k, hk⟩ : ∃ k, n - i = k + 1 := ⟨n - i - 1, by omega⟩
          have hk2 : n - (i + 1) = k := by omega
          rw [hk, hk2]
          simp
      · have : n = i := by omega
        subst this
        have : m = [] := List.eq_nil_of_length_eq_zero (by omega)
        subst this
        rw [if_neg h, if_pos (by simp; omega)]
        subst hi
        simp

theorem frameOf_fixed (rte : CVal) (args : List CVal) (nb : Nat) (h : args.length = nb) :
    frameOf (fkind nb) rte args = some (if nb = 0 then none else some (rte :: args)) := by
  subst h
  match args with
  | [] => rfl
  | [a] => rfl
  | [a, b] => rfl
  | [a, b, c] => rfl
  | [a, b, c, d] => rfl
  | a :: b :: c :: d :: e :: l =>
    have hk : fkind (a :: b :: c :: d :: e :: l).length = .fn (l.length + 5) := by simp [fkind]
    rw [hk, frameOf]
    have hx : (((((List.replicate (l.length + 5 + 1) (CVal.atom .void)).set 0 rte).set 1 a).set 2 b).set 3 c).set 4 d
        = [rte, a, b, c, d] ++ List.replicate (l.length + 1) (CVal.atom .void) := by
      simp [List.replicate]
    rw [hx, fillFixed_spec (e :: l) _ 5 [rte, a, b, c, d] _ (l.length + 5) rfl (by simp) (by simp; omega)
      (by simp)]
    simp

theorem frameOf_rest (rte : CVal) (args : List CVal) (nb : Nat) (h0 : 0 < nb) (h : nb - 1 ≤ args.length) :
    frameOf (rkind nb) rte args =
      some (some (rte :: (args.take (nb - 1) ++ [listC (args.drop (nb - 1))]))) := by
  match nb, h0 with
  | 1, _ => rfl
  | 2, _ =>
    match args, h with
    | a :: l, _ => rfl
  | 3, _ =>
    match args, h with
    | a :: b :: l, _ => rfl
    | [a], h => simp at h
  | n+4, _ =>
    match args, h with
    | [], h => simp at h
    | [a], h => simp at h
    | [a, b], h => simp at h
    | a :: b :: c :: l, h =>
      have hk : rkind (n + 4) = .rn (n + 4) := by simp [rkind]
      rw [hk, frameOf]
      have hx : ((((List.replicate (n + 4 + 1) (CVal.atom .void)).set 0 rte).set 1 a).set 2 b).set 3 c
          = [rte, a, b, c] ++ List.replicate (n + 1) (CVal.atom .void) := by
        simp [List.replicate]
      simp at h
      rw [hx, fillRest_spec l _ 4 [rte, a, b, c] _ (n + 4) rfl (by simp; omega) (by omega) (by simp; omega)
        (by simp)]
      have e1 : n + 4 - 4 = n := by omega
      have e2 : n + 4 - 1 = n + 3 := by omega
      rw [e1, e2]
      simp

/-! ### lexical addresses -/

/-- `up` steps through the parent links. -/
def frameAt (h : List (List CVal)) (rte : CVal) : Nat → Option CVal
  | 0 => some rte
  | n+1 => match vecRef h rte 0 with | some p => frameAt h p n | none => none

theorem run_genRteRef (app : CVal → List CVal → CSt → Res CVal CSt) (over : Nat) (s : CSt) :
    ∀ (up : Nat) (rte f : CVal), frameAt s.heap rte up = some f →
      run app (genRteRef up over) rte s = refRes (vecRef s.heap f over) s
  | 0, rte, f, h => by
    injection h with h; subst h; rfl
  | 1, rte, f, h => by
    simp only [frameAt] at h
    cases e : vecRef s.heap rte 0 with
    | none => rw [e] at h; cases h
    | some p =>
      rw [e] at h
      injection h with h; subst h
      simp only [genRteRef, run, e, refRes, Res.ok_bind]
  | up+2, rte, f, h => by
    simp only [frameAt] at h
    cases e : vecRef s.heap rte 0 with
    | none => rw [e] at h; cases h
    | some p =>
      rw [e] at h
      simp only at h
      cases e2 : vecRef s.heap p 0 with
      | none => rw [e2] at h; cases h
      | some q =>
        rw [e2] at h
        simp only [genRteRef, run, e, e2, refRes, Res.ok_bind]
        exact run_genRteRef app over s up q f h

theorem frameAt_succ (h : List (List CVal)) : ∀ (n : Nat) (rte f : CVal), frameAt h rte n = some f →
    frameAt h rte (n + 1) = vecRef h f 0
  | 0, rte, f, e => by
    injection e with e; subst e
    simp only [frameAt]
    cases vecRef h rte 0 <;> rfl
  | n+1, rte, f, e => by
    rw [frameAt] at e ⊢
    cases e1 : vecRef h rte 0 with
    | none => rw [e1] at e; cases e
    | some p =>
      rw [e1] at e
      exact frameAt_succ h n p f e

/-! ### the simulation -/

/-- `h'` extends `h`: vectors keep their length and their parent link. -/
def Le (h h' : List (List CVal)) : Prop :=
  ∀ (a : Nat) (f : List CVal), h[a]? = some f →
    ∃ f', h'[a]? = some f' ∧ f'.length = f.length ∧ f'.head? = f.head?

theorem Le.refl (h : List (List CVal)) : Le h h := fun _ f hf => ⟨f, hf, rfl, rfl⟩

theorem Le.trans {h1 h2 h3 : List (List CVal)} (a : Le h1 h2) (b : Le h2 h3) : Le h1 h3 := by
  intro x f hf
  obtain ⟨f2, e2, l2, p2⟩ := a x f hf
  obtain ⟨f3, e3, l3, p3⟩ := b x f2 e2
  exact ⟨f3, e3, l3.trans l2, p3.trans p2⟩

/-- The run-time environment `rte` represents `env`, laid out according to `cte`. -/
inductive Chain (h : List (List CVal)) : List (List Name) → CVal → Env → Prop
  | top (rte) : Chain h [] rte []
  | frame {cte env frame a p slots} : frame ≠ [] → h[a]? = some (p :: slots) →
      slots.length = frame.length → Chain h cte p env →
      Chain h (frame :: cte) (.vec a) (bindFrom a frame 0 ++ env)

theorem Chain.mono {h h' : List (List CVal)} (hle : Le h h') {cte rte env} (c : Chain h cte rte env) :
    Chain h' cte rte env := by
  induction c with
  | top rte => exact .top rte
  | @frame cte env frame a p slots hne hf hl _ ih =>
    obtain ⟨f', e, l, p'⟩ := hle a _ hf
    cases f' with
    | nil => simp at l
    | cons q sl =>
      simp only [List.head?_cons, Option.some.injEq] at p'
      subst p'
      exact .frame hne e (by simp only [List.length_cons] at l; omega) ih

/-- A value represents a reference value; procedures: the code is the compiled body and the run-time
environment represents the closure's environment. -/
inductive VRel (h : List (List CVal)) : CVal → RVal → Prop
  | atom (a) : VRel h (.atom a) (.atom a)
  | pair {a d a' d'} : VRel h a a' → VRel h d d' → VRel h (.pair a d) (.pair a' d')
  | prim (p) : VRel h (.prim p) (.prim p)
  | clos {cte rte env ps rest body} : Chain h cte rte env → (rest = true → ps ≠ []) → ps.length < 1000 →
      Wf body →
      VRel h (mkClos (if rest then rkind ps.length else fkind ps.length) ps.length rest
        (comp (consCte ps cte) body) rte) (.clos ps rest body env)

theorem VRel.mono {h h' : List (List CVal)} (hle : Le h h') {v w} (r : VRel h v w) : VRel h' v w := by
  induction r with
  | atom a => exact .atom a
  | pair _ _ ih1 ih2 => exact .pair ih1 ih2
  | prim p => exact .prim p
  | clos hc h1 h2 h3 => exact .clos (hc.mono hle) h1 h2 h3

/-- Lists of values. -/
abbrev VRels (h : List (List CVal)) : List CVal → List RVal → Prop := List.Forall₂ (VRel h)

theorem VRels.mono {h h' : List (List CVal)} (hle : Le h h') {v w} (r : VRels h v w) : VRels h' v w :=
  r.imp fun _ _ x => x.mono hle

/-- States: the vectors without their parent link are the blocks of the store. -/
structure StRel (s : CSt) (s' : RSt) : Prop where
  len : s.heap.length = s'.store.length
  blocks : ∀ (a : Nat) (f : List CVal), s.heap[a]? = some f →
    ∃ p slots vs, f = p :: slots ∧ s'.store[a]? = some vs ∧ VRels s.heap slots vs
  glob : ∀ x, VRel s.heap (s.glob x) (s'.glob x)

/-- Outcomes: both time out, both fail, or related values and states. -/
def RRel {V W : Type} (P : List (List CVal) → V → W → Prop) (h0 : List (List CVal)) :
    Res V CSt → Res W RSt → Prop
  | .ok v s, .ok w s' => Le h0 s.heap ∧ P s.heap v w ∧ StRel s s'
  | .err, .err => True
  | .timeout, .timeout => True
  | _, _ => False

theorem RRel.weaken {V W : Type} {P : List (List CVal) → V → W → Prop} {h0 h1 : List (List CVal)}
    {r : Res V CSt} {r' : Res W RSt} (h : RRel P h1 r r') (hle : Le h0 h1) : RRel P h0 r r' := by
  cases r <;> cases r' <;> first | exact h.elim | trivial | exact ⟨hle.trans h.1, h.2⟩

theorem RRel.bind {V W V' W' : Type} {P : List (List CVal) → V → W → Prop}
    {Q : List (List CVal) → V' → W' → Prop} {h0 : List (List CVal)} {r : Res V CSt} {r' : Res W RSt}
    {k : V → CSt → Res V' CSt} {k' : W → RSt → Res W' RSt} (h : RRel P h0 r r')
    (hk : ∀ v w s s', Le h0 s.heap → P s.heap v w → StRel s s' → RRel Q s.heap (k v s) (k' w s')) :
    RRel Q h0 (r.bind k) (r'.bind k') := by
  cases r with
  | ok v s =>
    cases r' with
    | ok w s' =>
      obtain ⟨h1, h2, h3⟩ := h
      exact (hk v w s s' h1 h2 h3).weaken h1
    | err => exact h.elim
    | timeout => exact h.elim
  | err =>
    cases r' with
    | ok w s' => exact h.elim
    | err => trivial
    | timeout => exact h.elim
  | timeout =>
    cases r' with
    | ok w s' => exact h.elim
    | err => exact h.elim
    | timeout => trivial

theorem toC_rel (h : List (List CVal)) (d : Datum) : VRel h d.toC d.toR := by
  induction d with
  | atom a => exact .atom a
  | pair a d ih1 ih2 => exact .pair ih1 ih2

theorem truth_rel {h : List (List CVal)} {v : CVal} {w : RVal} (r : VRel h v w) : v.truth = w.truth := by
  cases r with
  | atom a => cases a with
    | bool b => cases b <;> rfl
    | _ => rfl
  | pair _ _ => rfl
  | prim p => rfl
  | clos _ _ _ _ => rfl

theorem lookupFrame_find (x : Name) (a : Nat) (env : Env) : ∀ (frame : List Name) (i : Nat),
    match lookupFrame x frame (i + 1) with
    | some over => ∃ j, over = j + 1 ∧ find x (bindFrom a frame i ++ env) = some (a, j) ∧
        i ≤ j ∧ j < i + frame.length
    | none => find x (bindFrom a frame i ++ env) = find x env
  | [], i => by simp [lookupFrame, bindFrom]
  | y :: ys, i => by
    simp only [lookupFrame, bindFrom, List.cons_append, find]
    by_cases h : y = x
    · simp only [if_pos h]
      exact ⟨i, rfl, rfl, Nat.le_refl _, by simp⟩
    · simp only [if_neg h]
      have ih := lookupFrame_find x a env ys (i + 1)
      cases e : lookupFrame x ys (i + 1 + 1) with
      | none => rw [e] at ih; exact ih
      | some over =>
        rw [e] at ih
        obtain ⟨j, h1, h2, h3, h4⟩ := ih
        exact ⟨j, h1, h2, by omega, by simp; omega⟩

theorem lookup_find (h : List (List CVal)) (x : Name) {cte : List (List Name)} {rte : CVal} {env : Env}
    (c : Chain h cte rte env) : ∀ up : Nat,
    match lookup x cte up with
    | some (u, over) => ∃ k a j, u = up + k ∧ frameAt h rte k = some (.vec a) ∧ over = j + 1 ∧
        find x env = some (a, j)
    | none => find x env = none := by
  induction c with
  | top rte => intro up; simp [lookup, find]
  | @frame cte env frame a p slots hne hf hl hc ih =>
    intro up
    have hlf := lookupFrame_find x a env frame 0
    rw [lookup]
    cases e : lookupFrame x frame 1 with
    | some over =>
      rw [Nat.zero_add, e] at hlf
      obtain ⟨j, h1, h2, _, _⟩ := hlf
      exact ⟨0, a, j, rfl, rfl, h1, h2⟩
    | none =>
      rw [Nat.zero_add, e] at hlf
      simp only at hlf ⊢
      have ih' := ih (up + 1)
      cases e2 : lookup x cte (up + 1) with
      | none => rw [e2] at ih'; simp only at ih' ⊢; rw [hlf]; exact ih'
      | some v =>
        obtain ⟨u, over⟩ := v
        rw [e2] at ih'
        obtain ⟨k, b, j, h1, h2, h3, h4⟩ := ih'
        refine ⟨k + 1, b, j, by omega, ?_, h3, by rw [hlf]; exact h4⟩
        simp only [frameAt, vecRef, hf, List.getElem?_cons_zero]
        exact h2

theorem get_rel {s : CSt} {s' : RSt} (hs : StRel s s') (a j : Nat) :
    RRel VRel s.heap (refRes (vecRef s.heap (.vec a) (j + 1)) s) (getRes (s'.get (a, j)) s') := by
  unfold vecRef RSt.get
  simp only
  cases e : s.heap[a]? with
  | none =>
    have : s'.store[a]? = none := by
      rw [List.getElem?_eq_none_iff] at e ⊢
      rw [← hs.len]; exact e
    rw [this]; trivial
  | some f =>
    obtain ⟨p, slots, vs, rfl, e2, hr⟩ := hs.blocks a f e
    rw [e2]
    simp only [List.getElem?_cons_succ]
    cases e3 : slots[j]? with
    | none =>
      have : vs[j]? = none := by
        rw [List.getElem?_eq_none_iff] at e3 ⊢
        rw [← hr.length_eq]; exact e3
      rw [this]; trivial
    | some v =>
      have hj : j < slots.length := (List.getElem?_eq_some_iff.mp e3).1
      have hj2 : j < vs.length := by rw [← hr.length_eq]; exact hj
      have : vs[j]? = some vs[j] := List.getElem?_eq_getElem hj2
      rw [this]
      refine ⟨Le.refl _, ?_, hs⟩
      have hv : v = slots[j] := by
        rw [List.getElem?_eq_getElem hj] at e3
        injection e3 with e3; exact e3.symm
      rw [hv]
      exact List.Forall₂.get hr hj hj2

theorem forall2_set {R : CVal → RVal → Prop} {l : List CVal} {m : List RVal} (h : List.Forall₂ R l m)
    (i : Nat) {v w} (hr : R v w) : List.Forall₂ R (l.set i v) (m.set i w) := by
  induction h generalizing i with
  | nil => exact .nil
  | cons hx hxs ih =>
    cases i with
    | zero => exact .cons hr hxs
    | succ i => exact .cons hx (ih i)

theorem put_rel {s : CSt} {s' : RSt} (hs : StRel s s') (a j : Nat) {v : CVal} {w : RVal}
    (hv : VRel s.heap v w) :
    RRel VRel s.heap (setRes (.vec a) (j + 1) v s) (putRes s' (a, j) w) := by
  unfold setRes putRes vecSet RSt.put
  simp only
  cases e : s.heap[a]? with
  | none =>
    have : s'.store[a]? = none := by
      rw [List.getElem?_eq_none_iff] at e ⊢
      rw [← hs.len]; exact e
    rw [this]; trivial
  | some f =>
    obtain ⟨p, slots, vs, rfl, e2, hr⟩ := hs.blocks a f e
    rw [e2]
    simp only [List.length_cons, Nat.add_lt_add_iff_right]
    have hlen := hr.length_eq
    by_cases hj : j < slots.length
    · rw [if_pos hj, if_pos (by omega)]
      have ha : a < s.heap.length := (List.getElem?_eq_some_iff.mp e).1
      have hle : Le s.heap (s.heap.set a ((p :: slots).set (j + 1) v)) := by
        intro b g hg
        by_cases hab : a = b
        · subst hab
          rw [e] at hg
          injection hg with hg
          subst hg
          refine ⟨(p :: slots).set (j + 1) v, ?_, by simp, by simp⟩
          rw [List.getElem?_set_self ha]
        · exact ⟨g, by rw [List.getElem?_set_ne hab]; exact hg, rfl, rfl⟩
      refine ⟨hle, .atom _, ⟨by simp [hs.len], ?_, fun x => (hs.glob x).mono hle⟩⟩
      intro b g hg
      simp only at hg ⊢
      by_cases hab : a = b
      · subst hab
        rw [List.getElem?_set_self ha] at hg
        injection hg with hg
        subst hg
        refine ⟨p, slots.set j v, vs.set j w, rfl, ?_, forall2_set (VRels.mono hle hr) j (hv.mono hle)⟩
        rw [List.getElem?_set_self (by rw [← hs.len]; exact ha)]
      · rw [List.getElem?_set_ne hab] at hg
        obtain ⟨p2, sl2, vs2, h1, h2, h3⟩ := hs.blocks b g hg
        exact ⟨p2, sl2, vs2, h1, by rw [List.getElem?_set_ne hab]; exact h2, VRels.mono hle h3⟩
    · rw [if_neg hj, if_neg (by omega)]; trivial

theorem alloc_rel {s : CSt} {s' : RSt} (hs : StRel s s') (rte : CVal) (xs : List Name) {cte : List (List Name)}
    {env : Env} (hc : Chain s.heap cte rte env) (hne : xs ≠ []) {vs : List CVal} {ws : List RVal}
    (hv : VRels s.heap vs ws) (hl : vs.length = xs.length) :
    Le s.heap (alloc (rte :: vs) s).2.heap ∧
    Chain (alloc (rte :: vs) s).2.heap (consCte xs cte) (alloc (rte :: vs) s).1 (extend xs ws env s').1 ∧
    StRel (alloc (rte :: vs) s).2 (extend xs ws env s').2 ∧
    (alloc (rte :: vs) s).1 = .vec s'.store.length := by
  have hle : Le s.heap (s.heap ++ [rte :: vs]) := by
    intro a f hf
    have ha : a < s.heap.length := (List.getElem?_eq_some_iff.mp hf).1
    exact ⟨f, by rw [List.getElem?_append_left ha]; exact hf, rfl, rfl⟩
  unfold alloc extend consCte
  simp only [if_neg hne]
  refine ⟨hle, ?_, ⟨by simp [hs.len], ?_, fun x => (hs.glob x).mono hle⟩, by rw [hs.len]⟩
  · rw [← hs.len]
    refine .frame hne ?_ hl (hc.mono hle)
    rw [List.getElem?_append_right (Nat.le_refl _)]
    simp
  · intro a f hf
    simp only at hf ⊢
    by_cases ha : a < s.heap.length
    · rw [List.getElem?_append_left ha] at hf
      obtain ⟨p, sl, us, h1, h2, h3⟩ := hs.blocks a f hf
      exact ⟨p, sl, us, h1, by rw [List.getElem?_append_left (by rw [← hs.len]; exact ha)]; exact h2,
        VRels.mono hle h3⟩
    · have hal : a = s.heap.length := by
        have := (List.getElem?_eq_some_iff.mp hf).1
        simp at this
        omega
      subst hal
      rw [List.getElem?_append_right (Nat.le_refl _)] at hf
      simp only [Nat.sub_self, List.getElem?_cons_zero, Option.some.injEq] at hf
      refine ⟨rte, vs, ws, hf.symm, ?_, VRels.mono hle hv⟩
      rw [hs.len, List.getElem?_append_right (Nat.le_refl _)]
      simp

/-- Related application procedures. -/
def AppRel (app : CVal → List CVal → CSt → Res CVal CSt) (app' : RVal → List RVal → RSt → Res RVal RSt) : Prop :=
  ∀ f f' args args' s s', VRel s.heap f f' → VRels s.heap args args' → StRel s s' →
    RRel VRel s.heap (app f args s) (app' f' args' s')

section
variable {app : CVal → List CVal → CSt → Res CVal CSt} {app' : RVal → List RVal → RSt → Res RVal RSt}

theorem ref_rel {x : Name} {cte rte env} {s : CSt} {s' : RSt} (hc : Chain s.heap cte rte env)
    (hs : StRel s s') : RRel VRel s.heap (run app (genVarRef (lookup x cte 0) x) rte s)
      (eval app' (.var x) env s') := by
  have hl := lookup_find s.heap x hc 0
  rw [eval]
  cases e : lookup x cte 0 with
  | none =>
    rw [e] at hl
    simp only at hl
    simp only [genVarRef, run, hl]
    exact ⟨Le.refl _, hs.glob x, hs⟩
  | some v =>
    obtain ⟨u, over⟩ := v
    rw [e] at hl
    obtain ⟨k, a, j, h1, h2, h3, h4⟩ := hl
    rw [Nat.zero_add] at h1
    subst h1 h3
    simp only [genVarRef, h4]
    rw [run_genRteRef app _ s u rte _ h2]
    exact get_rel hs a j

theorem set_rel {x : Name} {cte rte env} {s : CSt} {s' : RSt} (hc : Chain s.heap cte rte env)
    {c : Code} {e' : RSt → Res RVal RSt}
    (hr : RRel VRel s.heap (run app c rte s) (e' s')) :
    RRel VRel s.heap (run app (genVarSet (lookup x cte 0) x c) rte s)
      ((e' s').bind fun v s => assign x v env s) := by
  have hl := lookup_find s.heap x hc 0
  cases e : lookup x cte 0 with
  | none =>
    rw [e] at hl
    simp only at hl
    simp only [genVarSet, run, assign, hl]
    refine hr.bind fun v w s1 s1' _ hv hs1 => ⟨Le.refl _, .atom _, ⟨hs1.len, hs1.blocks, fun y => ?_⟩⟩
    simp only [setGlob]
    split
    · exact hv
    · exact hs1.glob y
  | some v =>
    obtain ⟨u, over⟩ := v
    rw [e] at hl
    obtain ⟨k, a, j, h1, h2, h3, h4⟩ := hl
    rw [Nat.zero_add] at h1
    subst h1 h3
    have key : RRel VRel s.heap ((run app c rte s).bind fun v s => setRes (.vec a) (j + 1) v s)
        ((e' s').bind fun v s => assign x v env s) := by
      simp only [assign, h4]
      exact hr.bind fun v w s1 s1' _ hv hs1 => put_rel hs1 a j hv
    simp only [genVarSet]
    match u, h2 with
    | 0, h2 =>
      simp only [frameAt, Option.some.injEq] at h2
      subst h2
      simp only [genRteSet, run]
      exact key
    | 1, h2 =>
      simp only [frameAt] at h2
      cases e1 : vecRef s.heap rte 0 with
      | none => rw [e1] at h2; cases h2
      | some p =>
        rw [e1] at h2
        injection h2 with h2
        subst h2
        simp only [genRteSet, run, e1, refRes, Res.ok_bind]
        exact key
    | u+2, h2 =>
      rw [frameAt] at h2
      cases e1 : vecRef s.heap rte 0 with
      | none => rw [e1] at h2; cases h2
      | some p =>
        rw [e1] at h2
        simp only at h2
        obtain ⟨q, hq⟩ : ∃ q, frameAt s.heap p u = some q := by
          clear key hr e
          revert p
          suffices H : ∀ (n : Nat) (p : CVal), frameAt s.heap p (n + 1) = some (.vec a) →
              ∃ q, frameAt s.heap p n = some q from fun p h _ => H u p h
          intro n
          induction n with
          | zero => intro p _; exact ⟨p, rfl⟩
          | succ n ih =>
            intro p hp
            rw [frameAt] at hp ⊢
            cases e2 : vecRef s.heap p 0 with
            | none => rw [e2] at hp; cases hp
            | some p2 => rw [e2] at hp; exact ih p2 hp
        have h0 := frameAt_succ s.heap u p q hq
        rw [h2] at h0
        simp only [genRteSet, run, e1, refRes, Res.ok_bind]
        rw [run_genRteRef app 0 s u p q hq, ← h0]
        simp only [refRes, Res.ok_bind]
        exact key

mutual
theorem sim (ha : AppRel app app') : ∀ (e : Exp), Wf e → ∀ (cte : List (List Name)) (rte : CVal) (env : Env)
    (s : CSt) (s' : RSt), Chain s.heap cte rte env → StRel s s' →
    RRel VRel s.heap (run app (comp cte e) rte s) (eval app' e env s')
  | .var x, _, cte, rte, env, s, s', hc, hs => by
    rw [comp]; exact ref_rel hc hs
  | .cst d, _, cte, rte, env, s, s', hc, hs => by
    rw [comp, run, eval]; exact ⟨Le.refl _, toC_rel _ d, hs⟩
  | .set x e, hw, cte, rte, env, s, s', hc, hs => by
    rw [Wf] at hw
    rw [comp, eval]
    exact set_rel hc (e' := fun s => eval app' e env s) (sim ha e hw cte rte env s s' hc hs)
  | .lam ps rest body, hw, cte, rte, env, s, s', hc, hs => by
    rw [Wf] at hw
    rw [comp, eval]
    cases rest with
    | true =>
      simp only [if_true]
      rw [run_genLambdaRest]
      exact ⟨Le.refl _, VRel.clos (rest := true) hc hw.1 hw.2.1 hw.2.2, hs⟩
    | false =>
      simp only [Bool.false_eq_true, if_false]
      rw [run_genLambda]
      exact ⟨Le.refl _, VRel.clos (rest := false) hc hw.1 hw.2.1 hw.2.2, hs⟩
  | .ite a b c, hw, cte, rte, env, s, s', hc, hs => by
    rw [Wf] at hw
    rw [comp, run, eval]
    refine (sim ha a hw.1 cte rte env s s' hc hs).bind fun v w s1 s1' hle hv hs1 => ?_
    rw [truth_rel hv]
    split
    · exact sim ha b hw.2.1 cte rte env s1 s1' (hc.mono hle) hs1
    · exact sim ha c hw.2.2 cte rte env s1 s1' (hc.mono hle) hs1
  | .when a b, hw, cte, rte, env, s, s', hc, hs => by
    rw [Wf] at hw
    rw [comp, run, eval]
    refine (sim ha a hw.1 cte rte env s s' hc hs).bind fun v w s1 s1' hle hv hs1 => ?_
    rw [truth_rel hv]
    split
    · exact sim ha b hw.2 cte rte env s1 s1' (hc.mono hle) hs1
    · exact ⟨Le.refl _, .atom _, hs1⟩
  | .letrec xs vals body, hw, cte, rte, env, s, s', hc, hs => by
    rw [Wf] at hw
    obtain ⟨hne, hlen, hwv, hwb⟩ := hw
    have hca : ∀ (c : List (List Name)) (es : List Exp), (compAll c es).length = es.length := by
      intro c es
      induction es with
      | nil => rfl
      | cons e es ih => simp [compAll, ih]
    have hne2 : compAll (consCte xs cte) vals ≠ [] := by
      intro e
      have := hca (consCte xs cte) vals
      rw [e] at this
      simp only [List.length_nil] at this
      apply hne
      apply List.eq_nil_of_length_eq_zero
      omega
    have hl2 : (compAll (consCte xs cte) vals).length = xs.length := by rw [hca, hlen]
    rw [comp, eval, run_genLetrec app _ _ _ _ hne2, hl2]
    simp only
    obtain ⟨hle, hch, hst, hvec⟩ := alloc_rel hs rte xs hc hne
      (vs := List.replicate xs.length (.atom (letrecInit xs.length)))
      (ws := List.replicate xs.length (.atom (letrecInit xs.length)))
      (by
        clear hl2 hne2 hlen hne
        generalize letrecInit xs.length = i
        generalize xs.length = n
        induction n with
        | zero => exact .nil
        | succ n ih => exact .cons (.atom _) ih)
      (by simp)
    rw [hvec] at hch ⊢
    have h1 := simLet ha vals hwv (consCte xs cte) _ s'.store.length 0 _ _ hch hst
    have h2 := h1.bind (Q := VRel) fun v w s1 s1' hle1 _ hs1 =>
      sim ha body hwb (consCte xs cte) (.vec s'.store.length) _ s1 s1' (hch.mono hle1) hs1
    exact h2.weaken hle
  | .begin e es, hw, cte, rte, env, s, s', hc, hs => by
    rw [Wf] at hw
    rw [comp, eval]
    exact simSeq ha es hw.2 cte (comp cte e) rte env s s'
      (sim ha e hw.1 cte rte env s s' hc hs) (fun h => hc.mono h)
  | .define x e, hw, cte, rte, env, s, s', hc, hs => by
    rw [Wf] at hw
    rw [comp, run, eval]
    have h1 := set_rel (x := x) hc (e' := fun s => eval app' e env s) (sim ha e hw cte rte env s s' hc hs)
    rw [← Res.bind_assoc]
    refine h1.bind fun v w s1 s1' _ _ hs1 => ?_
    rw [run]
    exact ⟨Le.refl _, .atom _, hs1⟩
  | .app f args, hw, cte, rte, env, s, s', hc, hs => by
    rw [Wf] at hw
    have general : RRel VRel s.heap ((run app (comp cte f) rte s).bind fun vf s =>
        (runAll app (compAll cte args) rte s).bind fun vs s => app vf vs s) (eval app' (.app f args) env s') := by
      rw [eval]
      refine (sim ha f hw.1 cte rte env s s' hc hs).bind fun vf wf s1 s1' hle hvf hs1 => ?_
      refine (simAll ha args hw.2 cte rte env s1 s1' (hc.mono hle) hs1).bind fun vs ws s2 s2' hle2 hvs hs2 => ?_
      exact ha _ _ _ _ _ _ (hvf.mono hle2) hvs hs2
    by_cases hv : ∃ x, f = .var x
    · obtain ⟨x, rfl⟩ := hv
      rw [comp]
      rw [comp] at general
      cases e : lookup x cte 0 with
      | some v =>
        simp only
        rw [run_genComb]
        rw [e] at general
        exact general
      | none =>
        simp only
        rw [run_genGComb]
        rw [e] at general
        simpa [genVarRef, run] using general
    · have hcomp : comp cte (.app f args) = genComb (comp cte f) (compAll cte args) := by
        cases f with
        | var x => exact absurd ⟨x, rfl⟩ hv
        | _ => rw [comp.eq_def]
      rw [hcomp, run_genComb]
      exact general
theorem simAll (ha : AppRel app app') : ∀ (es : List Exp), WfAll es → ∀ (cte : List (List Name)) (rte : CVal)
    (env : Env) (s : CSt) (s' : RSt), Chain s.heap cte rte env → StRel s s' →
    RRel VRels s.heap (runAll app (compAll cte es) rte s) (evalAll app' es env s')
  | [], _, cte, rte, env, s, s', hc, hs => by
    rw [compAll, runAll, evalAll]; exact ⟨Le.refl _, .nil, hs⟩
  | e :: es, hw, cte, rte, env, s, s', hc, hs => by
    rw [WfAll] at hw
    rw [compAll, runAll, evalAll]
    refine (sim ha e hw.1 cte rte env s s' hc hs).bind fun v w s1 s1' hle hv hs1 => ?_
    refine (simAll ha es hw.2 cte rte env s1 s1' (hc.mono hle) hs1).bind fun vs ws s2 s2' hle2 hvs hs2 => ?_
    exact ⟨Le.refl _, .cons (hv.mono hle2) hvs, hs2⟩
theorem simSeq (ha : AppRel app app') : ∀ (es : List Exp), WfAll es → ∀ (cte : List (List Name)) (code : Code)
    (rte : CVal) (env : Env) (s : CSt) (s' : RSt) {r' : Res RVal RSt},
    RRel VRel s.heap (run app code rte s) r' →
    (∀ {h}, Le s.heap h → Chain h cte rte env) →
    RRel VRel s.heap (run app (compSeq cte code es) rte s) (r'.bind fun v s => evalSeq app' v es env s)
  | [], _, cte, code, rte, env, s, s', r', hr, hc => by
    rw [compSeq]
    have : (r'.bind fun v s => evalSeq app' v [] env s) = r' := by
      cases r' <;> simp [Res.bind, evalSeq]
    rw [this]
    exact hr
  | e :: es, hw, cte, code, rte, env, s, s', r', hr, hc => by
    rw [WfAll] at hw
    rw [compSeq, run]
    refine hr.bind fun v w s1 s1' hle _ hs1 => ?_
    rw [evalSeq]
    exact simSeq ha es hw.2 cte (comp cte e) rte env s1 s1'
      (sim ha e hw.1 cte rte env s1 s1' (hc hle) hs1) (fun h => (hc hle).mono h)
theorem simLet (ha : AppRel app app') : ∀ (es : List Exp), WfAll es → ∀ (cte : List (List Name)) (env : Env)
    (a i : Nat) (s : CSt) (s' : RSt), Chain s.heap cte (.vec a) env → StRel s s' →
    RRel VRel s.heap (runLet app (compAll cte es) (.vec a) (i + 1) s) (evalLet app' es env a i s')
  | [], _, cte, env, a, i, s, s', hc, hs => by
    rw [compAll, runLet, evalLet]; exact ⟨Le.refl _, .atom _, hs⟩
  | e :: es, hw, cte, env, a, i, s, s', hc, hs => by
    rw [WfAll] at hw
    rw [compAll, runLet, evalLet]
    refine (sim ha e hw.1 cte (.vec a) env s s' hc hs).bind fun v w s1 s1' hle hv hs1 => ?_
    refine (put_rel hs1 a i hv).bind fun _ _ s2 s2' hle2 _ hs2 => ?_
    exact simLet ha es hw.2 cte env a (i + 1) s2 s2' ((hc.mono hle).mono hle2) hs2
end
end

theorem listC_rel {h : List (List CVal)} {vs : List CVal} {ws : List RVal} (r : VRels h vs ws) :
    VRel h (listC vs) (listR ws) := by
  induction r with
  | nil => exact .atom _
  | cons hx _ ih => exact .pair hx ih

theorem atoms_rel {h : List (List CVal)} {vs : List CVal} {ws : List RVal} (r : VRels h vs ws) :
    atomsC vs = atomsR ws := by
  induction r with
  | nil => rfl
  | cons hx _ ih => cases hx <;> simp [atomsC, atomsR, ih, mkClos]

theorem prim_rel (δ : Delta) (p : Prim) {s : CSt} {s' : RSt} (hs : StRel s s') {vs : List CVal}
    {ws : List RVal} (r : VRels s.heap vs ws) :
    RRel VRel s.heap (refRes (primC δ p vs) s) (getRes (primR δ p ws) s') := by
  have hok : ∀ {v w}, VRel s.heap v w → RRel VRel s.heap (refRes (some v) s) (getRes (some w) s') :=
    fun h => ⟨Le.refl _, h, hs⟩
  have herr : RRel VRel s.heap (refRes none s) (getRes none s') := trivial
  cases p with
  | op n =>
    simp only [primC, primR, atoms_rel r]
    cases atomsR ws with
    | none => exact herr
    | some as =>
      simp only
      cases δ n as with
      | none => exact herr
      | some a => exact hok (.atom a)
  | cons =>
    cases r with
    | nil => exact herr
    | cons h1 r =>
      cases r with
      | nil => exact herr
      | cons h2 r =>
        cases r with
        | nil => exact hok (.pair h1 h2)
        | cons _ _ => exact herr
  | car =>
    cases r with
    | nil => exact herr
    | cons h1 r =>
      cases r with
      | nil =>
        cases h1 with
        | pair ha _ => exact hok ha
        | atom _ => exact herr
        | prim _ => exact herr
        | clos _ _ _ _ => exact herr
      | cons _ _ => cases h1 <;> exact herr
  | cdr =>
    cases r with
    | nil => exact herr
    | cons h1 r =>
      cases r with
      | nil =>
        cases h1 with
        | pair _ hd => exact hok hd
        | atom _ => exact herr
        | prim _ => exact herr
        | clos _ _ _ _ => exact herr
      | cons _ _ => cases h1 <;> exact herr

theorem applyC_fixed (δ : Delta) (fuel nb : Nat) (b : Code) (rte : CVal) (args : List CVal) (s : CSt)
    (hn : nb < 1000) :
    applyC δ (fuel + 1) (mkClos (fkind nb) nb false b rte) args s =
      if args.length = nb then
        if nb = 0 then run (applyC δ fuel) b rte s
        else run (applyC δ fuel) b (alloc (rte :: args) s).1 (alloc (rte :: args) s).2
      else .err := by
  have hk := (Arity.c46_fixed_partial nb args.length hn).1
  simp only [applyC, mkClos, Bool.false_eq_true, if_false, hk]
  split
  · rename_i h
    rw [frameOf_fixed rte args nb h]
    by_cases h0 : nb = 0
    · simp only [if_pos h0]
    · simp only [if_neg h0]
  · rfl

theorem applyC_rest (δ : Delta) (fuel nb : Nat) (b : Code) (rte : CVal) (args : List CVal) (s : CSt)
    (h0 : 0 < nb) (hn : nb < 1000) :
    applyC δ (fuel + 1) (mkClos (rkind nb) nb true b rte) args s =
      if nb - 1 ≤ args.length ∧ args.length < 1000 then
        run (applyC δ fuel) b (alloc (rte :: (args.take (nb - 1) ++ [listC (args.drop (nb - 1))])) s).1
          (alloc (rte :: (args.take (nb - 1) ++ [listC (args.drop (nb - 1))])) s).2
      else .err := by
  obtain ⟨n, rfl⟩ : ∃ n, nb = n + 1 := ⟨nb - 1, by omega⟩
  have hk : Arity.argcheck (Arity.restAnn ((n + 1 : Nat) : Int)) args.length = .apply ↔
      n + 1 - 1 ≤ args.length ∧ args.length < 1000 := by
    have e : ((n + 1 : Nat) : Int) = (n : Int) + 1 := by omega
    rw [e, Arity.restAnn_eq n (by omega)]
    refine (Arity.check_eq n 999 args.length (by omega)).1.trans ?_
    omega
  simp only [applyC, mkClos, if_true, hk]
  split
  · rename_i h
    rw [frameOf_rest rte args (n + 1) (by omega) h.1]
  · rfl

theorem params_fixed (ps : List Name) (args : List RVal) (hn : ps.length < 1000) :
    params ps false args = if args.length = ps.length then some args else none := by
  unfold params
  by_cases h : args.length = ps.length
  · have : ¬ args.length ≥ 1000 := by omega
    simp only [if_neg this, if_pos h, Bool.false_eq_true, if_false]
  · simp only [if_neg h, Bool.false_eq_true, if_false, ite_self]

theorem params_rest (ps : List Name) (args : List RVal) :
    params ps true args = if ps.length - 1 ≤ args.length ∧ args.length < 1000 then
      some (args.take (ps.length - 1) ++ [listR (args.drop (ps.length - 1))]) else none := by
  unfold params
  by_cases h : args.length ≥ 1000
  · have : ¬ (ps.length - 1 ≤ args.length ∧ args.length < 1000) := by omega
    rw [if_pos h, if_neg this]
  · rw [if_neg h]
    by_cases h2 : ps.length - 1 ≤ args.length
    · have : (ps.length - 1 ≤ args.length ∧ args.length < 1000) := by omega
      simp only [if_pos this, if_pos h2, if_true]
    · have : ¬ (ps.length - 1 ≤ args.length ∧ args.length < 1000) := by omega
      simp only [if_neg this, if_neg h2, if_true]

theorem apply_rel (δ : Delta) : ∀ fuel, AppRel (applyC δ fuel) (applyR δ fuel)
  | 0 => fun _ _ _ _ _ _ _ _ _ => trivial
  | fuel+1 => by
    have ih := apply_rel δ fuel
    intro f f' args args' s s' hf hargs hs
    have hlen : args.length = args'.length := hargs.length_eq
    cases hf with
    | atom a => trivial
    | pair _ _ => trivial
    | prim p => exact prim_rel δ p hs hargs
    | @clos cte rte env ps rest body hc hr hn hw =>
      have hmk : ∀ (vs : List CVal) (ws : List RVal), VRels s.heap vs ws → vs.length = ps.length → ps ≠ [] →
          RRel VRel s.heap (run (applyC δ fuel) (comp (consCte ps cte) body) (alloc (rte :: vs) s).1
            (alloc (rte :: vs) s).2)
            (eval (applyR δ fuel) body (extend ps ws env s').1 (extend ps ws env s').2) := by
        intro vs ws hv hl hps
        obtain ⟨hle, hch, hst, _⟩ := alloc_rel hs rte ps hc hps hv hl
        exact (sim ih body hw (consCte ps cte) _ _ _ _ hch hst).weaken hle
      cases rest with
      | false =>
        simp only [Bool.false_eq_true, if_false]
        rw [applyC_fixed δ fuel _ _ _ _ _ hn, applyR, params_fixed ps _ hn]
        simp only
        by_cases hl : args.length = ps.length
        · have hl2 : args'.length = ps.length := hlen ▸ hl
          simp only [if_pos hl, if_pos hl2]
          by_cases hps : ps = []
          · subst hps
            simp only [List.length_nil, if_true, extend, consCte]
            exact sim ih body hw cte rte env s s' hc hs
          · have h0 : ps.length ≠ 0 := fun e => hps (List.eq_nil_of_length_eq_zero e)
            rw [if_neg h0]
            exact hmk args args' hargs hl hps
        · have hl2 : ¬ args'.length = ps.length := hlen ▸ hl
          simp only [if_neg hl, if_neg hl2]
          exact True.intro
      | true =>
        have hps := hr rfl
        have hpos : 0 < ps.length := List.length_pos_of_ne_nil hps
        simp only [if_true]
        rw [applyC_rest δ fuel _ _ _ _ _ hpos hn, applyR, params_rest ps]
        simp only
        by_cases hl : ps.length - 1 ≤ args.length ∧ args.length < 1000
        · rw [if_pos hl, if_pos (hlen ▸ hl)]
          simp only
          refine hmk _ _ ?_ ?_ hps
          · refine List.rel_append ?_ ?_
            · exact List.forall₂_take _ hargs
            · exact .cons (listC_rel (List.forall₂_drop _ hargs)) .nil
          · simp only [List.length_append, List.length_take, List.length_cons, List.length_nil]
            have := hl.1
            generalize ps.length = n at *
            generalize args.length = m at *
            clear hargs hmk
            omega
        · rw [if_neg hl, if_neg (hlen ▸ hl)]
          exact True.intro

/-- C45, up to the arity limit: procedures with 1000 or more parameters and calls with 1000 or more arguments
are refused by the arity check (see `Arity.c46_fixed_counterexample`), so the reference semantics also refuses
such calls and `Wf` excludes such procedures.  For every well-formed expression, every bound on the depth of calls and every pair of
corresponding states, the compiled closures and direct evaluation with named variables both run out of fuel,
both fail, or both succeed with corresponding values and final states. -/
theorem c45_simulation_partial (δ : Delta) (fuel : Nat) (e : Exp) (hw : Wf e) (s : CSt) (s' : RSt) (hs : StRel s s') :
    RRel VRel s.heap (compileRun δ fuel e s) (evalTop δ fuel e s') :=
  sim (apply_rel δ fuel) e hw [] _ [] s s' (.top _) hs

theorem toR_inj {h : List (List CVal)} : ∀ (d : Datum) {v : CVal}, VRel h v d.toR → v = d.toC
  | .atom a, v, r => by cases r; rfl
  | .pair a d, v, r => by
    cases r with
    | pair r1 r2 => rw [toR_inj a r1, toR_inj d r2]; rfl

theorem toC_inj {h : List (List CVal)} : ∀ (d : Datum) {w : RVal}, VRel h d.toC w → w = d.toR
  | .atom a, v, r => by cases r; rfl
  | .pair a d, v, r => by
    cases r with
    | pair r1 r2 => rw [toC_inj a r1, toC_inj d r2]; rfl

/-- initial states: no local variables; globals are their own symbols except for some built-ins and
data. -/
def initC (g : Name → Option (Prim ⊕ Datum)) : CSt :=
  ⟨[], fun x => match g x with | some (.inl p) => .prim p | some (.inr d) => d.toC | none => .atom (.sym x)⟩
/-- the same for the reference semantics. -/
def initR (g : Name → Option (Prim ⊕ Datum)) : RSt :=
  ⟨[], fun x => match g x with | some (.inl p) => .prim p | some (.inr d) => d.toR | none => .atom (.sym x)⟩

theorem init_rel (g : Name → Option (Prim ⊕ Datum)) : StRel (initC g) (initR g) := by
  refine ⟨rfl, fun a f h => by simp [initC] at h, fun x => ?_⟩
  simp only [initC, initR]
  cases g x with
  | none => exact .atom _
  | some v => cases v with
    | inl p => exact .prim p
    | inr d => exact toC_rel _ d

/-- C45, observable form: from the initial state, the interpreter returns the datum `d` exactly when
direct evaluation does; it fails exactly when direct evaluation fails; it needs the same depth of calls; and
then global variables hold the same data. -/
theorem c45_observable_partial (δ : Delta) (fuel : Nat) (e : Exp) (hw : Wf e) (g : Name → Option (Prim ⊕ Datum)) :
    (∀ d : Datum, (∃ s, compileRun δ fuel e (initC g) = .ok d.toC s) ↔
      (∃ s, evalTop δ fuel e (initR g) = .ok d.toR s)) ∧
    (compileRun δ fuel e (initC g) = .err ↔ evalTop δ fuel e (initR g) = .err) ∧
    (compileRun δ fuel e (initC g) = .timeout ↔ evalTop δ fuel e (initR g) = .timeout) ∧
    (∀ v s w s', compileRun δ fuel e (initC g) = .ok v s → evalTop δ fuel e (initR g) = .ok w s' →
      ∀ (x : Name) (d : Datum), s.glob x = d.toC ↔ s'.glob x = d.toR) := by
  have h := c45_simulation_partial δ fuel e hw _ _ (init_rel g)
  revert h
  generalize compileRun δ fuel e (initC g) = a
  generalize evalTop δ fuel e (initR g) = b
  intro h
  cases a with
  | ok v s =>
    cases b with
    | ok w s' =>
      obtain ⟨_, hv, hs⟩ := h
      refine ⟨fun d => ⟨?_, ?_⟩, by simp, by simp, ?_⟩
      · rintro ⟨s1, e1⟩
        injection e1 with e1 _
        subst e1
        exact ⟨s', by rw [toC_inj d hv]⟩
      · rintro ⟨s1, e1⟩
        injection e1 with e1 _
        subst e1
        exact ⟨s, by rw [toR_inj d hv]⟩
      · intro v1 t1 w1 t2 e1 e2 x d
        injection e1 with _ e1
        injection e2 with _ e2
        subst e1 e2
        have hx := hs.glob x
        constructor
        · intro e3; rw [e3] at hx; exact toC_inj d hx
        · intro e3; rw [e3] at hx; exact toR_inj d hx
    | err => exact h.elim
    | timeout => exact h.elim
  | err =>
    cases b with
    | ok w s' => exact h.elim
    | err => simp
    | timeout => exact h.elim
  | timeout =>
    cases b with
    | ok w s' => exact h.elim
    | err => exact h.elim
    | timeout => simp

/-- The condition on `letrec` matters: a `letrec` without bindings would shift the run-time chain without
shifting the compile-time one.  (The expander never produces one.) -/
theorem c45_empty_letrec (δ : Delta) :
    compileRun δ 2 (.app (.lam [0] false (.letrec [] [] (.var 0))) [.cst (.atom (.num 7))]) (initC fun _ => none)
      = .err ∧
    ∃ s, evalTop δ 2 (.app (.lam [0] false (.letrec [] [] (.var 0))) [.cst (.atom (.num 7))])
      (initR fun _ => none) = .ok (.atom (.num 7)) s :=
  ⟨rfl, _, rfl⟩

/-- A program with shadowing, assignment through two levels and a rest parameter:
`((lambda (x) ((lambda (y) ((lambda (x . r) (set! y x) (cons y r)) 5 6)) x)) 1)`. -/
example : Wf (.app (.lam [0] false (.app (.lam [1] false (.app (.lam [0, 2] true
      (.begin (.set 1 (.var 0)) [.app (.var 9) [.var 1, .var 2]]))
        [.cst (.atom (.num 5)), .cst (.atom (.num 6))])) [.var 0])) [.cst (.atom (.num 1))]) ∧
    ∃ s, compileRun (fun _ _ => none) 9 (.app (.lam [0] false (.app (.lam [1] false (.app (.lam [0, 2] true
      (.begin (.set 1 (.var 0)) [.app (.var 9) [.var 1, .var 2]]))
        [.cst (.atom (.num 5)), .cst (.atom (.num 6))])) [.var 0])) [.cst (.atom (.num 1))])
      (initC fun x => if x = 9 then some (.inl .cons) else none) =
      .ok (.pair (.atom (.num 5)) (.pair (.atom (.num 6)) (.atom .nil))) s := by
  refine ⟨by simp [Wf, WfAll], _, rfl⟩

end Verif.Interp

import Verif.Nary.Model
/-
C56: operators with any number of operands.
-/
namespace Verif.Nary
variable {σ α β γ : Type}

theorem Comp.ext {c d : Comp σ α} (h : ∀ s, c s = d s) : c = d := funext h

theorem bind_apply (c : Comp σ α) (f : α → Comp σ β) (s : σ) : (c.bind f) s = (c s).bind fun r => f r.1 r.2 := rfl
theorem pure_bind (a : α) (f : α → Comp σ β) : (Comp.pure a).bind f = f a := rfl
theorem pure_apply (a : α) (s : σ) : Comp.pure a s = some (a, s) := rfl
theorem bind_pure (c : Comp σ α) : c.bind .pure = c := by
  refine Comp.ext fun s => ?_
  rw [bind_apply]; cases c s <;> rfl
theorem bind_assoc (c : Comp σ α) (f : α → Comp σ β) (g : β → Comp σ γ) : (c.bind f).bind g = c.bind fun x => (f x).bind g := by
  refine Comp.ext fun s => ?_
  simp only [bind_apply]; cases c s <;> rfl

theorem evalAll_pure (xs : List α) : (evalAll (xs.map .pure) : Comp σ (List α)) = .pure xs := by
  induction xs with
  | nil => rfl
  | cons x xs ih => rw [List.map_cons, evalAll, pure_bind, ih, pure_bind]

theorem callProc_pure (r : List α → Option β) (xs : List α) : (callProc r (xs.map .pure) : Comp σ β) = .lift (r xs) := by
  rw [callProc, evalAll_pure, pure_bind]

theorem callProc_one (r : List α → Option β) (x : Comp σ α) : callProc r [x] = x.bind fun a => .lift (r [a]) := by
  simp only [callProc, evalAll, bind_assoc, pure_bind]

theorem callProc_two (r : List α → Option β) (x y : Comp σ α) : callProc r [x, y] = x.bind fun a => y.bind fun b => .lift (r [a, b]) := by
  simp only [callProc, evalAll, bind_assoc, pure_bind]

/-- the operation on the first two operands may be done before the others are evaluated. -/
theorem callProc_first (r : List α → Option β) (f : α → α → Option α) (h : ∀ a b l, r (a :: b :: l) = (f a b).bind fun c => r (c :: l)) (x y : Comp σ α)
    (cs : List (Comp σ α)) : callProc r (prim2 f x y :: cs) = callProc r (x :: y :: cs) := by
  refine Comp.ext fun s => ?_
  simp only [callProc, evalAll, bind_assoc, pure_bind, prim2, bind_apply]
  cases x s with
  | none => rfl
  | some v =>
    simp only [Option.bind_some]
    cases y v.2 with
    | none => rfl
    | some w =>
      simp only [Option.bind_some, Comp.lift]
      cases hf : f v.1 w.1 with
      | some c =>
        simp only [Option.map_some, Option.bind_some]
        cases evalAll cs w.2 with
        | none => rfl
        | some t => simp [h, hf, pure_apply]
      | none =>
        simp only [Option.map_none, Option.bind_none]
        cases evalAll cs w.2 with
        | none => rfl
        | some t => simp [h, hf, pure_apply]

/-! ### C56 -/

/-- **C56** (`+`, `*`, `gcd`, `lcm`).  In operator position and as procedures, for any operands: same results, same effects. -/
theorem c56_left (f : α → α → Option α) (e : α) (cs : List (Comp σ α)) : leftMacro f e cs = some (callProc (addmulReducer f e) cs) := by
  match cs with
  | [] => rw [leftMacro]; rfl
  | [x] =>
    rw [leftMacro, callProc_one]
    exact congrArg some (bind_pure x).symm
  | [x, y] =>
    rw [leftMacro, callProc_two]
    simp only [addmulReducer, loop, Option.bind_fun_some]
    rfl
  | x :: y :: z :: zs =>
    rw [leftMacro, c56_left f e (prim2 f x y :: z :: zs), callProc_first]
    intro a b l; rfl
termination_by cs.length

/-- **C56** (`-`, `/` and their relatives), for at least one operand. -/
theorem c56_sub (g : α → Option α) (f : α → α → Option α) (cs : List (Comp σ α)) (h : cs ≠ []) :
    subMacro g f cs = some (callProc (subdivReducer g f) cs) := by
  match cs, h with
  | [x], _ => rw [subMacro, callProc_one]; rfl
  | [x, y], _ =>
    rw [subMacro, callProc_two]
    simp only [subdivReducer, loop, Option.bind_fun_some]
    rfl
  | x :: y :: z :: zs, _ =>
    rw [subMacro, c56_sub g f (prim2 f x y :: z :: zs) (by simp)]
    congr 1
    -- with three operands or more, the negation plays no role
    have h3 : ∀ (c d : Comp σ α) (ds : List (Comp σ α)), callProc (subdivReducer g f) (c :: d :: ds) = callProc (minmaxReducer f) (c :: d :: ds) := by
      intro c d ds
      refine Comp.ext fun s => ?_
      simp only [callProc, evalAll, bind_assoc, pure_bind, bind_apply]
      cases c s with
      | none => rfl
      | some v =>
        simp only [Option.bind_some]
        cases d v.2 with
        | none => rfl
        | some w =>
          simp only [Option.bind_some]
          cases evalAll ds w.2 <;> rfl
    rw [h3, h3, callProc_first]
    intro a b l; rfl
termination_by cs.length

/-- **C56** (`max`, `min` on fixnums or flonums), for at least one operand. -/
theorem c56_max (f : α → α → Option α) (cs : List (Comp σ α)) (h : cs ≠ []) : maxMacro f cs = some (callProc (minmaxReducer f) cs) := by
  match cs, h with
  | [x], _ =>
    rw [maxMacro, callProc_one]
    exact congrArg some (bind_pure x).symm
  | [x, y], _ =>
    rw [maxMacro, callProc_two]
    simp only [minmaxReducer, loop, Option.bind_fun_some]
    rfl
  | x :: y :: z :: zs, _ =>
    rw [maxMacro, c56_max f (prim2 f x y :: z :: zs) (by simp), callProc_first]
    intro a b l; rfl
termination_by cs.length

/-- **C56** (`append`, `string-append`).  The macro and the procedure group their operands in the same way. -/
theorem c56_append (f : α → α → Option α) (e : α) (cs : List (Comp σ α)) : rightMacro f e cs = some (callProc (appendReducer f e) cs) := by
  match cs with
  | [] => rfl
  | [x] =>
    rw [rightMacro, callProc_one]
    exact congrArg some (bind_pure x).symm
  | [x, y] =>
    rw [rightMacro, callProc_two]
    simp only [appendReducer, Option.bind_some]
    rfl
  | x :: y :: z :: zs =>
    rw [rightMacro, c56_append f e (y :: z :: zs)]
    refine congrArg some (Comp.ext fun s => ?_)
    simp only [callProc, evalAll, bind_assoc, pure_bind, prim2, bind_apply]
    cases x s with
    | none => rfl
    | some v =>
      simp only [Option.bind_some]
      cases y v.2 with
      | none => rfl
      | some w =>
        simp only [Option.bind_some]
        cases z w.2 with
        | none => rfl
        | some u =>
          simp only [Option.bind_some]
          cases evalAll zs u.2 with
          | none => rfl
          | some t =>
            simp only [Option.bind_some, Comp.lift, pure_apply, appendReducer]
            cases appendReducer f e (u.1 :: t.1) with
            | none => rfl
            | some r1 =>
              simp only [Option.bind_some]
              cases f w.1 r1 <;> rfl

/-- `f` is associative, and defined in both groupings or in none. -/
def Assoc (f : α → α → Option α) : Prop := ∀ a b c, ((f a b).bind fun x => f x c) = (f b c).bind fun y => f a y

theorem loop_assoc {f : α → α → Option α} (h : Assoc f) (e : α) : ∀ (x y : α) (l : List α),
    loop f x (y :: l) = (appendReducer f e (y :: l)).bind fun r => f x r := by
  intro x y l
  induction l generalizing x y with
  | nil => simp [loop, appendReducer]
  | cons z l ih =>
    rw [loop, appendReducer]
    cases hxy : f x y with
    | none =>
      simp only [Option.bind_none]
      cases hr : appendReducer f e (z :: l) with
      | none => rfl
      | some r =>
        simp only [Option.bind_some]
        rw [← h x y r, hxy]; rfl
    | some w =>
      simp only [Option.bind_some]
      rw [ih]
      cases hr : appendReducer f e (z :: l) with
      | none => rfl
      | some r =>
        simp only [Option.bind_some]
        rw [← h x y r, hxy]; rfl

/-- **C56** (`fx+`, `fx*` and the like; partial).  The macro groups from the right, the procedure from the left: same results if the operation is
associative, which fixnum operations with overflow checks are not, see `c56_counterexample_fx`. -/
theorem c56_right_partial (f : α → α → Option α) (e : α) (h : Assoc f) (cs : List (Comp σ α)) : rightMacro f e cs = some (callProc (addmulReducer f e) cs) := by
  rw [c56_append]
  congr 2
  funext xs
  match xs with
  | [] => rfl
  | [x] => rfl
  | x :: y :: l =>
    show (appendReducer f e (y :: l)).bind (fun r => f x r) = _
    exact (loop_assoc h e x y l).symm

/-- **C56** (comparisons; partial).  With operands that are values or variables, macro and procedure agree. Operands
with effects: `c56_counterexample`. -/
theorem c56_compare_partial (f : α → α → Option Bool) (xs : List α) (h : 2 ≤ xs.length) :
    cmpMacro f (xs.map .pure : List (Comp σ α)) = some (callProc (cmpReducer f) (xs.map .pure)) := by
  rw [callProc_pure]
  match xs, h with
  | [x, y], _ =>
    simp only [List.map_cons, List.map_nil, cmpMacro, prim2, pure_bind, cmpReducer, cmpLoop]
    congr 2
    cases f x y with
    | none => rfl
    | some b => cases b <;> rfl
  | x :: y :: z :: zs, _ =>
    have ih := c56_compare_partial f (y :: z :: zs) (by simp)
    rw [callProc_pure] at ih
    simp only [List.map_cons] at ih
    simp only [List.map_cons, cmpMacro, pure_bind, prim2, ih, Option.getD_some]
    refine congrArg some (Comp.ext fun s => ?_)
    have hc : cmpReducer f (x :: y :: z :: zs) = (f x y).bind fun b => if b then cmpReducer f (y :: z :: zs) else some false := rfl
    rw [hc]
    simp only [bind_apply, Comp.lift]
    cases f x y with
    | none => rfl
    | some b => cases b <;> rfl
termination_by xs.length

/-- The procedures for comparisons compare all neighbours. -/
theorem c56_compare_value (r : α → α → Bool) (xs : List α) :
    ∃ b, cmpReducer (fun x y => some (r x y)) xs = some b ∧ (b = true ↔ ∀ (i : Nat) (x y : α), xs[i]? = some x → xs[i + 1]? = some y → r x y = true) := by
  cases xs with
  | nil => exact ⟨true, rfl, by simp⟩
  | cons x l =>
    show ∃ b, cmpLoop _ x l = some b ∧ _
    induction l generalizing x with
    | nil =>
      refine ⟨true, rfl, ?_⟩
      simp
    | cons y l ih =>
      obtain ⟨b, h1, h2⟩ := ih y
      rw [cmpLoop, Option.bind_some]
      cases hr : r x y with
      | false =>
        refine ⟨false, rfl, ?_⟩
        simp only [Bool.false_eq_true, false_iff]
        intro h
        rw [h 0 x y rfl rfl] at hr; cases hr
      | true =>
        refine ⟨b, by simpa using h1, ?_⟩
        rw [h2]
        constructor
        · intro h i u v hu hv
          cases i with
          | zero => simp at hu hv; subst hu; subst hv; exact hr
          | succ i => exact h i u v (by simpa using hu) (by simpa using hv)
        · intro h i u v hu hv
          exact h (i + 1) u v (by simpa using hu) (by simpa using hv)

/-- Comparisons with fewer than two operands are rejected in operator position, and true as calls of the procedure. -/
theorem c56_compare_short (f : α → α → Option Bool) (cs : List (Comp σ α)) (h : cs.length < 2) :
    cmpMacro f cs = none ∧ ∀ xs : List α, xs.length < 2 → cmpReducer f xs = some true := by
  constructor
  · match cs, h with
    | [], _ => rw [cmpMacro]
    | [x], _ => rw [cmpMacro]
  · intro xs hx
    match xs, hx with
    | [], _ => rfl
    | [x], _ => rfl

/-- The full statement for comparisons: what the macro expands to does the same as a call of the procedure. -/
def C56Full : Prop := ∀ (σ α : Type) (f : α → α → Option Bool) (cs : List (Comp σ α)) (c : Comp σ Bool), cmpMacro f cs = some c → c = callProc (cmpReducer f) cs

/-- `(< 2 1 (begin (set! n (+ n 1)) 3))`: the macro does not evaluate the last operand, a call does. -/
theorem c56_counterexample : ¬ C56Full := by
  intro h
  have := h Nat Nat (fun a b => some (decide (a < b))) [.pure 2, .pure 1, fun n => some (3, n + 1)] _ (cmpMacro.eq_4 _ _ _ _ _)
  have h1 := congrFun this 0
  have h2 : callProc (cmpReducer fun a b => some (decide (a < b))) [.pure 2, .pure 1, fun n => some (3, n + 1)] 0 = some (false, 1) := rfl
  have h3 : ((Comp.pure 1 : Comp Nat Nat).bind fun t => (prim2 (fun a b => some (decide (a < b))) (.pure 2) (.pure t)).bind fun b =>
      if b = true then (cmpMacro (fun a b => some (decide (a < b))) (.pure t :: (fun n => some (3, n + 1)) :: [])).getD (fun _ => none) else .pure false) 0 = some (false, 0) := rfl
  rw [h2, h3] at h1
  cases h1

/-- checked addition of fixnums, in LibL. -/
def fxAddOpt (x y : Int) : Option Int := match Fx.lfxadd x y with | .ok z => some z | .error _ => none

/-- `(fx+ 536870911 1 -1)` is 536870911; `(apply fx+ '(536870911 1 -1))` stops with an overflow. -/
theorem c56_counterexample_fx : ∃ c, rightMacro fxAddOpt 0 [.pure 536870911, .pure 1, .pure (-1)] = some c ∧ c () = some (536870911, ()) ∧
    callProc (addmulReducer fxAddOpt 0) [.pure 536870911, .pure 1, .pure (-1)] () = none :=
  ⟨_, rfl, by decide +kernel, by decide +kernel⟩

/-- Addition of fixnums without checks, modulo 2^30, is associative. -/
theorem assoc_wrap : Assoc (fun x y : Int => some ((x + y).bmod (2 ^ 30))) := by
  intro a b c
  simp only [Option.bind_some, Option.some.injEq]
  rw [Int.bmod_add_bmod, Int.add_bmod_bmod, Int.add_assoc]

/-- operands with effects. -/
example : leftMacro (fun x y : Nat => some (x + y)) 0 [fun n => some (n, n + 1), fun n => some (n, n * 2), fun n => some (n, n)] =
      some (callProc (addmulReducer (fun x y : Nat => some (x + y)) 0) [fun n => some (n, n + 1), fun n => some (n, n * 2), fun n => some (n, n)]) ∧
    callProc (addmulReducer (fun x y : Nat => some (x + y)) 0) [fun n => some (n, n + 1), fun n => some (n, n * 2), fun n => some (n, n)] 5 = some (5 + 6 + 12, 12) :=
  ⟨c56_left _ _ _, rfl⟩

example : Assoc (fun x y : Int => some ((x + y).bmod (2 ^ 30))) ∧ 2 ≤ [1, 2, 3].length ∧ ∃ c : Comp Nat Bool, cmpMacro (fun x y : Nat => some (decide (x < y))) [.pure 1, .pure 2, .pure 3] = some c ∧ c 0 = some (true, 0) :=
  ⟨assoc_wrap, by decide, _, c56_compare_partial (σ := Nat) (fun x y : Nat => some (decide (x < y))) [1, 2, 3] (by decide), rfl⟩

/-! ### `map` and `for-each` -/

theorem evalAll_map_length {p : α → Comp σ β} : ∀ (l : List α) (r : List β), mapLoop1 p l r = (evalAll (l.map p)).bind fun ys => .pure (r.reverse ++ ys) := by
  intro l
  induction l with
  | nil => intro r; simp [mapLoop1, evalAll, pure_bind]
  | cons x l ih =>
    intro r
    rw [mapLoop1, List.map_cons, evalAll, bind_assoc]
    congr 1
    funext y
    rw [ih, bind_assoc]
    congr 1
    funext ys
    rw [pure_bind]
    simp

theorem allPairs_iff : ∀ (ls : List (List α)), allPairs ls = true ↔ ∀ l ∈ ls, 0 < l.length := by
  intro ls
  induction ls with
  | nil => simp [allPairs]
  | cons l ls ih =>
    cases l with
    | nil => simp [allPairs]
    | cons x l => simp [allPairs, ih]

/-- the elements at position `i`. -/
def row (ls : List (List α)) (i : Nat) : List α := ls.filterMap (·[i]?)

theorem row_zero (ls : List (List α)) : ls.filterMap List.head? = row ls 0 := by
  unfold row
  congr 1
  funext l
  cases l <;> rfl

theorem row_tail (ls : List (List α)) (i : Nat) : row (ls.map List.tail) i = row ls (i + 1) := by
  unfold row
  rw [List.filterMap_map]
  congr 1
  funext l
  cases l <;> simp

/-- `n` is the length of the shortest list. -/
def Shortest (ls : List (List α)) (n : Nat) : Prop := (∀ l ∈ ls, n ≤ l.length) ∧ ∃ l ∈ ls, l.length = n

theorem Shortest.tail {ls : List (List α)} {n : Nat} (h : Shortest ls (n + 1)) : Shortest (ls.map List.tail) n := by
  obtain ⟨h1, l, hl, h2⟩ := h
  constructor
  · intro l' hl'
    obtain ⟨l, hl, rfl⟩ := List.mem_map.1 hl'
    have := h1 l hl
    rw [List.length_tail]; omega
  · exact ⟨_, List.mem_map.2 ⟨l, hl, rfl⟩, by rw [List.length_tail]; omega⟩

theorem mapLoopN_spec {p : List α → Comp σ β} : ∀ (n fuel : Nat) (ls : List (List α)) (r : List β), n < fuel → Shortest ls n →
    mapLoopN p fuel ls r = (evalAll ((List.range n).map fun i => p (row ls i))).bind fun ys => .pure (r.reverse ++ ys) := by
  intro n
  induction n with
  | zero =>
    intro fuel ls r hf hs
    obtain ⟨m, rfl⟩ : ∃ m, fuel = m + 1 := ⟨fuel - 1, by omega⟩
    obtain ⟨_, l, hl, h0⟩ := hs
    have : allPairs ls ≠ true := fun h => by have := (allPairs_iff ls).1 h l hl; omega
    rw [mapLoopN, if_neg this]
    simp [evalAll, pure_bind]
  | succ n ih =>
    intro fuel ls r hf hs
    obtain ⟨m, rfl⟩ : ∃ m, fuel = m + 1 := ⟨fuel - 1, by omega⟩
    have hp : allPairs ls = true := (allPairs_iff ls).2 (fun l hl => by have := hs.1 l hl; omega)
    rw [mapLoopN, if_pos hp, List.range_succ_eq_map, List.map_cons, evalAll, bind_assoc, row_zero, List.map_map]
    congr 1
    funext y
    rw [ih m _ _ (by omega) hs.tail, bind_assoc]
    simp only [row_tail, pure_bind, List.reverse_cons, List.append_assoc, List.singleton_append, Function.comp_def, Nat.succ_eq_add_one]

theorem row_one (l : List α) (i : Nat) (h : i < l.length) : row [l] i = [l[i]] := by
  simp [row, List.getElem?_eq_getElem h]

/-- **C56** (`map`).  The procedure is applied to the elements at position 0, 1, … of the lists, up to the end of the shortest list, once each and in this
order; the results come in the same order. -/
theorem c56_map (p : List α → Comp σ β) (l : List α) (ls : List (List α)) (n : Nat) (h : Shortest (l :: ls) n) :
    residualMap p l ls = evalAll ((List.range n).map fun i => p (row (l :: ls) i)) := by
  cases ls with
  | nil =>
    have hn : l.length = n := by
      obtain ⟨_, l', hl, h2⟩ := h
      rw [List.mem_singleton.1 hl] at h2; exact h2
    subst hn
    rw [residualMap, evalAll_map_length]
    simp only [List.reverse_nil, List.nil_append, bind_pure]
    congr 1
    refine List.ext_getElem (by simp) (fun i h1 h2 => ?_)
    simp only [List.getElem_map, List.getElem_range]
    rw [row_one l i (by simpa using h1)]
  | cons l' ls =>
    have hl := h.1 l (by simp)
    show mapLoopN p (l.length + 1) (l :: l' :: ls) [] = _
    rw [mapLoopN_spec n (l.length + 1) _ [] (by omega) h]
    simp only [List.reverse_nil, List.nil_append, bind_pure]

theorem forLoopN_spec {p : List α → Comp σ β} : ∀ (n fuel : Nat) (ls : List (List α)), n < fuel → Shortest ls n →
    forLoopN p fuel ls = (evalAll ((List.range n).map fun i => p (row ls i))).bind fun _ => .pure () := by
  intro n
  induction n with
  | zero =>
    intro fuel ls hf hs
    obtain ⟨m, rfl⟩ : ∃ m, fuel = m + 1 := ⟨fuel - 1, by omega⟩
    obtain ⟨_, l, hl, h0⟩ := hs
    have : allPairs ls ≠ true := fun h => by have := (allPairs_iff ls).1 h l hl; omega
    rw [forLoopN, if_neg this]
    rfl
  | succ n ih =>
    intro fuel ls hf hs
    obtain ⟨m, rfl⟩ : ∃ m, fuel = m + 1 := ⟨fuel - 1, by omega⟩
    have hp : allPairs ls = true := (allPairs_iff ls).2 (fun l hl => by have := hs.1 l hl; omega)
    rw [forLoopN, if_pos hp, List.range_succ_eq_map, List.map_cons, evalAll, bind_assoc, row_zero, List.map_map]
    congr 1
    funext y
    rw [ih m _ (by omega) hs.tail, bind_assoc]
    simp only [row_tail, pure_bind, Function.comp_def, Nat.succ_eq_add_one]

theorem forLoop1_spec {p : α → Comp σ β} : ∀ (l : List α), forLoop1 p l = (evalAll (l.map p)).bind fun _ => .pure () := by
  intro l
  induction l with
  | nil => rfl
  | cons x l ih =>
    rw [forLoop1, List.map_cons, evalAll, bind_assoc]
    congr 1
    funext y
    rw [ih, bind_assoc]
    rfl

/-- **C56** (`for-each`).  The same calls as for `map`. -/
theorem c56_for_each (p : List α → Comp σ β) (l : List α) (ls : List (List α)) (n : Nat) (h : Shortest (l :: ls) n) :
    residualForEach p l ls = (evalAll ((List.range n).map fun i => p (row (l :: ls) i))).bind fun _ => .pure () := by
  cases ls with
  | nil =>
    have hn : l.length = n := by
      obtain ⟨_, l', hl, h2⟩ := h
      rw [List.mem_singleton.1 hl] at h2; exact h2
    subst hn
    rw [residualForEach, forLoop1_spec]
    congr 2
    refine List.ext_getElem (by simp) (fun i h1 h2 => ?_)
    simp only [List.getElem_map, List.getElem_range]
    rw [row_one l i (by simpa using h1)]
  | cons l' ls =>
    have hl := h.1 l (by simp)
    show forLoopN p (l.length + 1) (l :: l' :: ls) = _
    rw [forLoopN_spec n (l.length + 1) _ (by omega) h]

/-- lists of different lengths. -/
example : Shortest [[1, 2, 3], [10, 20]] 2 ∧ residualMap (σ := Nat) (fun xs n => some (xs.sum + n, n + 100)) [1, 2, 3] [[10, 20]] 0 = some ([11, 122], 200) :=
  ⟨⟨by decide, [10, 20], by decide, rfl⟩, rfl⟩

/-- **C56** (`cons*`). -/
theorem c56_cons_star (cons : α → α → α) (x : α) (l : List α) : consStar cons x l = ((x :: l).dropLast).foldr cons ((x :: l).getLast (by simp)) := by
  induction l generalizing x with
  | nil => rfl
  | cons y l ih => rw [consStar, ih]; simp

end Verif.Nary

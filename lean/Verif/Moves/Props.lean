import Verif.Moves.Model
import Mathlib.Data.List.Basic
/-
C40: argument passing at calls is a parallel assignment, whichever move sequence is chosen.
-/
namespace Verif.Moves
variable {Val State : Type}

/-! ### specification: evaluate the operands, then pass the values -/

/-- The value of a variable in the current frame. -/
def varValue (S : Sem Val State) (kind : Id → Kind) (renv : List Slot) (r : Nat → Val) : Id → State → Val :=
  lookup S kind renv r

mutual
/-- Evaluation of an operand with the variable values `ρ`. -/
def ev (S : Sem Val State) (ρ : Id → State → Val) : Exp → State → Val × State
  | .var id, σ => (ρ id σ, σ)
  | .ite a b c, σ =>
    let (v, σ) := ev S ρ a σ
    if S.truth v then ev S ρ b σ else ev S ρ c σ
  | .prim p _ rands, σ =>
    let (vs, σ) := evs S ρ rands σ
    S.prim p vs σ
  | e, σ => let (v, σ, _) := S.other e ρ σ; (v, σ)
/-- left to right. -/
def evs (S : Sem Val State) (ρ : Id → State → Val) : List Exp → State → List Val × State
  | [], σ => ([], σ)
  | e :: es, σ =>
    let (v, σ) := ev S ρ e σ
    let (vs, σ) := evs S ρ es σ
    (v :: vs, σ)
end

/-- First the operands that are not plain C expressions, in order. -/
def complexVals (S : Sem Val State) (ρ : Id → State → Val) : List Exp → State → List (Option Val) × State
  | [], σ => ([], σ)
  | e :: es, σ =>
    if inlineable e then
      let (ws, σ) := complexVals S ρ es σ
      (none :: ws, σ)
    else
      let (v, σ, _) := S.other e ρ σ
      let (ws, σ) := complexVals S ρ es σ
      (some v :: ws, σ)

/-- The value of an operand in the second phase. -/
def val (S : Sem Val State) (ρ : Id → State → Val) (e : Exp) (w : Option Val) (σ : State) : Val × State :=
  match w with | some v => (v, σ) | none => ev S ρ e σ

/-- Then the plain ones, in order. -/
def allVals (S : Sem Val State) (ρ : Id → State → Val) :
    List Exp → List (Option Val) → State → List Val × State
  | e :: es, w :: ws, σ =>
    let (v, σ) := val S ρ e w σ
    let (vs, σ) := allVals S ρ es ws σ
    (v :: vs, σ)
  | _, _, σ => ([], σ)

/-- The values of the operands and the state after evaluating them, all variables having the values they
have before the call. -/
def operandValues (S : Sem Val State) (ρ : Id → State → Val) (rands : List Exp) (σ : State) :
    List Val × State :=
  let (ws, σ) := complexVals S ρ rands σ
  allVals S ρ rands ws σ

/-! ### registers of variables -/

/-- register index of a variable. -/
def idx (renv : List Slot) (id : Id) : Option Nat := (posq (.var id) renv).map (fun p => renv.length - p - 1)

theorem posq_lt : ∀ (renv : List Slot) (s : Slot) (p : Nat), posq s renv = some p → renv[p]? = some s
  | [], _, _, h => by simp [posq] at h
  | x :: xs, s, p, h => by
    unfold posq at h
    split at h
    · next e => injection h with h; subst h; simp [e]
    · cases e : posq s xs with
      | none => rw [e] at h; simp at h
      | some q =>
        rw [e] at h
        simp only [Option.map_some, Option.some.injEq] at h
        subst h
        simpa using posq_lt xs s q e

theorem idx_tmp (renv : List Slot) (id : Id) : idx (.tmp :: renv) id = idx renv id := by
  unfold idx
  rw [posq, if_neg (by simp)]
  cases posq (.var id) renv with
  | none => rfl
  | some p => simp only [Option.map_some, List.length_cons, Option.some.injEq]; omega

theorem idx_reverse {renv : List Slot} {id : Id} {i : Nat} (h : idx renv id = some i) :
    renv.reverse[i]? = some (.var id) ∧ i < renv.length := by
  unfold idx at h
  cases e : posq (.var id) renv with
  | none => rw [e] at h; simp at h
  | some p =>
    rw [e] at h
    simp only [Option.map_some, Option.some.injEq] at h
    have hp := posq_lt renv _ p e
    have hlt : p < renv.length := (List.getElem?_eq_some_iff.mp hp).1
    refine ⟨?_, by omega⟩
    rw [List.getElem?_reverse (by omega)]
    have : renv.length - 1 - i = p := by omega
    rw [this]; exact hp

theorem lookup_idx (S : Sem Val State) (kind : Id → Kind) (renv : List Slot) (r : Nat → Val) (id : Id)
    (σ : State) : lookup S kind renv r id σ =
      if kind id = .reg then (match idx renv id with | some i => r i | none => S.named id σ)
      else S.named id σ := by
  unfold lookup idx
  cases kind id <;> simp
  cases posq (.var id) renv <;> simp

/-- `renv2` is `renv` with temporaries pushed. -/
inductive Pushed (renv : List Slot) : List Slot → Prop
  | refl : Pushed renv renv
  | push {renv2} : Pushed renv renv2 → Pushed renv (.tmp :: renv2)

theorem Pushed.idx {renv renv2 : List Slot} (h : Pushed renv renv2) (id : Id) :
    idx renv2 id = idx renv id := by
  induction h with
  | refl => rfl
  | push _ ih => rw [idx_tmp, ih]

theorem Pushed.len {renv renv2 : List Slot} (h : Pushed renv renv2) : renv.length ≤ renv2.length := by
  induction h with
  | refl => exact Nat.le_refl _
  | push _ ih => simp only [List.length_cons]; omega

theorem Pushed.lookup (S : Sem Val State) (kind : Id → Kind) {renv renv2 : List Slot}
    (h : Pushed renv renv2) (r r2 : Nat → Val) (hr : ∀ j, j < renv.length → r2 j = r j) :
    lookup S kind renv2 r2 = lookup S kind renv r := by
  funext id σ
  rw [lookup_idx, lookup_idx, h.idx]
  cases e : Verif.Moves.idx renv id with
  | none => rfl
  | some i =>
    have := (idx_reverse e).2
    simp only [hr i this]

theorem cgVar_idx (kind : Id → Kind) (renv : List Slot) (id : Id) : cgVar kind renv id =
    if kind id = .reg then (idx renv id).map Text.reg else some (.named id) := by
  unfold cgVar idx
  cases kind id <;> simp
  cases posq (.var id) renv <;> simp

/-! ### a generated expression has the value of its source -/

mutual
theorem teval_ev (S : Sem Val State) (kind : Id → Kind) (renv : List Slot) (ρ : Id → State → Val)
    (rc : Nat → Val)
    (hn : ∀ id σ, kind id ≠ .reg → ρ id σ = S.named id σ) :
    ∀ (e : Exp) (t : Text), cgCexp kind renv e = some t → inlineable e = true →
      (∀ id i σ, dep [.var id] e = true → kind id = .reg → idx renv id = some i → rc i = ρ id σ) →
      ∀ σ, teval S rc t σ = ev S ρ e σ
  | .var id, t, ht, _, hr, σ => by
    rw [cgCexp, cgVar_idx] at ht
    by_cases hk : kind id = .reg
    · rw [if_pos hk] at ht
      cases e : idx renv id with
      | none => rw [e] at ht; simp at ht
      | some i =>
        rw [e] at ht
        simp only [Option.map_some, Option.some.injEq] at ht
        subst ht
        rw [teval, ev, hr id i σ (by simp [dep]) hk e]
    · rw [if_neg hk] at ht
      injection ht with ht
      subst ht
      rw [teval, ev, hn id σ hk]
  | .ite a b c, t, ht, hi, hr, σ => by
    simp only [inlineable, Bool.and_eq_true] at hi
    rw [cgCexp] at ht
    cases ea : cgCexp kind renv a with
    | none => rw [ea] at ht; simp at ht
    | some ta =>
      cases eb : cgCexp kind renv b with
      | none => rw [ea, eb] at ht; simp at ht
      | some tb =>
        cases ec : cgCexp kind renv c with
        | none => rw [ea, eb, ec] at ht; simp at ht
        | some tc =>
          rw [ea, eb, ec] at ht
          simp only [Option.some.injEq] at ht
          subst ht
          have ha := teval_ev S kind renv ρ rc hn a ta ea hi.1.1 (fun id i σ hd => hr id i σ (by simp [dep, hd]))
          have hb := teval_ev S kind renv ρ rc hn b tb eb hi.1.2 (fun id i σ hd => hr id i σ (by simp [dep, hd]))
          have hc := teval_ev S kind renv ρ rc hn c tc ec hi.2 (fun id i σ hd => hr id i σ (by simp [dep, hd]))
          rw [teval, ev, ha]
          simp only [hb, hc]
  | .prim p inl rands, t, ht, hi, hr, σ => by
    simp only [inlineable, Bool.and_eq_true] at hi
    rw [cgCexp] at ht
    cases ea : cgCexps kind renv rands with
    | none => rw [ea] at ht; simp at ht
    | some ts =>
      rw [ea] at ht
      simp only [Option.some.injEq] at ht
      subst ht
      have ha := tevals_evs S kind renv ρ rc hn rands ts ea hi.2
        (fun id i σ hd => hr id i σ (by simpa [dep] using hd))
      rw [teval, ev, ha]
  | .gassign _ _, _, _, hi, _, _ => by simp [inlineable] at hi
  | .letE _ _ _, _, _, hi, _, _ => by simp [inlineable] at hi
  | .curry _ _ _, _, _, hi, _, _ => by simp [inlineable] at hi
  | .labelapp _ _, _, _, hi, _, _ => by simp [inlineable] at hi
  | .app _ _, _, _, hi, _, _ => by simp [inlineable] at hi
theorem tevals_evs (S : Sem Val State) (kind : Id → Kind) (renv : List Slot) (ρ : Id → State → Val)
    (rc : Nat → Val)
    (hn : ∀ id σ, kind id ≠ .reg → ρ id σ = S.named id σ) :
    ∀ (es : List Exp) (ts : List Text), cgCexps kind renv es = some ts → inlineableAll es = true →
      (∀ id i σ, depAny [.var id] es = true → kind id = .reg → idx renv id = some i → rc i = ρ id σ) →
      ∀ σ, tevals S rc ts σ = evs S ρ es σ
  | [], ts, ht, _, _, σ => by
    simp only [cgCexps, Option.some.injEq] at ht
    subst ht
    rw [tevals, evs]
  | e :: es, ts, ht, hi, hr, σ => by
    simp only [inlineableAll, Bool.and_eq_true] at hi
    rw [cgCexps] at ht
    cases ea : cgCexp kind renv e with
    | none => rw [ea] at ht; simp at ht
    | some t =>
      cases eb : cgCexps kind renv es with
      | none => rw [ea, eb] at ht; simp at ht
      | some ts' =>
        rw [ea, eb] at ht
        simp only [Option.some.injEq] at ht
        subst ht
        have ha := teval_ev S kind renv ρ rc hn e t ea hi.1 (fun id i σ hd => hr id i σ (by simp [depAny, hd]))
        have hb := tevals_evs S kind renv ρ rc hn es ts' eb hi.2
          (fun id i σ hd => hr id i σ (by simp [depAny, hd]))
        rw [tevals, evs, ha]
        simp only [hb]
end

mutual
theorem dep_mem (sp : List Slot) (id : Id) (hm : Slot.var id ∈ sp) :
    ∀ e : Exp, dep [.var id] e = true → dep sp e = true
  | .var x, h => by
    simp only [dep, List.contains_iff_mem, List.mem_singleton, Slot.var.injEq] at h ⊢
    subst h; exact hm
  | .gassign _ e, h => by
    simp only [dep] at h ⊢
    exact dep_mem sp id hm e h
  | .ite a b c, h => by
    simp only [dep, Bool.or_eq_true] at h ⊢
    exact h.imp (fun h => h.imp (dep_mem sp id hm a) (dep_mem sp id hm b)) (dep_mem sp id hm c)
  | .letE _ es b, h => by
    simp only [dep, Bool.or_eq_true] at h ⊢
    exact h.imp (depAny_mem sp id hm es) (dep_mem sp id hm b)
  | .curry _ _ es, h => by
    simp only [dep] at h ⊢
    exact depAny_mem sp id hm es h
  | .labelapp _ es, h => by
    simp only [dep] at h ⊢
    exact depAny_mem sp id hm es h
  | .app a es, h => by
    simp only [dep, Bool.or_eq_true] at h ⊢
    exact h.imp (dep_mem sp id hm a) (depAny_mem sp id hm es)
  | .prim _ _ es, h => by
    simp only [dep] at h ⊢
    exact depAny_mem sp id hm es h
theorem depAny_mem (sp : List Slot) (id : Id) (hm : Slot.var id ∈ sp) :
    ∀ es : List Exp, depAny [.var id] es = true → depAny sp es = true
  | [], h => by simp [depAny] at h
  | e :: es, h => by
    simp only [depAny, Bool.or_eq_true] at h ⊢
    exact h.imp (dep_mem sp id hm e) (depAny_mem sp id hm es)
end

/-! ### running the code for the complex operands -/

/-- How an operand's text relates to the operand after the complex ones have been computed in `r3`. -/
def TextOk (kind : Id → Kind) (renv : List Slot) (r3 : Nat → Val) (L : Nat) (e : Exp) (w : Option Val)
    (t : Text) : Prop :=
  (w = none ∧ inlineable e = true ∧ ∃ renv2, Pushed renv renv2 ∧ cgCexp kind renv2 e = some t) ∨
  (∃ v i, w = some v ∧ t = .reg i ∧ renv.length ≤ i ∧ i < L ∧ r3 i = v)

/-- pointwise on three lists. -/
inductive Oks (P : Exp → Option Val → Text → Prop) : List Exp → List (Option Val) → List Text → Prop
  | nil : Oks P [] [] []
  | cons {e w t es ws ts} : P e w t → Oks P es ws ts → Oks P (e :: es) (w :: ws) (t :: ts)

theorem Oks.imp {P Q : Exp → Option Val → Text → Prop} (h : ∀ e w t, P e w t → Q e w t)
    {es ws ts} (hp : Oks P es ws ts) : Oks Q es ws ts := by
  induction hp with
  | nil => exact .nil
  | cons hx _ ih => exact .cons (h _ _ _ hx) ih

theorem runCode_cons (S : Sem Val State) (kind : Id → Kind) (c : Code) (cs : List Code) (r : Nat → Val)
    (σ : State) {v : Val} {σ1 : State} {junk : Nat → Val}
    (h : S.other c.exp (lookup S kind c.renv r) σ = (v, σ1, junk)) :
    runCode S kind (c :: cs) r σ =
      runCode S kind cs (fun j => if j < c.tgt then r j else if j = c.tgt then v else junk j) σ1 := by
  rw [runCode, h]

theorem complexVals_cons (S : Sem Val State) (ρ : Id → State → Val) (e : Exp) (es : List Exp) (σ : State)
    {v : Val} {σ1 : State} {junk : Nat → Val} (hi : ¬ inlineable e = true) (h : S.other e ρ σ = (v, σ1, junk)) :
    complexVals S ρ (e :: es) σ = (some v :: (complexVals S ρ es σ1).1, (complexVals S ρ es σ1).2) := by
  rw [complexVals, if_neg hi, h]

theorem primArgs_spec (S : Sem Val State) (kind : Id → Kind) (renv : List Slot) (r : Nat → Val) :
    ∀ (es : List Exp) (renv2 : List Slot) (cs : List Code) (ts : List Text) (renv' : List Slot)
      (r2 : Nat → Val) (σ : State),
      Pushed renv renv2 → primArgs kind es renv2 = some (cs, ts, renv') →
      (∀ j, j < renv.length → r2 j = r j) →
      renv2.length ≤ renv'.length ∧
      (∀ j, j < renv2.length → (runCode S kind cs r2 σ).1 j = r2 j) ∧
      (runCode S kind cs r2 σ).2 = (complexVals S (lookup S kind renv r) es σ).2 ∧
      Oks (TextOk kind renv (runCode S kind cs r2 σ).1 renv'.length) es
        (complexVals S (lookup S kind renv r) es σ).1 ts
  | [], renv2, cs, ts, renv', r2, σ, _, h, _ => by
    simp only [primArgs, Option.some.injEq, Prod.mk.injEq] at h
    obtain ⟨rfl, rfl, rfl⟩ := h
    exact ⟨Nat.le_refl _, fun _ _ => rfl, rfl, .nil⟩
  | e :: es, renv2, cs, ts, renv', r2, σ, hP, h, hr => by
    rw [primArgs] at h
    by_cases hi : inlineable e = true
    · rw [if_pos hi] at h
      cases ea : cgCexp kind renv2 e with
      | none => rw [ea] at h; simp at h
      | some t =>
        cases eb : primArgs kind es renv2 with
        | none => rw [ea, eb] at h; simp at h
        | some x =>
          obtain ⟨cs1, ts1, renv1⟩ := x
          rw [ea, eb] at h
          simp only [Option.some.injEq, Prod.mk.injEq] at h
          obtain ⟨rfl, rfl, rfl⟩ := h
          obtain ⟨h1, h2, h3, h4⟩ := primArgs_spec S kind renv r es renv2 cs1 ts1 renv1 r2 σ hP eb hr
          refine ⟨h1, h2, ?_, ?_⟩
          · rw [complexVals, if_pos hi]; exact h3
          · rw [complexVals, if_pos hi]
            exact .cons (Or.inl ⟨rfl, hi, renv2, hP, ea⟩) h4
    · rw [if_neg hi] at h
      cases eb : primArgs kind es (.tmp :: renv2) with
      | none => rw [eb] at h; simp at h
      | some x =>
        obtain ⟨cs1, ts1, renv1⟩ := x
        rw [eb] at h
        simp only [Option.some.injEq, Prod.mk.injEq] at h
        obtain ⟨rfl, rfl, rfl⟩ := h
        have hlk := hP.lookup S kind r r2 hr
        have hlen := hP.len
        cases eo : S.other e (lookup S kind renv r) σ with
        | mk v rest =>
          obtain ⟨σ1, junk⟩ := rest
          rw [runCode_cons S kind _ cs1 r2 σ (v := v) (σ1 := σ1) (junk := junk) (by simp only [hlk]; exact eo),
            complexVals_cons S _ e es σ hi eo]
          obtain ⟨h1, h2, h3, h4⟩ := primArgs_spec S kind renv r es (.tmp :: renv2) cs1 ts1 renv1
            (fun j => if j < renv2.length then r2 j else if j = renv2.length then v else junk j) σ1 hP.push eb
            (fun j hj => by rw [if_pos (by omega), hr j hj])
          simp only [List.length_cons] at h1 h2
          refine ⟨by omega, fun j hj => ?_, h3, .cons (Or.inr ⟨v, renv2.length, rfl, rfl, hlen, by omega, ?_⟩) h4⟩
          · rw [h2 j (by omega), if_pos hj]
          · rw [h2 _ (by omega), if_neg (by omega), if_pos rfl]

/-! ### the moves -/

/-- Each text has its operand's value in all registers that agree with `r3` except for the targets of the
earlier moves. -/
inductive Stable (S : Sem Val State) (ρ : Id → State → Val) (r3 : Nat → Val) (base : Nat) :
    Nat → List Exp → List (Option Val) → List Text → Prop
  | nil {k} : Stable S ρ r3 base k [] [] []
  | cons {k e w t es ws ts} :
      (∀ rc : Nat → Val, (∀ j, (∀ m, m < k → j ≠ base + m) → rc j = r3 j) → ∀ σ, teval S rc t σ = val S ρ e w σ) →
      Stable S ρ r3 base (k + 1) es ws ts → Stable S ρ r3 base k (e :: es) (w :: ws) (t :: ts)

theorem moves_spec (S : Sem Val State) (ρ : Id → State → Val) (r3 : Nat → Val) (base : Nat) :
    ∀ {k es ws ts}, Stable S ρ r3 base k es ws ts → ∀ (rc : Nat → Val) (σ : State),
      (∀ j, (∀ m, m < k → j ≠ base + m) → rc j = r3 j) →
      (∀ m, m < k → (moves S base k ts rc σ).1 (base + m) = rc (base + m)) ∧
      (allVals S ρ es ws σ).1.length = es.length ∧
      (∀ (n : Nat) (v : Val), (allVals S ρ es ws σ).1[n]? = some v →
        (moves S base k ts rc σ).1 (base + (k + n)) = v) ∧
      (moves S base k ts rc σ).2 = (allVals S ρ es ws σ).2 := by
  intro k es ws ts h
  induction h with
  | nil =>
    intro rc σ _
    refine ⟨fun _ _ => rfl, rfl, fun n v hv => by simp [allVals] at hv, rfl⟩
  | @cons k e w t es ws ts hx _ ih =>
    intro rc σ hrc
    have hv := hx rc hrc σ
    cases ew : val S ρ e w σ with
    | mk v σ1 =>
      rw [ew] at hv
      have em : moves S base k (t :: ts) rc σ =
          moves S base (k + 1) ts (fun j => if j = base + k then v else rc j) σ1 := by rw [moves, hv]
      have ea : allVals S ρ (e :: es) (w :: ws) σ =
          (v :: (allVals S ρ es ws σ1).1, (allVals S ρ es ws σ1).2) := by rw [allVals, ew]
      rw [em, ea]
      obtain ⟨h1, h2, h3, h4⟩ := ih (fun j => if j = base + k then v else rc j) σ1 (fun j hj => by
        rw [if_neg (hj k (by omega))]
        exact hrc j (fun m hm => hj m (by omega)))
      refine ⟨fun m hm => ?_, ?_, ?_, h4⟩
      · rw [h1 m (by omega), if_neg (by omega)]
      · simp [h2]
      · intro n u hn
        cases n with
        | zero =>
          simp only [List.getElem?_cons_zero, Option.some.injEq] at hn
          have h0 := h1 k (by omega)
          rw [if_pos rfl] at h0
          have e2 : k + 0 = k := rfl
          rw [e2, h0, hn]
        | succ n =>
          simp only [List.getElem?_cons_succ] at hn
          have := h3 n u hn
          have e2 : k + (n + 1) = k + 1 + n := by omega
          rw [e2]; exact this

theorem lookup_named (S : Sem Val State) (kind : Id → Kind) (renv : List Slot) (r : Nat → Val) (id : Id)
    (σ : State) (h : kind id ≠ .reg) : lookup S kind renv r id σ = S.named id σ := by
  rw [lookup_idx, if_neg h]

theorem lookup_reg (S : Sem Val State) (kind : Id → Kind) (renv : List Slot) (r : Nat → Val) (id : Id)
    (σ : State) (i : Nat) (h : kind id = .reg) (hi : idx renv id = some i) : lookup S kind renv r id σ = r i := by
  rw [lookup_idx, if_pos h, hi]

theorem stable_slow (S : Sem Val State) (kind : Id → Kind) (renv : List Slot) (r r3 : Nat → Val) (L : Nat)
    (hL : renv.length ≤ L) (h3 : ∀ j, j < renv.length → r3 j = r j) {es ws ts}
    (h : Oks (TextOk kind renv r3 L) es ws ts) (k : Nat) :
    Stable S (lookup S kind renv r) r3 L k es ws ts := by
  induction h generalizing k with
  | nil => exact .nil
  | cons hx _ ih =>
    refine .cons (fun rc hrc σ => ?_) (ih (k + 1))
    rcases hx with ⟨rfl, hi, renv2, hP, ht⟩ | ⟨v, i, rfl, rfl, _, hi, hv⟩
    · refine teval_ev S kind renv2 _ rc (fun id σ hk => lookup_named S kind renv r id σ hk) _ _ ht hi ?_ σ
      intro id i σ _ hk hidx
      rw [hP.idx] at hidx
      have hlt := (idx_reverse hidx).2
      rw [lookup_reg S kind renv r id σ i hk hidx, hrc i (fun m _ => by omega), h3 i hlt]
    · rw [teval, hrc i (fun m _ => by omega), hv]; rfl

theorem stable_fast (S : Sem Val State) (kind : Id → Kind) (renv : List Slot) (r r3 : Nat → Val) (L : Nat)
    (h3 : ∀ j, j < renv.length → r3 j = r j) {es ws ts}
    (h : Oks (TextOk kind renv r3 L) es ws ts) : ∀ (k : Nat) (sp : List Slot),
    (∀ (j : Nat) (s : Slot), j < k → renv.reverse[j]? = some s → s ∈ sp) →
    fastLoop es (renv.reverse.drop k) sp = true →
    Stable S (lookup S kind renv r) r3 0 k es ws ts := by
  induction h with
  | nil => intro k sp _ _; exact .nil
  | @cons e w t es ws ts hx _ ih =>
    intro k sp hsp hf
    cases hd : renv.reverse.drop k with
    | nil => rw [hd] at hf; simp [fastLoop] at hf
    | cons s regs =>
      have hk : k < renv.reverse.length := by
        by_contra hc
        rw [List.drop_eq_nil_of_le (by omega)] at hd
        cases hd
      rw [List.drop_eq_getElem_cons hk] at hd
      injection hd with hs hregs
      have hks : renv.reverse[k]? = some s := by rw [List.getElem?_eq_getElem hk, hs]
      rw [List.drop_eq_getElem_cons hk, hs] at hf
      have hkl : k < renv.length := by simpa using hk
      cases s with
      | tmp => simp [fastLoop] at hf
      | var id0 =>
        rw [fastLoop] at hf
        have hdep : ∀ id, Slot.var id ∈ sp → ¬ dep [.var id] e = true := by
          intro id hm hd
          have := dep_mem sp id hm e hd
          have hne : sp.isEmpty = false := by cases sp with
            | nil => cases hm
            | cons _ _ => rfl
          rw [this, hne] at hf
          simp at hf
        have hf2 : fastLoop es (renv.reverse.drop (k + 1)) (.var id0 :: sp) = true := by
          split at hf
          · exact hf
          · cases hf
        refine .cons (fun rc hrc σ => ?_) (ih (k + 1) (.var id0 :: sp) ?_ hf2)
        · rcases hx with ⟨rfl, hi, renv2, hP, ht⟩ | ⟨v, i, rfl, rfl, hle, _, hv⟩
          · refine teval_ev S kind renv2 _ rc (fun id σ hk => lookup_named S kind renv r id σ hk) _ _ ht hi ?_ σ
            intro id i σ hdid hk hidx
            rw [hP.idx] at hidx
            obtain ⟨hrev, hlt⟩ := idx_reverse hidx
            have hik : k ≤ i := by
              by_contra hc
              exact hdep id (hsp i _ (by omega) hrev) hdid
            rw [lookup_reg S kind renv r id σ i hk hidx, hrc i (fun m _ => by omega), h3 i hlt]
          · rw [teval, hrc i (fun m _ => by omega), hv]; rfl
        · intro j s hj hs'
          by_cases hjk : j = k
          · subst hjk
            rw [hks] at hs'
            injection hs' with hs'
            exact hs' ▸ List.mem_cons_self
          · exact List.mem_cons_of_mem _ (hsp j s (by omega) hs')

/-- C40: whichever move sequence is chosen, when the jump is taken the argument registers of the callee's
window hold the values of the operands — all variables read with the values they had before the call — and
the state is the one the operand evaluation leaves. -/
theorem c40_parallel_assignment (S : Sem Val State) (kind : Id → Kind) (renv : List Slot) (rands : List Exp)
    (r : Nat → Val) (σ : State) (r' : Nat → Val) (σ' : State)
    (h : call S kind renv rands r σ = some (r', σ')) :
    let vals := (operandValues S (varValue S kind renv r) rands σ).1
    vals.length = rands.length ∧
    (∀ (k : Nat) (v : Val), vals[k]? = some v → r' k = v) ∧
    σ' = (operandValues S (varValue S kind renv r) rands σ).2 := by
  unfold call at h
  cases hp : primArgs kind rands renv with
  | none => rw [hp] at h; simp at h
  | some x =>
    obtain ⟨cs, ts, renv'⟩ := x
    rw [hp] at h
    simp only at h
    obtain ⟨h1, h2, h3, h4⟩ := primArgs_spec S kind renv r rands renv cs ts renv' r σ .refl hp (fun _ _ => rfl)
    unfold operandValues varValue
    simp only
    by_cases hf : fastGoto renv rands = true
    · rw [if_pos hf] at h
      injection h with h
      have hst := stable_fast S kind renv r _ renv'.length h2 h4 0 [] (fun j _ hj => by omega)
        (by simpa [fastGoto] using hf)
      obtain ⟨_, m2, m3, m4⟩ := moves_spec S _ _ 0 hst _ (runCode S kind cs r σ).2 (fun _ _ => rfl)
      rw [h] at m3 m4
      rw [h3] at m2 m3 m4
      refine ⟨m2, fun k v hv => ?_, m4⟩
      have := m3 k v hv
      simpa using this
    · rw [if_neg hf] at h
      injection h with h
      have hst := stable_slow S kind renv r _ renv'.length h1 h2 h4 0
      obtain ⟨_, m2, m3, m4⟩ := moves_spec S _ _ renv'.length hst _ (runCode S kind cs r σ).2 (fun _ _ => rfl)
      injection h with ha hb
      subst ha hb
      rw [h3] at m2 m3 m4
      refine ⟨m2, fun k v hv => ?_, ?_⟩
      · have := m3 k v hv
        rw [h3]
        simpa using this
      · rw [h3]; exact m4

/-- All register variables of the operand are in the register environment. -/
def Bound (kind : Id → Kind) (renv : List Slot) (e : Exp) : Prop :=
  ∀ id, dep [.var id] e = true → kind id = .reg → Slot.var id ∈ renv

theorem posq_some : ∀ (renv : List Slot) (s : Slot), s ∈ renv → ∃ p, posq s renv = some p
  | x :: xs, s, h => by
    unfold posq
    split
    · exact ⟨0, rfl⟩
    · next hne =>
      simp only [List.mem_cons] at h
      rcases h with h | h
      · exact absurd h.symm hne
      · obtain ⟨p, e⟩ := posq_some xs s h
        exact ⟨p + 1, by rw [e]; rfl⟩

mutual
theorem cgCexp_some (kind : Id → Kind) (renv : List Slot) : ∀ e : Exp, inlineable e = true →
    (∀ id, dep [.var id] e = true → kind id = .reg → Slot.var id ∈ renv) → ∃ t, cgCexp kind renv e = some t
  | .var id, _, h => by
    rw [cgCexp, cgVar]
    cases hk : kind id with
    | reg =>
      obtain ⟨p, e⟩ := posq_some renv _ (h id (by simp [dep]) hk)
      simp only [e]; exact ⟨_, rfl⟩
    | global => exact ⟨_, rfl⟩
    | cvar => exact ⟨_, rfl⟩
  | .ite a b c, hi, h => by
    simp only [inlineable, Bool.and_eq_true] at hi
    obtain ⟨ta, ea⟩ := cgCexp_some kind renv a hi.1.1 (fun id hd => h id (by simp [dep, hd]))
    obtain ⟨tb, eb⟩ := cgCexp_some kind renv b hi.1.2 (fun id hd => h id (by simp [dep, hd]))
    obtain ⟨tc, ec⟩ := cgCexp_some kind renv c hi.2 (fun id hd => h id (by simp [dep, hd]))
    exact ⟨_, by rw [cgCexp, ea, eb, ec]⟩
  | .prim _ _ es, hi, h => by
    simp only [inlineable, Bool.and_eq_true] at hi
    obtain ⟨ts, e⟩ := cgCexps_some kind renv es hi.2 (fun id hd => h id (by simpa [dep] using hd))
    exact ⟨_, by rw [cgCexp, e]⟩
  | .gassign _ _, hi, _ => by simp [inlineable] at hi
  | .letE _ _ _, hi, _ => by simp [inlineable] at hi
  | .curry _ _ _, hi, _ => by simp [inlineable] at hi
  | .labelapp _ _, hi, _ => by simp [inlineable] at hi
  | .app _ _, hi, _ => by simp [inlineable] at hi
theorem cgCexps_some (kind : Id → Kind) (renv : List Slot) : ∀ es : List Exp, inlineableAll es = true →
    (∀ id, depAny [.var id] es = true → kind id = .reg → Slot.var id ∈ renv) →
    ∃ ts, cgCexps kind renv es = some ts
  | [], _, _ => ⟨_, rfl⟩
  | e :: es, hi, h => by
    simp only [inlineableAll, Bool.and_eq_true] at hi
    obtain ⟨t, e1⟩ := cgCexp_some kind renv e hi.1 (fun id hd => h id (by simp [depAny, hd]))
    obtain ⟨ts, e2⟩ := cgCexps_some kind renv es hi.2 (fun id hd => h id (by simp [depAny, hd]))
    exact ⟨_, by rw [cgCexps, e1, e2]⟩
end

theorem primArgs_some (kind : Id → Kind) : ∀ (es : List Exp) (renv : List Slot),
    (∀ e ∈ es, Bound kind renv e) → ∃ x, primArgs kind es renv = some x
  | [], _, _ => ⟨_, rfl⟩
  | e :: es, renv, h => by
    rw [primArgs]
    split
    · next hi =>
      obtain ⟨t, e1⟩ := cgCexp_some kind renv e hi (h e (by simp))
      obtain ⟨⟨cs, ts, r⟩, e2⟩ := primArgs_some kind es renv (fun x hx => h x (by simp [hx]))
      rw [e1, e2]; exact ⟨_, rfl⟩
    · obtain ⟨⟨cs, ts, r⟩, e2⟩ := primArgs_some kind es (.tmp :: renv)
        (fun x hx id hd hk => List.mem_cons_of_mem _ (h x (by simp [hx]) id hd hk))
      rw [e2]; exact ⟨_, rfl⟩

/-- C40: code is generated for every call whose operands only mention variables of the frame (so the
theorem above is not vacuous). -/
theorem c40_total (S : Sem Val State) (kind : Id → Kind) (renv : List Slot) (rands : List Exp)
    (r : Nat → Val) (σ : State) (h : ∀ e ∈ rands, Bound kind renv e) :
    ∃ r' σ', call S kind renv rands r σ = some (r', σ') := by
  obtain ⟨⟨cs, ts, renv'⟩, e⟩ := primArgs_some kind rands renv h
  unfold call
  rw [e]
  simp only
  split
  · exact ⟨_, _, rfl⟩
  · exact ⟨_, _, rfl⟩

/-- A swap: `(loop y x)` in a frame with `x` in register 0 and `y` in register 1 is not done by in-place
moves, and still passes the right values; rotating by one likewise. -/
example : fastGoto [.var 1, .var 0] [.var 1, .var 0] = false ∧
    fastGoto [.var 1, .var 0] [.var 0, .var 1] = true ∧
    fastGoto [.var 1, .var 0] [.var 1, .var 1] = true ∧
    fastGoto [.var 1, .var 0] [.var 0, .prim 0 true [.var 0]] = false := by
  simp [fastGoto, fastLoop, dep, depAny]

/-- A concrete semantics for the example: values are numbers, primitive 0 adds. -/
def demo : Sem Nat Unit where
  prim := fun _ vs σ => (vs.sum, σ)
  truth := fun v => v != 0
  named := fun _ _ => 0
  other := fun _ _ σ => (99, σ, fun _ => 7)

example : (call demo (fun _ => .reg) [.var 1, .var 0] [.var 1, .prim 0 true [.var 0, .var 1], .app (.var 0) []]
    (fun j => j + 10) ()).map (fun p => [p.1 0, p.1 1, p.1 2]) = some [11, 21, 99] := by
  simp [call, primArgs, inlineable, inlineableAll, cgCexp, cgCexps, cgVar, posq, runCode, demo, fastGoto,
    fastLoop, dep, depAny, moves, teval, tevals]

end Verif.Moves

import Verif.Lift.Model
import Verif.Core.Free
/-
C37, first part: the iteration computing the extra parameters terminates and computes the least sets.
-/
namespace Verif.Lift
open Verif.Core Verif.Sets

/-! ### specification -/

/-- Procedure number `i` of a group with the given names and free variables needs variable `x`: the variable
is free in it and not a name of the group, or it is needed by a procedure of the group it mentions. -/
inductive Needed (ids : List Id) (fvs : List (List Id)) : Nat → Id → Prop
  | own {i : Nat} {f : List Id} {x : Id} : fvs[i]? = some f → x ∈ f → x ∉ ids → Needed ids fvs i x
  | call {i j : Nat} {f : List Id} {x y : Id} : fvs[i]? = some f → ids[j]? = some y → y ∈ f →
      Needed ids fvs j x → Needed ids fvs i x

/-! ### the loop -/

/-- needs in terms of the step functions. -/
inductive Need (fs : List (List Nat × List Id)) : Nat → Id → Prop
  | own {i : Nat} {f : List Nat × List Id} {x : Id} : fs[i]? = some f → x ∈ f.2 → Need fs i x
  | call {i j : Nat} {f : List Nat × List Id} {x : Id} : fs[i]? = some f → j ∈ f.1 → Need fs j x → Need fs i x

theorem mem_stepFn (x : Id) (calls : List Nat) (fovs : List Id) (av : List (List Id)) :
    x ∈ stepFn calls fovs av ↔ x ∈ fovs ∨ ∃ i ∈ calls, x ∈ av.getD i [] := by
  unfold stepFn
  induction calls generalizing fovs with
  | nil => simp [reduceLeft]
  | cons i calls ih =>
    rw [reduceLeft, ih, (c48_members x x fovs (av.getD i [])).2.1]
    simp only [List.mem_cons, exists_eq_or_imp, or_assoc]

theorem nodup_stepFn (calls : List Nat) (fovs : List Id) (av : List (List Id)) (hf : fovs.Nodup)
    (ha : ∀ i, (av.getD i []).Nodup) : (stepFn calls fovs av).Nodup := by
  unfold stepFn
  induction calls generalizing fovs with
  | nil => exact hf
  | cons i calls ih =>
    rw [reduceLeft]
    exact ih _ ((c48_nodup ⟨0, false⟩ fovs (av.getD i []) hf).2.1 (ha i))

theorem getD_set {α : Type} (l : List α) (i j : Nat) (a d : α) (h : i < l.length) :
    (l.set i a).getD j d = if j = i then a else l.getD j d := by
  simp only [List.getD_eq_getElem?_getD, List.getElem?_set]
  by_cases hij : i = j
  · subst hij; simp [h]
  · rw [if_neg hij, if_neg (fun e => hij e.symm)]

/-- sum of the sizes. -/
def total (av : List (List Id)) : Nat := (av.map List.length).sum

theorem total_set (av : List (List Id)) (i : Nat) (a : List Id) (h : i < av.length) :
    total (av.set i a) + (av.getD i []).length = total av + a.length := by
  induction av generalizing i with
  | nil => simp at h
  | cons b av ih =>
    cases i with
    | zero => simp [total]; omega
    | succ i =>
      have := ih i (by simpa using h)
      simp only [total, List.set_cons_succ, List.map_cons, List.sum_cons, List.getD_cons_succ] at this ⊢
      omega

theorem length_le_of_subset {a b : List Id} (ha : a.Nodup) (h : ∀ x ∈ a, x ∈ b) : a.length ≤ b.length := by
  induction a generalizing b with
  | nil => exact Nat.zero_le _
  | cons x a ih =>
    have hx := List.nodup_cons.mp ha
    have hb := h x List.mem_cons_self
    have := ih (b := b.erase x) hx.2 (fun y hy => by
      have : y ≠ x := fun e => hx.1 (e ▸ hy)
      exact (List.mem_erase_of_ne this).2 (h y (List.mem_cons_of_mem _ hy)))
    rw [List.length_erase_of_mem hb] at this
    have : 0 < b.length := List.length_pos_of_mem hb
    simp only [List.length_cons]
    omega

theorem length_lt_of_ssubset {a b : List Id} (ha : a.Nodup) (h : ∀ x ∈ a, x ∈ b) {y : Id} (hy : y ∈ b) (hn : y ∉ a) :
    a.length < b.length := by
  have := length_le_of_subset (a := y :: a) (b := b) (List.nodup_cons.mpr ⟨hn, ha⟩) (fun x hx => by
    rcases List.mem_cons.mp hx with e | hx
    · rw [e]; exact hy
    · exact h x hx)
  rw [List.length_cons] at this
  omega

theorem total_le (av : List (List Id)) (m : Nat) (h : ∀ i, (av.getD i []).length ≤ m) : total av ≤ av.length * m := by
  induction av with
  | nil => simp [total]
  | cons a av ih =>
    have h0 := h 0
    have := ih (fun i => by have := h (i + 1); simpa using this)
    simp only [total, List.map_cons, List.sum_cons, List.length_cons, Nat.succ_mul] at this ⊢
    simp only [List.getD_cons_zero] at h0
    omega

/-- invariant of the loop. -/
structure Inv (fs : List (List Nat × List Id)) (U : List Id) (av : List (List Id)) : Prop where
  len : av.length = fs.length
  nodup : ∀ i, (av.getD i []).Nodup
  post : ∀ i f, fs[i]? = some f → ∀ x ∈ av.getD i [], x ∈ stepFn f.1 f.2 av
  sound : ∀ i x, x ∈ av.getD i [] → Need fs i x
  bound : ∀ i x, x ∈ av.getD i [] → x ∈ U

theorem Inv.total_le {fs U av} (h : Inv fs U av) : total av ≤ fs.length * U.length := by
  rw [← h.len]
  exact Lift.total_le av _ (fun i => length_le_of_subset (h.nodup i) (h.bound i))

theorem getD_of_get {fs : List (List Nat × List Id)} {i : Nat} (h : i < fs.length) :
    fs[i]? = some (fs.getD i ([], [])) := by
  rw [List.getD_eq_getElem?_getD, List.getElem?_eq_getElem h]; rfl

theorem Inv.step {fs U av} (h : Inv fs U av) (hU : ∀ f ∈ fs, ∀ x ∈ f.2, x ∈ U) (hn : ∀ f ∈ fs, f.2.Nodup)
    {i : Nat} (hi : i < fs.length) :
    Inv fs U (av.set i (stepFn (fs.getD i ([], [])).1 (fs.getD i ([], [])).2 av)) := by
  have hil : i < av.length := h.len ▸ hi
  have hf : fs[i]? = some (fs.getD i ([], [])) := getD_of_get hi
  have hmem : fs.getD i ([], []) ∈ fs := List.mem_of_getElem? hf
  generalize hF : fs.getD i ([], []) = F at hf hmem
  have hG : ∀ j, (av.set i (stepFn F.1 F.2 av)).getD j [] = if j = i then stepFn F.1 F.2 av else av.getD j [] :=
    fun j => getD_set av i j _ [] hil
  -- the new sets include the old ones
  have grow : ∀ j x, x ∈ av.getD j [] → x ∈ (av.set i (stepFn F.1 F.2 av)).getD j [] := by
    intro j x hx
    rw [hG]
    by_cases hj : j = i
    · rw [if_pos hj]; subst hj; exact h.post _ _ hf x hx
    · rw [if_neg hj]; exact hx
  refine ⟨by simp [h.len], ?_, ?_, ?_, ?_⟩
  · intro j
    rw [hG]
    by_cases hj : j = i
    · rw [if_pos hj]; exact nodup_stepFn _ _ _ (hn F hmem) h.nodup
    · rw [if_neg hj]; exact h.nodup j
  · intro j f hjf x hx
    rw [hG] at hx
    have old : x ∈ stepFn f.1 f.2 av := by
      by_cases hj : j = i
      · rw [if_pos hj] at hx
        rw [hj, hf] at hjf
        injection hjf with e
        rw [← e]; exact hx
      · rw [if_neg hj] at hx
        exact h.post j f hjf x hx
    rw [mem_stepFn] at old ⊢
    rcases old with o | ⟨k, hk, o⟩
    · exact Or.inl o
    · exact Or.inr ⟨k, hk, grow k x o⟩
  · intro j x hx
    rw [hG] at hx
    by_cases hj : j = i
    · rw [if_pos hj, mem_stepFn] at hx
      subst hj
      rcases hx with o | ⟨k, hk, o⟩
      · exact .own hf o
      · exact .call hf hk (h.sound k x o)
    · rw [if_neg hj] at hx; exact h.sound j x hx
  · intro j x hx
    rw [hG] at hx
    by_cases hj : j = i
    · rw [if_pos hj, mem_stepFn] at hx
      rcases hx with o | ⟨k, hk, o⟩
      · exact hU F hmem x o
      · exact h.bound k x o
    · rw [if_neg hj] at hx; exact h.bound j x hx

theorem Inv.complete {fs U av} (h : Inv fs U av)
    (hfix : ∀ i f, fs[i]? = some f → ∀ x ∈ stepFn f.1 f.2 av, x ∈ av.getD i []) (i : Nat) (x : Id) :
    x ∈ av.getD i [] ↔ Need fs i x := by
  refine ⟨h.sound i x, fun hn => ?_⟩
  induction hn with
  | own hf hx => exact hfix _ _ hf _ ((mem_stepFn _ _ _ _).2 (Or.inl hx))
  | call hf hj _ ih => exact hfix _ _ hf _ ((mem_stepFn _ _ _ _).2 (Or.inr ⟨_, hj, ih⟩))

/-- number of steps that suffice from a loop state. -/
def need (n i : Nat) (wrap : Bool) (rem : Nat) : Nat := (n - i + 1) + (if wrap then rem + 1 else rem) * (n + 1)

theorem evLoop_spec (fs : List (List Nat × List Id)) (U : List Id) (hU : ∀ f ∈ fs, ∀ x ∈ f.2, x ∈ U)
    (hn : ∀ f ∈ fs, f.2.Nodup) :
    ∀ (fuel i : Nat) (wrap : Bool) (av : List (List Id)), Inv fs U av → i ≤ fs.length →
      (wrap = false → ∀ j f, j < i → fs[j]? = some f → ∀ x ∈ stepFn f.1 f.2 av, x ∈ av.getD j []) →
      need fs.length i wrap (fs.length * U.length - total av) ≤ fuel →
      ∃ av', evLoop fs fuel i wrap av = some av' ∧ av'.length = fs.length ∧ (∀ i, (av'.getD i []).Nodup) ∧
        ∀ i x, x ∈ av'.getD i [] ↔ Need fs i x := by
  intro fuel
  induction fuel with
  | zero => intro i wrap av _ _ _ hb; unfold need at hb; omega
  | succ fuel ih =>
    intro i wrap av h hi hpre hb
    rw [evLoop]
    by_cases he : i = fs.length
    · rw [if_pos he]
      cases wrap with
      | true =>
        rw [if_pos rfl]
        refine ih 0 false av h (Nat.zero_le _) (fun _ j f hj => absurd hj (Nat.not_lt_zero j)) ?_
        unfold need at hb ⊢
        simp only [if_true, Bool.false_eq_true, if_false, he, Nat.succ_mul] at hb ⊢
        omega
      | false =>
        rw [if_neg (by simp)]
        refine ⟨av, rfl, h.len, h.nodup, h.complete (fun j f hf => hpre rfl j f ?_ hf)⟩
        rw [he]
        exact (List.getElem?_eq_some_iff.mp hf).1
    · rw [if_neg he]
      have hlt : i < fs.length := Nat.lt_of_le_of_ne hi he
      have hf := getD_of_get hlt
      simp only
      by_cases hs : seteq (stepFn (fs.getD i ([], [])).1 (fs.getD i ([], [])).2 av) (av.getD i []) = true
      · rw [if_pos hs]
        have heq := (c48_subset _ _).2.1 hs
        refine ih (i + 1) wrap av h hlt (fun hw j f hj hjf x hx => ?_) ?_
        · by_cases hji : j = i
          · subst hji
            rw [hf] at hjf
            injection hjf with e
            rw [← e] at hx
            exact (heq x).1 hx
          · exact hpre hw j f (by omega) hjf x hx
        · unfold need at hb ⊢
          omega
      · rw [if_neg hs]
        have hinv := h.step hU hn hlt
        have hlt' : (av.getD i []).length < (stepFn (fs.getD i ([], [])).1 (fs.getD i ([], [])).2 av).length := by
          have hsub := h.post i _ hf
          by_cases hex : ∃ y, y ∈ stepFn (fs.getD i ([], [])).1 (fs.getD i ([], [])).2 av ∧ y ∉ av.getD i []
          · obtain ⟨y, hy, hny⟩ := hex
            exact length_lt_of_ssubset (h.nodup i) hsub hy hny
          · refine absurd ((c48_subset _ _).2.2 (fun x => ⟨fun hx => ?_, hsub x⟩)) hs
            by_cases hxa : x ∈ av.getD i []
            · exact hxa
            · exact absurd ⟨x, hx, hxa⟩ hex
        have htot := total_set av i (stepFn (fs.getD i ([], [])).1 (fs.getD i ([], [])).2 av) (h.len ▸ hlt)
        have hle := hinv.total_le
        refine ih (i + 1) true _ hinv hlt (fun hw => by cases hw) ?_
        generalize total (av.set i (stepFn (fs.getD i ([], [])).1 (fs.getD i ([], [])).2 av)) = T' at *
        unfold need at hb ⊢
        simp only [if_true]
        have hm : (fs.length * U.length - T' + 1) * (fs.length + 1) ≤
            (if wrap = true then fs.length * U.length - total av + 1 else fs.length * U.length - total av) * (fs.length + 1) := by
          refine Nat.mul_le_mul_right _ ?_
          split <;> omega
        omega

/-! ### the specification is met -/

theorem need_iff (ids : List Id) (fvs : List (List Id)) (hn : ids.Nodup) (i : Nat) (x : Id) :
    Need (stepFns ids fvs) i x ↔ Needed ids fvs i x := by
  constructor
  · intro h
    induction h with
    | own hf hx =>
      simp only [stepFns, List.getElem?_map, Option.map_eq_some_iff] at hf
      obtain ⟨f, hf, rfl⟩ := hf
      have := (c48_members ⟨0, false⟩ _ f ids).2.2.2.1 hx
      exact .own hf this.1 this.2
    | call hf hj _ ih =>
      simp only [stepFns, List.getElem?_map, Option.map_eq_some_iff] at hf
      obtain ⟨f, hf, rfl⟩ := hf
      obtain ⟨y, hy, hp⟩ := List.mem_filterMap.mp hj
      have := (c48_members y y f ids).2.2.1.1 hy
      exact .call hf ((c48_posq y ids).1 _ |>.1 hp).1 this.1 ih
  · intro h
    induction h with
    | own hf hx hni =>
      refine .own (f := (calledIdx ids _, freeOuts ids _)) (by simp [stepFns, hf]; exact ⟨rfl, rfl⟩) ?_
      exact (c48_members ⟨0, false⟩ _ _ ids).2.2.2.2 ⟨hx, hni⟩
    | call hf hj hy _ ih =>
      refine .call (f := (calledIdx ids _, freeOuts ids _)) (by simp [stepFns, hf]; exact ⟨rfl, rfl⟩) ?_ ih
      refine List.mem_filterMap.mpr ⟨_, (c48_members ⟨0, false⟩ _ _ ids).2.2.1.2 ⟨hy, List.mem_of_getElem? hj⟩, ?_⟩
      refine ((c48_posq _ ids).1 _).2 ⟨hj, fun k hk hkk => ?_⟩
      have := (List.getElem?_inj (List.getElem?_eq_some_iff.mp hkk).1 hn).1 (hkk.trans hj.symm)
      omega

/-- C37: for every group of procedures the iteration stops by its own test within a number of steps bounded by
the sizes of the group, and procedure `i` is given exactly the variables it needs, each once: enough for itself
and for every procedure of the group it can reach, and no others (`Needed` is the least such family). -/
theorem c37_extra_vars (ids : List Id) (fvs : List (List Id)) (hi : ids.Nodup) (hf : ∀ f ∈ fvs, f.Nodup) :
    ∀ fuel, evBudget fvs ≤ fuel → ∃ av, extraVarsFuel fuel ids fvs = some av ∧ av.length = fvs.length ∧
      (∀ i, (av.getD i []).Nodup) ∧ ∀ i x, x ∈ av.getD i [] ↔ Needed ids fvs i x := by
  intro fuel hfu
  have hl : (stepFns ids fvs).length = fvs.length := by simp [stepFns]
  have hz : ∀ i, (List.replicate fvs.length ([] : List Id)).getD i [] = [] := by
    intro i
    rw [List.getD_eq_getElem?_getD, List.getElem?_replicate]
    split <;> rfl
  obtain ⟨av, e, h1, h2, h3⟩ := evLoop_spec (stepFns ids fvs) fvs.flatten
    (by
      intro f hf x hx
      obtain ⟨g, hg, rfl⟩ := List.mem_map.mp hf
      exact List.mem_flatten.mpr ⟨g, hg, ((c48_members x x g ids).2.2.2.1 hx).1⟩)
    (by
      intro f hff
      obtain ⟨g, hg, rfl⟩ := List.mem_map.mp hff
      exact (c48_nodup ⟨0, false⟩ g ids (hf g hg)).2.2.2)
    fuel 0 false (List.replicate fvs.length [])
    ⟨by simp [hl], fun i => by rw [hz]; exact List.nodup_nil, fun i f _ x hx => (by rw [hz] at hx; cases hx),
      fun i x hx => (by rw [hz] at hx; cases hx), fun i x hx => (by rw [hz] at hx; cases hx)⟩
    (Nat.zero_le _) (fun _ j f hj => absurd hj (Nat.not_lt_zero j))
    (by
      unfold need
      unfold evBudget at hfu
      rw [hl]
      simp only [Bool.false_eq_true, if_false]
      refine Nat.le_trans ?_ hfu
      rw [Nat.succ_mul]
      have : (fvs.length * fvs.flatten.length - total (List.replicate fvs.length [])) * (fvs.length + 1) ≤
          (fvs.length * fvs.flatten.length) * (fvs.length + 1) := Nat.mul_le_mul_right _ (Nat.sub_le _ _)
      omega)
  exact ⟨av, e, h1.trans hl, h2, fun i x => (h3 i x).trans (need_iff ids fvs hi i x)⟩

/-- Three procedures `f`, `g`, `h` in a cycle; only `h` uses the outer variable itself, and all of them need it. -/
example : extraVarsFuel (evBudget [[lexId 1], [lexId 2], [lexId 0, lexId 9]]) [lexId 0, lexId 1, lexId 2]
    [[lexId 1], [lexId 2], [lexId 0, lexId 9]] = some [[lexId 9], [lexId 9], [lexId 9]] := by decide +kernel

end Verif.Lift

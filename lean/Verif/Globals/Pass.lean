import Verif.Globals.Spec
import Verif.Globals.Sim
/-
The analysis of globals inlines as it should (C65).
-/
namespace Verif.Globals
open Verif.Core Verif.Sets
variable {W : Type}

/-! ### assignments -/

mutual
theorem gls_top (priv : Id → Bool) (top : Exp) : (e : Exp) → ∀ s, gls priv top e s = (topDefs e).filter (fun d => d.1.isGlobal && (priv d.1 || assignCount d.1 top = 1)) ++ s
  | .var _, s => by simp [gls, topDefs]
  | .set x e, s => by
    simp only [gls, topDefs, List.filter_cons, gls_top priv top e]
    by_cases h1 : x.isGlobal = true
    · by_cases h2 : priv x = true
      · simp [h1, h2]
      · by_cases h3 : assignCount x top = 1
        · simp [h1, h2, h3]
        · simp [h1, h2, h3]
    · simp [h1]
  | .ite a _ _, s => by simp only [gls, topDefs]; exact gls_top priv top a s
  | .prim _ _ es, s => by simp only [gls, topDefs]; exact glss_top priv top es s
  | .app (.lam ids b) es, s => by
    simp only [gls, topDefs]
    split
    · rw [glss_top priv top es, gls_top priv top b]; simp
    · rw [glss_top priv top es]; simp
  | .app (.var f) es, s | .app (.set f f') es, s | .app (.ite _ _ _) es, s | .app (.prim _ _ _) es, s | .app (.app f f') es, s
  | .app (.fix _ _ _) es, s | .app (.letcc _ _) es, s | .app (.withcc _ _) es, s => by
    rw [gls, topDefs, glss_top priv top es, gls_top priv top _]
    · simp
    all_goals simp
  | .lam _ _, s => by simp [gls, topDefs]
  | .fix _ _ b, s => by simp only [gls, topDefs]; exact gls_top priv top b s
  | .letcc _ b, s => by simp only [gls, topDefs]; exact gls_top priv top b s
  | .withcc k e, s => by simp only [gls, topDefs, gls_top priv top e, gls_top priv top k]; simp
theorem glss_top (priv : Id → Bool) (top : Exp) : (es : List Exp) → ∀ s, glss priv top es s = (topDefsAll es).filter (fun d => d.1.isGlobal && (priv d.1 || assignCount d.1 top = 1)) ++ s
  | [], s => by simp [glss, topDefsAll]
  | e :: es, s => by simp only [glss, topDefsAll, glss_top priv top es, gls_top priv top e]; simp
end

theorem defs_eq (priv : Id → Bool) (e : Exp) : defs priv e = (topDefs e).filter (fun d => d.1.isGlobal && (priv d.1 || assignCount d.1 e = 1)) := by
  rw [defs, gls_top]; simp

mutual
theorem top_sub : (e : Exp) → (topDefs e).Sublist (assigns e)
  | .var _ => by simp [topDefs]
  | .set x e => by simp only [topDefs, assigns]; exact (top_sub e).cons_cons _
  | .ite a _ _ => by
    simp only [topDefs, assigns, ← List.append_assoc]
    exact (top_sub a).trans (List.sublist_append_right _ _)
  | .prim _ _ es => by simp only [topDefs, assigns]; exact tops_sub es
  | .app (.lam ids b) es => by
    simp only [topDefs, assigns]
    refine (tops_sub es).append ?_
    split
    · exact top_sub b
    · exact List.nil_sublist _
  | .app (.var f) es | .app (.set f f') es | .app (.ite _ _ _) es | .app (.prim _ _ _) es | .app (.app f f') es
  | .app (.fix _ _ _) es | .app (.letcc _ _) es | .app (.withcc _ _) es => by
    rw [topDefs, assigns]
    · exact (tops_sub es).append (top_sub _)
    all_goals simp
  | .lam _ _ => by simp [topDefs]
  | .fix _ _ b => by simp only [topDefs, assigns]; exact (top_sub b).trans (List.sublist_append_right _ _)
  | .letcc _ b => by simp only [topDefs, assigns]; exact top_sub b
  | .withcc k e => by simp only [topDefs, assigns]; exact (top_sub e).append (top_sub k)
theorem tops_sub : (es : List Exp) → (topDefsAll es).Sublist (assignsAll es)
  | [] => by simp [topDefsAll]
  | e :: es => by simp only [topDefsAll, assignsAll]; exact (tops_sub es).append (top_sub e)
end

/-- the uses that are assignments of `x`. -/
def asg (x : Id) (u : Id × Use) : Bool := u.1 = x && u.2.assign

theorem loop_count (x : Id) : ∀ (vi : List (Id × Use)) (us : List Use), reduceLeft (fun (u : Use) n => if u.assign then n + 1 else n) 0 (varUses.loop x vi us) =
    vi.countP (asg x) + us.countP (fun u => u.assign) := by
  have red : ∀ (us : List Use) (n : Nat), reduceLeft (fun (u : Use) n => if u.assign then n + 1 else n) n us = n + us.countP (fun u => u.assign) := by
    intro us
    induction us with
    | nil => intro n; simp [reduceLeft]
    | cons u us ih =>
      intro n
      simp only [reduceLeft, ih, List.countP_cons]
      split <;> omega
  intro vi
  induction vi with
  | nil => intro us; simp [varUses.loop, red]
  | cons u vi ih =>
    intro us
    simp only [varUses.loop]
    by_cases h : x = u.1
    · rw [if_pos h, ih]
      simp only [List.countP_cons, asg]
      have h' : u.1 = x := h.symm
      simp only [h', decide_true, Bool.true_and]
      omega
    · rw [if_neg h, ih]
      simp [asg, List.countP_cons, Ne.symm h]

theorem assignCount_eq (x : Id) (e : Exp) : assignCount x e = (vinfo e).countP (asg x) := by
  rw [assignCount, varUses, loop_count]; simp

theorem count_keep {x : Id} {f : Id × Use → Bool} (h : ∀ u : Id × Use, u.1 = x → f u = true) (l : List (Id × Use)) : (keep f l).countP (asg x) = l.countP (asg x) := by
  rw [c48_keep, List.countP_filter]
  refine List.countP_congr (fun u _ => ?_)
  simp only [asg, Bool.and_eq_true, decide_eq_true_eq]
  constructor
  · exact fun h => h.1
  · exact fun h' => ⟨h', h u h'.1⟩

mutual
theorem vinfo_count {x : Id} (hx : x.isGlobal = true) : (e : Exp) → (∀ y ∈ binders e, y.isGlobal = false) → (vinfo e).countP (asg x) = (assigns e).countP (fun d => d.1 = x)
  | .var y, _ => by simp [vinfo, assigns, asg]
  | .set y e, h => by
    simp only [vinfo, assigns, List.countP_cons, vinfo_count hx e (fun z hz => h z (by simpa [binders] using hz))]
    simp [asg]
  | .ite a b c, h => by
    simp only [vinfo, assigns, List.countP_append, vinfo_count hx a (fun z hz => h z (by simp [binders, hz])), vinfo_count hx b (fun z hz => h z (by simp [binders, hz])),
      vinfo_count hx c (fun z hz => h z (by simp [binders, hz]))]
    omega
  | .prim _ _ es, h => by
    simp only [vinfo, assigns, vinfoPrim_count hx es (fun z hz => h z (by simpa [binders] using hz))]
    simp
  | .app f es, h => by
    have h1 := vinfo_count hx f (fun z hz => h z (by simp [binders, hz]))
    have h2 := fun base => vinfoAll_count hx es (fun z hz => h z (by simp [binders, hz])) (base := base)
    cases f with
    | var y => simp [vinfo, assigns, h2, asg]
    | _ => rw [vinfo, assigns, List.countP_append, ← h1, h2]; simp
  | .lam ids b, h => by
    rw [vinfo, count_keep]
    · rw [assigns]; exact vinfo_count hx b (fun z hz => h z (by simp [binders, hz]))
    · intro u hu
      have : u.1 ∉ ids := fun hm => by have := h u.1 (by simp [binders, hm]); rw [hu, hx] at this; cases this
      rw [← memq_iff] at this; simpa using this
  | .fix ids lams b, h => by
    rw [vinfo, count_keep]
    · rw [assigns, vinfoAll_count hx lams (fun z hz => h z (by simp [binders, hz])), List.countP_append, vinfo_count hx b (fun z hz => h z (by simp [binders, hz]))]
    · intro u hu
      have : u.1 ∉ ids := fun hm => by have := h u.1 (by simp [binders, hm]); rw [hu, hx] at this; cases this
      rw [← memq_iff] at this; simpa using this
  | .letcc y b, h => by
    rw [vinfo, count_keep]
    · rw [assigns]; exact vinfo_count hx b (fun z hz => h z (by simp [binders, hz]))
    · intro u hu
      have : u.1 ≠ y := fun hm => by have := h y (by simp [binders]); rw [← hm, hu, hx] at this; cases this
      simpa using this
  | .withcc k e, h => by
    simp only [vinfo, assigns, List.countP_append, vinfo_count hx k (fun z hz => h z (by simp [binders, hz])), vinfo_count hx e (fun z hz => h z (by simp [binders, hz]))]
    omega
theorem vinfoPrim_count {x : Id} (hx : x.isGlobal = true) : (es : List Exp) → (∀ y ∈ bindersAll es, y.isGlobal = false) → ∀ {base : List (Id × Use)},
    (vinfoPrim es base).countP (asg x) = (assignsAll es).countP (fun d => d.1 = x) + base.countP (asg x)
  | [], _, base => by simp [vinfoPrim, assignsAll]
  | e :: es, h, base => by
    simp only [vinfoPrim, assignsAll, vinfoPrim_count hx es (fun z hz => h z (by simp [bindersAll, hz])), List.countP_append, vinfo_count hx e (fun z hz => h z (by simp [bindersAll, hz]))]
    omega
theorem vinfoAll_count {x : Id} (hx : x.isGlobal = true) : (es : List Exp) → (∀ y ∈ bindersAll es, y.isGlobal = false) → ∀ {base : List (Id × Use)},
    (vinfoAll es base).countP (asg x) = (assignsAll es).countP (fun d => d.1 = x) + base.countP (asg x)
  | [], _, base => by simp [vinfoAll, assignsAll]
  | e :: es, h, base => by
    simp only [vinfoAll, assignsAll, vinfoAll_count hx es (fun z hz => h z (by simp [bindersAll, hz])), List.countP_append, vinfo_count hx e (fun z hz => h z (by simp [bindersAll, hz]))]
    omega
end

theorem assignCount_times {x : Id} {e : Exp} (hx : x.isGlobal = true) (h : ∀ y ∈ binders e, y.isGlobal = false) : assignCount x e = timesAssigned x e := by
  rw [assignCount_eq, vinfo_count hx e h]; rfl

end Verif.Globals

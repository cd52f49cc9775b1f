import Verif.Exc.Spec
/-
What the thunks called on the way between dynamic states do.
-/
namespace Verif.Exc
open Wind (Tree Extent inside left thunks WF)
variable {W : Type}

/-- the effect of a `before` thunk on the parameters. -/
def eff : Thunk W → Cells → Cells
  | .user _, c => c
  | .sets l, c => setAll l c

/-- the values of the parameters inside of extents. -/
def envL (t : Tree (Thunk W)) (E0 : Cells) : List Nat → Cells
  | [] => E0
  | x :: l =>
    match t[x - 1]? with
    | some e => eff e.before (envL t E0 l)
    | none => envL t E0 l

def env (t : Tree (Thunk W)) (E0 : Cells) (x : Nat) : Cells := envL t E0 (inside t x)

/-- the call of `dynamic-wind` an extent belongs to. -/
def wnd (t : Tree (Thunk W)) (E0 : Cells) (x : Nat) : Option (Spec.Wnd W) :=
  match t[x - 1]? with
  | some ⟨p, .user b, .user a⟩ => some ⟨x, b, a, user (env t E0 p)⟩
  | _ => none

def wsOf (t : Tree (Thunk W)) (E0 : Cells) (l : List Nat) : List (Spec.Wnd W) := l.filterMap (wnd t E0)

/-- extents made by `dynamic-wind` and `parameterize`. -/
def GoodE (E : Cells) : Thunk W → Thunk W → Prop
  | .user _, .user _ => True
  | .sets l, .sets l' => setAll l' (setAll l E) = E
  | _, _ => False

structure Good (t : Tree (Thunk W)) (E0 : Cells) : Prop where
  wf : WF t
  ok : ∀ (x : Nat) (e : Extent (Thunk W)), t[x]? = some e → GoodE (env t E0 e.parent) e.before e.after

theorem env_succ {t : Tree (Thunk W)} {E0 : Cells} (hw : WF t) {x : Nat} {e : Extent (Thunk W)} (h : t[x]? = some e) :
    env t E0 (x + 1) = eff e.before (env t E0 e.parent) := by
  unfold env
  rw [Wind.inside_succ hw h, envL]
  simp [h]

theorem wnd_id {t : Tree (Thunk W)} {E0 : Cells} {x : Nat} {e : Spec.Wnd W} (h : wnd t E0 x = some e) : e.id = x := by
  unfold wnd at h
  split at h
  · injection h with h; rw [← h]
  · cases h

theorem only_ws {t : Tree (Thunk W)} {E0 : Cells} (l l' : List Nat) :
    Spec.only (wsOf t E0 l) (wsOf t E0 l') = wsOf t E0 (l.filter (fun e => !l'.contains e)) := by
  unfold Spec.only
  induction l with
  | nil => rfl
  | cons x l ih =>
    have key : ∀ e, wnd t E0 x = some e → (wsOf t E0 l').any (fun e' => e'.id == e.id) = l'.contains x := by
      intro e he
      have hid := wnd_id he
      rw [Bool.eq_iff_iff]
      simp only [List.any_eq_true, beq_iff_eq, List.contains_eq_mem, decide_eq_true_eq, wsOf, List.mem_filterMap]
      constructor
      · rintro ⟨e', ⟨y, hy, hye⟩, h⟩
        rw [wnd_id hye, hid] at h
        rw [← h]; exact hy
      · intro h
        exact ⟨e, ⟨x, h, he⟩, rfl⟩
    rw [List.filter_cons]
    cases hx : wnd t E0 x with
    | none =>
      have : wsOf t E0 (x :: l) = wsOf t E0 l := by simp [wsOf, hx]
      rw [this, ih]
      split
      · simp [wsOf, hx]
      · rfl
    | some e =>
      have : wsOf t E0 (x :: l) = e :: wsOf t E0 l := by simp [wsOf, hx]
      rw [this, List.filter_cons, key e hx, ih]
      split
      · simp [wsOf, hx]
      · rfl

/-- on the way from `c` to `y`, control goes out to some extent and in again. -/
theorem meet {t : Tree (Thunk W)} (hw : WF t) {c : Nat} (hc : c ≤ t.length) : ∀ (y : Nat), y ≤ t.length →
    ∃ m, m ≤ t.length ∧ inside t c = left t c y ++ inside t m ∧ inside t y = left t y c ++ inside t m := by
  intro y
  induction y using Nat.strongRecOn with
  | _ y ih =>
    intro hy
    by_cases hin : y = 0 ∨ y ∈ inside t c
    · obtain ⟨pre, h⟩ : ∃ pre, inside t c = pre ++ inside t y := by
        rcases hin with rfl | hin
        · exact ⟨_, by rw [Wind.inside_zero, List.append_nil]⟩
        · exact Wind.inside_suffix hw hc hin
      obtain ⟨l1, l2⟩ := Wind.left_of_suffix hw hc h
      exact ⟨y, hy, by rw [l1]; exact h, by rw [l2]; rfl⟩
    · rw [not_or] at hin
      obtain ⟨x, rfl⟩ : ∃ x, y = x + 1 := ⟨y - 1, by omega⟩
      obtain ⟨e, he⟩ := Wind.get_some (show x < t.length by omega)
      have hp := hw x e he
      obtain ⟨m, h0, h1, h2⟩ := ih e.parent (by omega) (by omega)
      have hl1 : left t c (x + 1) = left t c e.parent := by
        unfold left
        apply List.filter_congr
        intro a ha
        rw [Wind.inside_succ hw he]
        have : a ≠ x + 1 := by rintro rfl; exact hin.2 ha
        simp [this]
      have hl2 : left t (x + 1) c = (x + 1) :: left t e.parent c := by
        unfold left
        rw [Wind.inside_succ hw he, List.filter_cons, if_pos]
        simpa using hin.2
      refine ⟨m, h0, by rw [hl1]; exact h1, ?_⟩
      rw [hl2, Wind.inside_succ hw he, h2]
      simp

theorem runThunks_append (l l' : List (Thunk W)) (s : Cells × W) : runThunks (l ++ l') s = runThunks l' (runThunks l s) := by
  induction l generalizing s with
  | nil => rfl
  | cons a l ih => obtain ⟨c, w⟩ := s; cases a <;> simp [runThunks, ih]

theorem leave_thunks {t : Tree (Thunk W)} {E0 : Cells} (hG : Good t E0) {m : Nat} (hm : m ≤ t.length) : ∀ (pre : List Nat) (c : Nat) (w : W), c ≤ t.length →
    inside t c = pre ++ inside t m →
    runThunks (pre.filterMap (fun e => t[e - 1]?.map (·.after))) (env t E0 c, w) = (env t E0 m, (wsOf t E0 pre).foldl (fun w e => e.after e.ps w) w) := by
  intro pre
  induction pre with
  | nil =>
    intro c w hc h
    have : c = m := Wind.inside_inj hG.wf hc hm (by simpa using h)
    subst this; rfl
  | cons z pre ih =>
    intro c w hc h
    cases c with
    | zero => rw [Wind.inside_zero] at h; simp at h
    | succ x =>
      obtain ⟨e, he⟩ := Wind.get_some (show x < t.length by omega)
      have hp := hG.wf x e he
      rw [Wind.inside_succ hG.wf he] at h
      simp only [List.cons_append, List.cons.injEq] at h
      obtain ⟨rfl, h⟩ := h
      have hok := hG.ok x e he
      rw [env_succ hG.wf he]
      obtain ⟨p, b, a⟩ := e
      have hx : t[x + 1 - 1]? = some ⟨p, b, a⟩ := he
      rw [List.filterMap_cons, hx]
      simp only [Option.map_some]
      cases b with
      | user b =>
        cases a with
        | user a =>
          have hwx : wnd t E0 (x + 1) = some ⟨x + 1, b, a, user (env t E0 p)⟩ := by unfold wnd; rw [hx]
          simp only [eff, runThunks]
          rw [ih p _ (by simp at hp; omega) h]
          simp [wsOf, hwx]
        | sets l => exact absurd hok id
      | sets l =>
        cases a with
        | user a => exact absurd hok id
        | sets l' =>
          have hwx : wnd t E0 (x + 1) = none := by unfold wnd; rw [hx]
          simp only [eff, runThunks]
          have : setAll l' (setAll l (env t E0 p)) = env t E0 p := hok
          rw [this, ih p _ (by simp at hp; omega) h]
          simp [wsOf, hwx]

theorem enter_thunks {t : Tree (Thunk W)} {E0 : Cells} (hG : Good t E0) {m : Nat} (hm : m ≤ t.length) : ∀ (pre : List Nat) (y : Nat) (w : W), y ≤ t.length →
    inside t y = pre ++ inside t m →
    runThunks (pre.reverse.filterMap (fun e => t[e - 1]?.map (·.before))) (env t E0 m, w) = (env t E0 y, (wsOf t E0 pre).reverse.foldl (fun w e => e.before e.ps w) w) := by
  intro pre
  induction pre with
  | nil =>
    intro c w hc h
    have : c = m := Wind.inside_inj hG.wf hc hm (by simpa using h)
    subst this; rfl
  | cons z pre ih =>
    intro c w hc h
    cases c with
    | zero => rw [Wind.inside_zero] at h; simp at h
    | succ x =>
      obtain ⟨e, he⟩ := Wind.get_some (show x < t.length by omega)
      have hp := hG.wf x e he
      rw [Wind.inside_succ hG.wf he] at h
      simp only [List.cons_append, List.cons.injEq] at h
      obtain ⟨rfl, h⟩ := h
      have hok := hG.ok x e he
      rw [env_succ hG.wf he]
      obtain ⟨p, b, a⟩ := e
      have hx : t[x + 1 - 1]? = some ⟨p, b, a⟩ := he
      rw [List.reverse_cons, List.filterMap_append, runThunks_append, ih p _ (by simp at hp; omega) h, List.filterMap_cons, hx]
      simp only [Option.map_some, List.filterMap_nil]
      cases b with
      | user b =>
        cases a with
        | user a =>
          have hwx : wnd t E0 (x + 1) = some ⟨x + 1, b, a, user (env t E0 p)⟩ := by unfold wnd; rw [hx]
          simp [eff, runThunks, wsOf, hwx, List.foldl_append]
        | sets l => exact absurd hok id
      | sets l =>
        have hwx : wnd t E0 (x + 1) = none := by unfold wnd; rw [hx]
        simp [eff, runThunks, wsOf, hwx]

/-- The thunks called on the way set the parameters, and do to the world what the specification says. -/
theorem run_thunks {t : Tree (Thunk W)} {E0 : Cells} (hG : Good t E0) {c y : Nat} (hc : c ≤ t.length) (hy : y ≤ t.length) (w : W) :
    runThunks (thunks t c y) (env t E0 c, w) = (env t E0 y, Spec.travel (wsOf t E0 (inside t c)) (wsOf t E0 (inside t y)) w) := by
  obtain ⟨m, hm, h1, h2⟩ := meet hG.wf hc y hy
  unfold thunks Wind.entered
  rw [runThunks_append, leave_thunks hG hm _ c w hc h1, enter_thunks hG hm _ y _ hy h2]
  unfold Spec.travel
  rw [only_ws, only_ws]
  rfl

end Verif.Exc

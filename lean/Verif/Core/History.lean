import Verif.Core.Trace
import Verif.Core.Cells
/-
Machines that record the worlds they go through.  A statement about results and worlds that holds for all meanings of the
primitives holds for the recording ones, too, and so is a statement about the whole sequence of worlds.
-/
namespace Verif.Core
variable {W : Type}

open Classical in
/-- The same primitives; the world keeps the list of the worlds it became. -/
noncomputable def Sem.recd (M : Sem W) : Sem (W × List W) :=
  ⟨fun n vs h => (M.op n vs h.1).map (fun r => (r.1, (r.2, if r.2 = h.1 then h.2 else h.2 ++ [r.2])))⟩

/-- the store without the record. -/
def Store.cur (σ : Store (W × List W)) : Store W := ⟨σ.glob, σ.heap, σ.world.1⟩

/-- the state without the record. -/
def State.cur : State (W × List W) → State W
  | .ev e ρ κ σ => .ev e ρ κ σ.cur
  | .args op es d todo ρ κ σ => .args op es d todo ρ κ σ.cur
  | .ap f vs κ σ => .ap f vs κ σ.cur
  | .ret v κ σ => .ret v κ σ.cur
  | .done v w => .done v w.1

/-- how a record grows. -/
def Grows (h h' : W × List W) : Prop := h' = h ∨ (h'.1 ≠ h.1 ∧ h'.2 = h.2 ++ [h'.1])

/-- Machines whose steps use the world for calls of primitives only. -/
structure Recordable (F : {W : Type} → Sem W → State W → Option (State W)) : Prop where
  cur : ∀ {W : Type} (M : Sem W) (s : State (W × List W)), F M s.cur = (F M.recd s).map State.cur
  grows : ∀ {W : Type} (M : Sem W) (s s' : State (W × List W)), F M.recd s = some s' → Grows s.world s'.world
  done : ∀ {W : Type} (M : Sem W) (v : Val) (w : W), F M (.done v w) = none

theorem State.cur_world (s : State (W × List W)) : s.cur.world = s.world.1 := by cases s <;> rfl

theorem doPrim_cur (M : Sem W) (p : PrimName) (vs : List Val) (σ : Store (W × List W)) :
    doPrim M p vs σ.cur = (doPrim M.recd p vs σ).map (fun r => match r with | .ok v σ' => .ok v σ'.cur | .stop v => .stop v) := by
  unfold doPrim
  split
  all_goals (try rfl)
  · rename_i a
    show (σ.heap[a]?).map _ = _
    cases σ.heap[a]? <;> rfl
  · rename_i a v
    by_cases e : a < σ.heap.length
    · rw [if_pos (show a < σ.cur.heap.length from e), if_pos e]; rfl
    · rw [if_neg (show ¬ a < σ.cur.heap.length from e), if_neg e]; rfl
  · simp only [Sem.recd, Store.cur]
    cases M.op _ _ σ.world.1 <;> rfl

theorem doPrim_grows (M : Sem W) {p : PrimName} {vs : List Val} {σ σ' : Store (W × List W)} {v : Val}
    (h : doPrim M.recd p vs σ = some (.ok v σ')) : Grows σ.world σ'.world := by
  unfold doPrim at h
  split at h
  all_goals (try (first | (cases h; exact Or.inl rfl) | cases h))
  · rename_i a
    cases hh : σ.heap[a]? with
    | none => rw [hh] at h; cases h
    | some u => rw [hh] at h; cases h; exact Or.inl rfl
  · split at h
    · cases h; exact Or.inl rfl
    · cases h
  · simp only [Sem.recd] at h
    cases hh : M.op _ _ σ.world.1 with
    | none => rw [hh] at h; cases h
    | some r =>
      rw [hh] at h
      simp only [Option.map_some] at h
      cases h
      by_cases e : r.2 = σ.world.1
      · left; simp only [e, if_true]
      · right; exact ⟨e, by simp only [e, if_false]⟩

theorem step_recordable (ord : Op → List Exp → List Nat) : Recordable (fun {W} (M : Sem W) => step M ord) := by
  refine ⟨fun M s => ?_, fun M s s' h => ?_, fun _ _ _ => rfl⟩
  · cases s with
    | ev e ρ κ σ =>
      cases e with
      | var x =>
        simp only [State.cur, step, Store.cur]
        split <;> rfl
      | set x e =>
        simp only [State.cur, step]
        split <;> rfl
      | _ => rfl
    | args op es d todo ρ κ σ =>
      cases todo with
      | cons i todo =>
        simp only [State.cur, step]
        cases es[i]? <;> rfl
      | nil =>
        cases op with
        | prim eff p =>
          simp only [State.cur, step, doPrim_cur]
          cases doPrim M.recd p (vals d es.length) σ with
          | none => rfl
          | some r => cases r <;> rfl
        | call =>
          simp only [State.cur, step]
          cases vals d es.length <;> rfl
    | ap f vs κ σ =>
      cases f with
      | clos ids b ρ =>
        simp only [State.cur, step]
        by_cases e : ids.length = vs.length
        · rw [if_pos e, if_pos e]; rfl
        · rw [if_neg e, if_neg e]; rfl
      | rclos ids lams i ρ =>
        simp only [State.cur, step]
        rcases lams[i]? with _ | l
        · rfl
        · cases l with
          | lam ps b =>
            simp only
            by_cases e : ps.length = vs.length
            · rw [if_pos e, if_pos e]; rfl
            · rw [if_neg e, if_neg e]; rfl
          | _ => rfl
      | cont κ' =>
        cases vs with
        | nil => rfl
        | cons v vs => cases vs <;> rfl
      | _ => rfl
    | ret v κ σ =>
      cases κ with
      | withcc e ρ =>
        simp only [State.cur, step]
        by_cases e : v.view = .proc
        · rw [if_pos e, if_pos e]; rfl
        · rw [if_neg e, if_neg e]; rfl
      | _ => rfl
    | done v w => rfl
  · unfold step at h
    split at h
    all_goals (try (first | (cases h; exact Or.inl rfl) | (cases h; done)))
    all_goals (split at h)
    all_goals (try (first | (cases h; exact Or.inl rfl) | (cases h; done)))
    · rename_i h1
      cases h
      exact doPrim_grows M h1
    · split at h
      · cases h; exact Or.inl rfl
      · cases h

theorem cstep_recordable (ord : Op → List Exp → List Nat) : Recordable (fun {W} (M : Sem W) => cstep M ord) := by
  refine ⟨fun M s => ?_, fun M s s' h => ?_, fun _ _ _ => rfl⟩
  · have key : ∀ s, cstep M ord (State.cur s) = step M ord (State.cur s) → cstep M.recd ord s = step M.recd ord s →
        cstep M ord (State.cur s) = (cstep M.recd ord s).map State.cur := by
      intro s h1 h2
      rw [h1, h2]
      exact (step_recordable ord).cur M s
    cases s with
    | ev e ρ κ σ =>
      cases e with
      | var x =>
        simp only [State.cur, cstep, Store.cur]
        split <;> rfl
      | set x e =>
        simp only [State.cur, cstep]
        by_cases hx : x.isGlobal = true
        · rw [if_pos hx, if_pos hx]; rfl
        · rw [if_neg hx, if_neg hx]
          rcases ρ.lookup x with _ | v
          · rfl
          · cases v <;> rfl
      | letcc x b => rfl
      | _ => exact key _ rfl rfl
    | ap f vs κ σ =>
      cases f with
      | clos ids b ρ =>
        simp only [State.cur, cstep]
        by_cases e : ids.length = vs.length
        · rw [if_pos e, if_pos e]; rfl
        · rw [if_neg e, if_neg e]; rfl
      | rclos ids lams i ρ =>
        simp only [State.cur, cstep]
        rcases lams[i]? with _ | l
        · rfl
        · cases l with
          | lam ps b =>
            simp only
            by_cases e : ps.length = vs.length
            · rw [if_pos e, if_pos e]; rfl
            · rw [if_neg e, if_neg e]; rfl
          | _ => rfl
      | _ => exact key _ rfl rfl
    | _ => exact key _ rfl rfl
  · unfold cstep at h
    split at h
    · split at h
      · cases h; exact Or.inl rfl
      · cases h
    · split at h
      · cases h; exact Or.inl rfl
      · split at h
        · cases h; exact Or.inl rfl
        · cases h
    · cases h; exact Or.inl rfl
    · split at h
      · cases h; exact Or.inl rfl
      · cases h
    · split at h
      · split at h
        · cases h; exact Or.inl rfl
        · cases h
      · cases h
    · exact (step_recordable ord).grows M _ _ h

/-! ### sequences of worlds -/

section
variable {F : {W : Type} → Sem W → State W → Option (State W)}

theorem Recordable.iter (hF : Recordable F) (M : Sem W) : ∀ (n : Nat) (s : State (W × List W)),
    Core.iter (F M) n s.cur = (Core.iter (F M.recd) n s).map State.cur := by
  intro n
  induction n with
  | zero => intro s; rfl
  | succ n ih =>
    intro s
    simp only [Core.iter, hF.cur]
    cases F M.recd s with
    | none => rfl
    | some t => exact ih t

theorem Recordable.reach (hF : Recordable F) {M : Sem W} {s s' : State (W × List W)} (h : Reach (F M.recd) s s') : Reach (F M) s.cur s'.cur := by
  obtain ⟨n, hn⟩ := h
  exact ⟨n, by rw [hF.iter, hn]; rfl⟩

theorem Recordable.reach' (hF : Recordable F) {M : Sem W} {s : State (W × List W)} {u : State W} (h : Reach (F M) s.cur u) :
    ∃ s', Reach (F M.recd) s s' ∧ s'.cur = u := by
  obtain ⟨n, hn⟩ := h
  rw [hF.iter] at hn
  obtain ⟨s', h1, h2⟩ := Option.map_eq_some_iff.mp hn
  exact ⟨s', ⟨n, h1⟩, h2⟩

theorem Recordable.fails (hF : Recordable F) {M : Sem W} {s : State (W × List W)} (h : Fails (F M.recd) s) : Fails (F M) s.cur := by
  obtain ⟨s', h1, h2, h3⟩ := h
  refine ⟨s'.cur, hF.reach h1, by rw [hF.cur, h2]; rfl, fun v w e => ?_⟩
  cases s' with
  | done v' w' => exact h3 v' w' rfl
  | _ => cases e

/-- The record of a run is the sequence of its worlds. -/
theorem Recordable.visits (hF : Recordable F) {M : Sem W} {s : State (W × List W)} {ws : List W} (h : Visits (F M) s.cur ws) :
    ∃ s' l, Reach (F M.recd) s s' ∧ s'.world.2 = s.world.2 ++ l ∧ ws = s.world.1 :: l := by
  generalize hu : s.cur = u at h
  induction h generalizing s with
  | here u =>
    subst hu
    exact ⟨s, [], Reach.refl s, by simp, by rw [State.cur_world]⟩
  | @same u u' ws h1 h2 _ ih =>
    subst hu
    rw [hF.cur] at h1
    obtain ⟨t, h3, h4⟩ := Option.map_eq_some_iff.mp h1
    subst h4
    rw [State.cur_world, State.cur_world] at h2
    obtain ⟨s', l, r, e1, e2⟩ := ih rfl
    have e : t.world = s.world := by
      rcases hF.grows M s t h3 with e | ⟨e, _⟩
      · exact e
      · exact absurd h2 e
    exact ⟨s', l, Reach.cons h3 r, by rw [e1, e], by rw [e2, e]⟩
  | @new u u' ws h1 h2 _ ih =>
    subst hu
    rw [hF.cur] at h1
    obtain ⟨t, h3, h4⟩ := Option.map_eq_some_iff.mp h1
    subst h4
    rw [State.cur_world, State.cur_world] at h2
    obtain ⟨s', l, r, e1, e2⟩ := ih rfl
    have e : t.world.2 = s.world.2 ++ [t.world.1] := by
      rcases hF.grows M s t h3 with e | ⟨_, e⟩
      · exact absurd (by rw [e]) h2
      · exact e
    exact ⟨s', t.world.1 :: l, Reach.cons h3 r, by rw [e1, e]; simp, by rw [e2, State.cur_world]⟩

theorem Recordable.visits' (hF : Recordable F) {M : Sem W} : ∀ (n : Nat) {s s' : State (W × List W)}, Core.iter (F M.recd) n s = some s' →
    ∃ l, s'.world.2 = s.world.2 ++ l ∧ Visits (F M) s.cur (s.world.1 :: l) := by
  intro n
  induction n with
  | zero =>
    intro s s' h
    simp only [Core.iter] at h
    cases h
    exact ⟨[], by simp, by rw [← State.cur_world]; exact .here _⟩
  | succ n ih =>
    intro s s' h
    simp only [Core.iter] at h
    cases h1 : F M.recd s with
    | none => rw [h1] at h; cases h
    | some t =>
      rw [h1] at h
      obtain ⟨l, e, hv⟩ := ih h
      have hs : F M s.cur = some t.cur := by rw [hF.cur, h1]; rfl
      rcases hF.grows M s t h1 with g | ⟨g1, g2⟩
      · refine ⟨l, by rw [e, g], ?_⟩
        rw [← g]
        exact .same hs (by rw [State.cur_world, State.cur_world, g]) hv
      · refine ⟨t.world.1 :: l, by rw [e, g2]; simp, ?_⟩
        rw [← State.cur_world]
        exact .new hs (by rw [State.cur_world, State.cur_world]; exact g1) hv

end

/-- Parts of a sequence of worlds. -/
theorem Visits.prefix {f : State W → Option (State W)} {s : State W} {ws : List W} (h : Visits f s ws) : ∀ {a : W} {l l' : List W}, ws = a :: (l ++ l') → Visits f s (a :: l) := by
  induction h with
  | here s =>
    intro a l l' e
    simp only [List.cons.injEq, List.nil_eq, List.append_eq_nil_iff] at e
    obtain ⟨rfl, rfl, _⟩ := e
    exact .here s
  | same h1 h2 _ ih => intro a l l' e; exact .same h1 h2 (ih e)
  | @new s s' ws h1 h2 hv ih =>
    intro a l l' e
    injection e with e1 e2
    subst e1
    cases l with
    | nil => exact .here s
    | cons b l => exact .new h1 h2 (ih e2)

/-- the record at the start. -/
def Store.fresh (σ : Store W) : Store (W × List W) := ⟨σ.glob, σ.heap, (σ.world, [])⟩

theorem trace_of {F G : {W : Type} → Sem W → State W → Option (State W)} (hF : Recordable F) (hG : Recordable G) {M : Sem W} {s t : State (W × List W)}
    (hw : s.world = t.world)
    (h : ∀ s', Reach (F M.recd) s s' → ∃ s'' t'', Reach (F M.recd) s' s'' ∧ Reach (G M.recd) t t'' ∧ s''.world = t''.world)
    {ws : List W} (hv : Visits (F M) s.cur ws) : Visits (G M) t.cur ws := by
  obtain ⟨s', l, r, e1, e2⟩ := hF.visits hv
  obtain ⟨s'', t'', ⟨n, r1⟩, ⟨m, r2⟩, e⟩ := h s' r
  obtain ⟨l1, e3, _⟩ := hF.visits' n r1
  obtain ⟨l2, e4, hv2⟩ := hG.visits' m r2
  have : l2 = l ++ l1 := by
    rw [← e, e3, e1, hw, List.append_assoc] at e4
    exact (List.append_cancel_left e4).symm
  rw [this] at hv2
  rw [e2, hw]
  exact hv2.prefix rfl

/-- If two machines have the same behaviour for all meanings of the primitives then they go through the same sequence of
worlds. -/
theorem SameBehaviour.behaves {F G : {W : Type} → Sem W → State W → Option (State W)} (hF : Recordable F) (hG : Recordable G) {M : Sem W}
    {s t : State (W × List W)} (hw : s.world = t.world) (h : SameBehaviour (F M.recd) (G M.recd) s t) : Behaves (F M) (G M) s.cur t.cur := by
  have res : ∀ v w, Reach (F M) s.cur (.done v w) → ∃ v', Reach (G M) t.cur (.done v' w) ∧ v.view = v'.view := by
    intro v w hr
    obtain ⟨s', h1, h2⟩ := hF.reach' hr
    cases s' with
    | done v1 w1 =>
      injection h2 with e1 e2
      subst e1; subst e2
      obtain ⟨v', h3, h4⟩ := h.result _ _ h1
      exact ⟨v', hG.reach h3, h4⟩
    | _ => cases h2
  refine ⟨fun hg => ?_, res, ?_, ?_, ?_⟩
  · refine Classical.byContradiction fun hf => ?_
    by_cases hd : ∃ v w, Reach (F M) s.cur (.done v w)
    · obtain ⟨v, w, hr⟩ := hd
      obtain ⟨v', ⟨n, hn⟩, _⟩ := res v w hr
      obtain ⟨c, ⟨m, hm⟩, h1, h2⟩ := hg
      rcases reach_total ⟨n, hn⟩ ⟨m, hm⟩ with r | r
      · have := reach_final (hG.done M v' w) r
        exact h2 _ _ this
      · have := reach_final h1 r
        exact h2 _ _ this.symm
    · have hall : ∀ n, (iter (F M) n s.cur).isSome := by
        intro n
        induction n with
        | zero => rfl
        | succ n ih =>
          obtain ⟨u, hu⟩ := Option.isSome_iff_exists.mp ih
          rw [run_add n 1, hu]
          simp only [Option.bind_some, iter]
          cases h1 : F M u with
          | some c => rfl
          | none =>
            refine (hf ⟨u, ⟨n, hu⟩, h1, fun v w e => ?_⟩).elim
            subst e; exact hd ⟨v, w, n, hu⟩
      rcases h.diverge with hf' | hdiv
      · exact hf (hF.fails hf')
      · obtain ⟨c, ⟨n, hn⟩, h1, _⟩ := hg
        have h2 : (iter (G M.recd) (n + 1) t).isSome := hdiv (fun n => by
          have := hall n
          rw [hF.iter] at this
          simpa using this) (n + 1)
        have h3 : (iter (G M) (n + 1) t.cur).isSome := by rw [hG.iter]; simpa using h2
        rw [run_add n 1, hn] at h3
        simp [iter, h1] at h3
  · intro v' w hr
    obtain ⟨t', h1, h2⟩ := hG.reach' hr
    cases t' with
    | done v1 w1 =>
      injection h2 with e1 e2
      subst e1; subst e2
      rcases h.result' _ _ h1 with hf | ⟨v, h3, h4⟩
      · exact Or.inl (hF.fails hf)
      · exact Or.inr ⟨v, hF.reach h3, h4⟩
    | _ => cases h2
  · intro ws hv
    by_cases hf : Fails (F M.recd) s
    · exact Or.inl (hF.fails hf)
    · exact Or.inr (trace_of hF hG hw (fun s' r => (h.world s' r).resolve_left hf) hv)
  · intro ws hv
    by_cases hf : Fails (F M.recd) s
    · exact Or.inl (hF.fails hf)
    · refine Or.inr (trace_of hG hF hw.symm (fun t' r => ?_) hv)
      obtain ⟨s'', t'', r1, r2, e⟩ := (h.world' t' r).resolve_left hf
      exact ⟨t'', s'', r2, r1, e.symm⟩

end Verif.Core

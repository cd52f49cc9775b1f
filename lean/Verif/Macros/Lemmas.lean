import Verif.Macros.Model
/-
Lemmas on patterns, bindings and templates.
-/
namespace Verif.Macros

theorem listIds_acc (m : Macro) (pred : Key → Bool) : ∀ (p : Sx) (inc : Bool) (l : List Key),
    listIds m pred p inc l = listIds m pred p inc [] ++ l
  | .nil, _, _ => by simp [listIds]
  | .atom _, _, _ => by simp [listIds]
  | .sid _ id _, inc, l => by simp only [listIds]; split <;> simp
  | .vec x, inc, l => by simp only [listIds]; exact listIds_acc m pred x inc l
  | .pair a (.pair e r), inc, l => by
    simp only [listIds]
    split
    · rw [listIds_acc m pred a, listIds_acc m pred r inc l, listIds_acc m pred a true (listIds m pred r inc [])]
      simp
    · rw [listIds_acc m pred a, listIds_acc m pred (.pair e r) inc l, listIds_acc m pred a inc (listIds m pred (.pair e r) inc [])]
      simp
  | .pair a .nil, inc, l => by simp only [listIds]; exact listIds_acc m pred a inc l
  | .pair a (.atom _), inc, l => by simp only [listIds]; exact listIds_acc m pred a inc l
  | .pair a (.vec x), inc, l => by
    simp only [listIds]
    rw [listIds_acc m pred a, listIds_acc m pred x inc l, listIds_acc m pred a inc (listIds m pred x inc [])]
    simp
  | .pair a (.sid _ id _), inc, l => by
    simp only [listIds]
    split
    · rw [listIds_acc m pred a, listIds_acc m pred a inc [id]]; simp
    · exact listIds_acc m pred a inc l

/-- pairs are either ellipsis pairs or ordinary pairs. -/
theorem pairCase (m : Macro) (d : Sx) : (∃ e r, d = .pair e r ∧ m.ell e = true) ∨ m.ellPair d = false := by
  cases h : m.ellPair d with
  | false => exact Or.inr rfl
  | true =>
    cases d with
    | pair e r => exact Or.inl ⟨e, r, rfl, h⟩
    | _ => simp [Macro.ellPair] at h

section
variable {m : Macro} {a d : Sx} (h : m.ellPair d = false)
include h

theorem listIds_pair (pred : Key → Bool) (inc : Bool) (l : List Key) :
    listIds m pred (.pair a d) inc l = listIds m pred a inc (listIds m pred d inc l) := by
  cases d with
  | pair e r => simp only [Macro.ellPair] at h; simp [listIds, h]
  | _ => simp [listIds]

theorem patEnv_pair (n : Nat) (l : List (Key × Nat)) :
    patEnv m (.pair a d) n l = (patEnv m d n l).bind (patEnv m a n) := by
  cases d with
  | pair e r => simp only [Macro.ellPair] at h; simp [patEnv, h]
  | _ => simp [patEnv]

theorem checkDepths_pair (env : List (Key × Nat)) (n : Nat) :
    checkDepths m env (.pair a d) n =
      (checkDepths m env a n).bind fun ca => (checkDepths m env d n).bind fun cd => some (ca || cd) := by
  cases d with
  | pair e r => simp only [Macro.ellPair] at h; simp [checkDepths, h]
  | _ => simp [checkDepths]

theorem checkEll_pair (t : Bool) :
    checkEll m t (.pair a d) = (!m.ell a && checkEll m t a && !m.ell d && checkEll m t d) := by
  cases d with
  | pair e r =>
    simp only [Macro.ellPair] at h
    rw [checkEll, h]
    simp [show m.ell (.pair e r) = false from rfl]
  | _ => simp [checkEll]

theorem matches_pair (env : List (Key × Key)) (s : Sx) :
    matches_ m env (.pair a d) s = true ↔ ∃ x y, s = .pair x y ∧ matches_ m env a x = true ∧ matches_ m env d y = true := by
  have h1 : ∀ x y, matches_ m env (.pair a d) (.pair x y) = (matches_ m env a x && matches_ m env d y) := by
    intro x y
    cases d with
    | pair e r =>
      simp only [Macro.ellPair] at h
      rw [matches_]; simp only [h]; rfl
    | _ => rfl
  cases s with
  | pair x y =>
    rw [h1, Bool.and_eq_true]
    refine ⟨fun h => ⟨x, y, rfl, h⟩, fun ⟨x', y', he, h⟩ => ?_⟩
    cases he; exact h
  | _ =>
    refine ⟨fun h' => ?_, fun ⟨_, _, he, _⟩ => by cases he⟩
    cases d with
    | pair e r => simp only [Macro.ellPair] at h; simp [matches_, h] at h'
    | _ => simp [matches_] at h'

theorem bindings_pair (x y : Sx) (b : List (Key × Sx)) :
    bindings m (.pair a d) (.pair x y) b = bindings m a x (bindings m d y b) := by
  cases d with
  | pair e r => simp only [Macro.ellPair] at h; simp [bindings, h]
  | _ => simp [bindings]

theorem expand_pair {c : Ctx} (hc : c.m = m) (b : List (Key × Sx)) :
    expand c (.pair a d) b = (match expand c a b with
      | .error e => .error e
      | .ok x => match expand c d b with
        | .error e => .error e
        | .ok y => .ok (.pair x y)) := by
  subst hc
  cases d with
  | pair e r =>
    simp only [Macro.ellPair] at h
    rw [expand]
    simp only [h]
    rfl
  | _ => rfl
end

section
variable {m : Macro} {a e r : Sx} (h : m.ell e = true)
include h

theorem listIds_ell (pred : Key → Bool) (inc : Bool) (l : List Key) :
    listIds m pred (.pair a (.pair e r)) inc l = listIds m pred a true (listIds m pred r inc l) := by
  simp [listIds, h]

theorem patEnv_ell (n : Nat) (l : List (Key × Nat)) :
    patEnv m (.pair a (.pair e r)) n l = (patEnv m r n l).bind (patEnv m a (n + 1)) := by
  simp [patEnv, h]

theorem checkDepths_ell (env : List (Key × Nat)) (n : Nat) :
    checkDepths m env (.pair a (.pair e r)) n =
      (checkDepths m env a (n + 1)).bind fun ca => (checkDepths m env r n).bind fun _ => if ca then some true else none := by
  simp [checkDepths, h]

theorem checkEll_ell (t : Bool) :
    checkEll m t (.pair a (.pair e r)) = (!m.ell a && checkEll m t a && (!m.ell r && !m.ellPair r &&
      (if t then checkEll m t r else isList r && checkItems m t r))) := by
  simp [checkEll, h]

theorem matches_ell (env : List (Key × Key)) (s : Sx) :
    matches_ m env (.pair a (.pair e r)) s =
      (match skip r s with | none => false | some s' => matchCars (matches_ m env a) (matches_ m env r) s' s) := by
  rw [matches_.eq_def]
  simp only [h, if_true]
  cases skip r s <;> rfl

theorem bindings_ell (s : Sx) (b : List (Key × Sx)) :
    bindings m (.pair a (.pair e r)) s b =
      transBind (listIds m m.notLit a true []) (((items s).take ((items s).length - (items r).length)).map
        (fun x => (bindings m a x []).map Prod.snd)) ++ bindings m r (tailS ((items s).length - (items r).length) s) b := by
  simp [bindings, h]
end

theorem bindings_acc (m : Macro) : ∀ (p s : Sx) (b : List (Key × Sx)), bindings m p s b = bindings m p s [] ++ b
  | .nil, _, _ => by simp [bindings]
  | .atom _, _, _ => by simp [bindings]
  | .sid _ id _, s, b => by simp only [bindings]; split <;> simp
  | .vec x, s, b => by
    simp only [bindings]
    cases s with
    | vec y => exact bindings_acc m x y b
    | _ => rfl
  | .pair a (.pair e r), s, b => by
    rcases he : m.ell e with _ | _
    · cases s with
      | pair x y =>
        rw [bindings_pair (by simpa [Macro.ellPair] using he), bindings_pair (by simpa [Macro.ellPair] using he),
          bindings_acc m a, bindings_acc m (.pair e r) y b, bindings_acc m a x (bindings m (.pair e r) y [])]
        simp
      | _ => simp [bindings, he]
    · rw [bindings_ell he, bindings_ell he, bindings_acc m r _ b]
      simp
  | .pair a .nil, s, b => by cases s with
    | pair x y => simp only [bindings]; exact bindings_acc m a x b
    | _ => rfl
  | .pair a (.atom _), s, b => by cases s with
    | pair x y => simp only [bindings]; exact bindings_acc m a x b
    | _ => rfl
  | .pair a (.sid _ id _), s, b => by cases s with
    | pair x y =>
      simp only [bindings]
      split
      · rw [bindings_acc m a, bindings_acc m a x [(id, y)]]; simp
      · exact bindings_acc m a x b
    | _ => rfl
  | .pair a (.vec z), s, b => by cases s with
    | pair x y =>
      simp only [bindings]
      cases y with
      | vec y => 
        simp only
        rw [bindings_acc m a, bindings_acc m z y b, bindings_acc m a x (bindings m z y [])]
        simp
      | _ => exact bindings_acc m a x b
    | _ => rfl

/-! ### lists -/

theorem items_listS (xs : List Sx) (t : Sx) : items (listS xs t) = xs ++ items t := by
  induction xs with
  | nil => rfl
  | cons x xs ih => simp [listS, items, ih]

theorem tailS_listS (xs : List Sx) (t : Sx) : tailS xs.length (listS xs t) = t := by
  induction xs with
  | nil => rfl
  | cons x xs ih => simp [listS, tailS, ih]

theorem isList_listS (xs : List Sx) (t : Sx) : isList (listS xs t) = isList t := by
  induction xs with
  | nil => rfl
  | cons x xs ih => simp [listS, isList, ih]

theorem matchCars_iff {f g : Sx → Bool} : ∀ {s0 s : Sx}, matchCars f g s0 s = true →
    ∃ xs t, s = listS xs t ∧ (∀ x ∈ xs, f x = true) ∧ g t = true
  | .pair _ s0, .pair a d, h => by
    simp only [matchCars, Bool.and_eq_true] at h
    obtain ⟨xs, t, rfl, h1, h2⟩ := matchCars_iff h.2
    exact ⟨a :: xs, t, rfl, by simpa using ⟨h.1, h1⟩, h2⟩
  | .pair _ _, .nil, h => by simp [matchCars] at h
  | .pair _ _, .atom _, h => by simp [matchCars] at h
  | .pair _ _, .sid _ _ _, h => by simp [matchCars] at h
  | .pair _ _, .vec _, h => by simp [matchCars] at h
  | .nil, s, h => ⟨[], s, rfl, by simp, by simpa [matchCars] using h⟩
  | .atom _, s, h => ⟨[], s, rfl, by simp, by simpa [matchCars] using h⟩
  | .sid _ _ _, s, h => ⟨[], s, rfl, by simp, by simpa [matchCars] using h⟩
  | .vec _, s, h => ⟨[], s, rfl, by simp, by simpa [matchCars] using h⟩

/-- a form that matches the tail behind an ellipsis is a list of the same length. -/
theorem match_tail (m : Macro) (env : List (Key × Key)) : ∀ (r t : Sx), isList r = true → checkItems m false r = true →
    matches_ m env r t = true → isList t = true ∧ (items t).length = (items r).length
  | .nil, t, _, _, h => by
    simp only [matches_, decide_eq_true_eq] at h
    subst h; exact ⟨rfl, rfl⟩
  | .pair y ys, t, hl, hc, h => by
    simp only [checkItems, Bool.and_eq_true, Bool.not_eq_true'] at hc
    have hne : m.ellPair ys = false := by
      cases ys with
      | pair z zs => simp only [checkItems, Bool.and_eq_true, Bool.not_eq_true'] at hc; exact hc.2.1.1
      | _ => rfl
    obtain ⟨x, y', rfl, h1, h2⟩ := (matches_pair hne env t).mp h
    obtain ⟨h3, h4⟩ := match_tail m env ys y' (by simpa [isList] using hl) hc.2 h2
    exact ⟨by simpa [isList] using h3, by simp [items, h4]⟩

/-- what matching an ellipsis pattern means. -/
theorem matches_ell_inv {m : Macro} {env : List (Key × Key)} {a e r s : Sx} (he : m.ell e = true)
    (hc : checkEll m false (.pair a (.pair e r)) = true) (h : matches_ m env (.pair a (.pair e r)) s = true) :
    ∃ xs t, s = listS xs t ∧ (∀ x ∈ xs, matches_ m env a x = true) ∧ matches_ m env r t = true ∧
      (items s).length - (items r).length = xs.length ∧ (items s).take xs.length = xs ∧ tailS xs.length s = t := by
  rw [matches_ell he] at h
  rw [checkEll_ell he] at hc
  simp only [Bool.and_eq_true, Bool.false_eq_true, if_false] at hc
  split at h
  · cases h
  · obtain ⟨xs, t, rfl, h1, h2⟩ := matchCars_iff h
    obtain ⟨_, h4⟩ := match_tail m env r t hc.2.2.1 hc.2.2.2 h2
    exact ⟨xs, t, rfl, h1, h2, by simp [items_listS, h4], by simp [items_listS], tailS_listS xs t⟩

/-! ### columns and rows -/

/-- the first `k` columns of a table. -/
def cols : Nat → List (List Sx) → List (List Sx)
  | 0, _ => []
  | k + 1, rows => rows.map (fun r => r.headD .nil) :: cols k (rows.map List.tail)

theorem any_isEmpty_false {rows : List (List Sx)} {k : Nat} (h : ∀ r ∈ rows, r.length = k + 1) :
    rows.any List.isEmpty = false := by
  rw [List.any_eq_false]
  intro r hr
  have := h r hr
  cases r with
  | nil => simp at this
  | cons _ _ => simp

theorem tails_length {rows : List (List Sx)} {k : Nat} (h : ∀ r ∈ rows, r.length = k + 1) :
    ∀ r ∈ rows.map List.tail, r.length = k := by
  intro r hr
  obtain ⟨r', h', rfl⟩ := List.mem_map.mp hr
  have := h r' h'
  simp [this]

theorem transBind_keys : ∀ (vs : List Key) (rows : List (List Sx)), (∀ r ∈ rows, r.length = vs.length) →
    (transBind vs rows).map Prod.fst = vs
  | [], _, _ => rfl
  | v :: vs, rows, h => by
    simp only [transBind]
    rw [if_neg (by rw [any_isEmpty_false (k := vs.length) (by simpa using h)]; simp)]
    simp only [List.map_cons, List.cons.injEq, true_and]
    exact transBind_keys vs _ (tails_length (by simpa using h))

theorem assv_none {α : Type} {k : Key} : ∀ {l : List (Key × α)}, k ∉ l.map Prod.fst → assv k l = none
  | [], _ => rfl
  | (k', v) :: l, h => by
    simp only [List.map_cons, List.mem_cons, not_or] at h
    simp only [assv, if_neg h.1]
    exact assv_none h.2

theorem assv_some {α : Type} {k : Key} : ∀ {l : List (Key × α)}, k ∈ l.map Prod.fst → ∃ v, assv k l = some v
  | [], h => by simp at h
  | (k', v) :: l, h => by
    by_cases hk : k = k'
    · exact ⟨v, by simp [assv, hk]⟩
    · simp only [List.map_cons, List.mem_cons, hk, false_or] at h
      simp only [assv, if_neg hk]
      exact assv_some h

theorem assv_append {α : Type} {k : Key} {l1 l2 : List (Key × α)} :
    assv k (l1 ++ l2) = (assv k l1).or (assv k l2) := by
  induction l1 with
  | nil => simp [assv]
  | cons p l1 ih => obtain ⟨k', v⟩ := p; simp only [List.cons_append, assv]; split <;> simp [ih]

theorem assv_append_left {α : Type} {k : Key} {l1 l2 : List (Key × α)} (h : k ∈ l1.map Prod.fst) :
    assv k (l1 ++ l2) = assv k l1 := by
  obtain ⟨v, hv⟩ := assv_some h
  rw [assv_append, hv]; rfl

theorem assv_append_right {α : Type} {k : Key} {l1 l2 : List (Key × α)} (h : k ∉ l1.map Prod.fst) :
    assv k (l1 ++ l2) = assv k l2 := by
  rw [assv_append, assv_none h]; rfl

theorem valLists_trans {b : List (Key × Sx)} : ∀ (vs : List Key) (rows : List (List Sx)),
    (∀ r ∈ rows, r.length = vs.length) → vs.Nodup → (∀ v ∈ vs, assv v b = assv v (transBind vs rows)) →
    valLists b vs = .ok (cols vs.length rows)
  | [], _, _, _, _ => rfl
  | v :: vs, rows, h, hn, hb => by
    have he := any_isEmpty_false (k := vs.length) (rows := rows) (by simpa using h)
    have htb : transBind (v :: vs) rows =
        (v, listS (rows.map (fun r => r.headD .nil)) .nil) :: transBind vs (rows.map List.tail) := by
      simp [transBind, he]
    have hv := hb v (by simp)
    rw [htb] at hv
    simp only [assv, if_true] at hv
    have ih := valLists_trans (b := b) vs (rows.map List.tail) (tails_length (by simpa using h)) (List.nodup_cons.mp hn).2 (by
      intro w hw
      rw [hb w (by simp [hw]), htb]
      have : w ≠ v := fun h => (List.nodup_cons.mp hn).1 (h ▸ hw)
      simp [assv, this])
    simp only [valLists, hv, isList_listS, isList, ih, cols, items_listS, items, List.append_nil, if_true, List.length_cons]

theorem cols_cons (k : Nat) (r : List Sx) (rows : List (List Sx)) (h : r.length = k) :
    (cols k (r :: rows)).map (fun r => r.headD .nil) = r ∧ (cols k (r :: rows)).map List.tail = cols k rows ∧
    (cols k (r :: rows)).any List.isEmpty = false := by
  induction k generalizing r rows with
  | zero => cases r with
    | nil => simp [cols]
    | cons _ _ => simp at h
  | succ k ih => cases r with
    | nil => simp at h
    | cons x r =>
      obtain ⟨h1, h2, h3⟩ := ih r (rows.map List.tail) (by simpa using h)
      refine ⟨?_, ?_, ?_⟩
      · simp only [cols, List.map_cons, List.headD_cons, List.tail_cons, h1]
      · simp [cols, h2]
      · simp [cols, h3]

theorem applyMapList_cols (k : Nat) : ∀ (rows : List (List Sx)), (∀ r ∈ rows, r.length = k + 1) →
    applyMapList (rows.map (fun r => r.headD .nil)) (cols k (rows.map List.tail)) = rows
  | [], _ => rfl
  | r :: rows, h => by
    cases r with
    | nil => have := h [] (by simp); simp at this
    | cons x r =>
      have hr : r.length = k := by have := h (x :: r) (by simp); simpa using this
      obtain ⟨h1, h2, h3⟩ := cols_cons k r (rows.map List.tail) hr
      simp only [List.map_cons, List.headD_cons, List.tail_cons, applyMapList, h3, Bool.false_eq_true, if_false, h1, h2]
      rw [applyMapList_cols k rows (fun r hr => h r (by simp [hr]))]

theorem cols_length (k : Nat) (rows : List (List Sx)) : ∀ c ∈ cols k rows, c.length = rows.length := by
  induction k generalizing rows with
  | zero => simp [cols]
  | succ k ih =>
    intro c hc
    simp only [cols, List.mem_cons] at hc
    rcases hc with rfl | hc
    · simp
    · simpa using ih _ c hc

/-! ### ids -/

theorem listIds_filter (m : Macro) (pred : Key → Bool) : ∀ (p : Sx) (inc : Bool),
    listIds m pred p inc [] = (listIds m (fun _ => true) p inc []).filter pred
  | .nil, _ => by simp [listIds]
  | .atom _, _ => by simp [listIds]
  | .sid _ id _, inc => by cases inc <;> simp [listIds, List.filter_cons]
  | .vec x, inc => by simp only [listIds]; exact listIds_filter m pred x inc
  | .pair a d, inc => by
    rcases pairCase m d with ⟨e, r, rfl, h⟩ | h
    · rw [listIds_ell h, listIds_ell h, listIds_acc, listIds_acc m (fun _ => true) a, listIds_filter m pred a, listIds_filter m pred r]
      simp
    · rw [listIds_pair h, listIds_pair h, listIds_acc, listIds_acc m (fun _ => true) a, listIds_filter m pred a, listIds_filter m pred d]
      simp

theorem listIds_inc (m : Macro) (pred : Key → Bool) : ∀ (p : Sx), ∀ id ∈ listIds m pred p false [], id ∈ listIds m pred p true []
  | .nil, _ => by simp [listIds]
  | .atom _, _ => by simp [listIds]
  | .sid _ _ _, _ => by simp [listIds]
  | .vec x, id => by simp only [listIds]; exact listIds_inc m pred x id
  | .pair a d, id => by
    rcases pairCase m d with ⟨e, r, rfl, h⟩ | h
    · rw [listIds_ell h, listIds_ell h, listIds_acc m pred a true (listIds m pred r false []), listIds_acc m pred a true (listIds m pred r true [])]
      simp only [List.mem_append]
      rintro (h' | h')
      · exact Or.inl h'
      · exact Or.inr (listIds_inc m pred r id h')
    · rw [listIds_pair h, listIds_pair h, listIds_acc m pred a false (listIds m pred d false []), listIds_acc m pred a true (listIds m pred d true [])]
      simp only [List.mem_append]
      rintro (h' | h')
      · exact Or.inl (listIds_inc m pred a id h')
      · exact Or.inr (listIds_inc m pred d id h')

/-- the variables of a pattern. -/
def vars (m : Macro) (p : Sx) : List Key := listIds m m.notLit p true []

theorem vars_pair {m : Macro} {a d : Sx} (h : m.ellPair d = false) : vars m (.pair a d) = vars m a ++ vars m d := by
  simp only [vars]; rw [listIds_pair h, listIds_acc]

theorem vars_ell {m : Macro} {a e r : Sx} (h : m.ell e = true) : vars m (.pair a (.pair e r)) = vars m a ++ vars m r := by
  simp only [vars]; rw [listIds_ell h, listIds_acc]

theorem vars_notLit {m : Macro} {p : Sx} {id : Key} (h : id ∈ vars m p) : id ∉ m.literals := by
  simp only [vars] at h
  rw [listIds_filter] at h
  have := (List.mem_filter.mp h).2
  simpa [Macro.notLit] using this

/-- `make-pat-env` collects the variables, without repetition. -/
theorem patEnv_keys (m : Macro) : ∀ (p : Sx) (n : Nat) (l l' : List (Key × Nat)), patEnv m p n l = some l' →
    l'.map Prod.fst = vars m p ++ l.map Prod.fst ∧ ((l.map Prod.fst).Nodup → (l'.map Prod.fst).Nodup)
  | .nil, _, l, l', h => by simp only [patEnv, Option.some.injEq] at h; subst h; simp [vars, listIds]
  | .atom _, _, l, l', h => by simp only [patEnv, Option.some.injEq] at h; subst h; simp [vars, listIds]
  | .sid _ id _, n, l, l', h => by
    simp only [patEnv] at h
    split at h
    · rename_i hl
      simp only [Option.some.injEq] at h; subst h
      simp [vars, listIds, Macro.notLit, hl]
    · rename_i hl
      split at h
      · cases h
      · rename_i ha
        simp only [Option.some.injEq] at h; subst h
        refine ⟨by simp [vars, listIds, Macro.notLit, hl], fun hn => ?_⟩
        simp only [List.map_cons, List.nodup_cons]
        refine ⟨fun hm => ?_, hn⟩
        obtain ⟨v, hv⟩ := assv_some hm
        exact ha (by simp [hv])
  | .vec x, n, l, l', h => by
    simp only [patEnv] at h
    have := patEnv_keys m x n l l' h
    simpa [vars, listIds] using this
  | .pair a d, n, l, l', h => by
    rcases pairCase m d with ⟨e, r, rfl, he⟩ | he
    · rw [patEnv_ell he] at h
      obtain ⟨l1, h1, h2⟩ := Option.bind_eq_some_iff.mp h
      have i1 := patEnv_keys m r n l l1 h1
      have i2 := patEnv_keys m a (n + 1) l1 l' h2
      refine ⟨by rw [i2.1, i1.1, vars_ell he]; simp, fun hn => i2.2 (i1.2 hn)⟩
    · rw [patEnv_pair he] at h
      obtain ⟨l1, h1, h2⟩ := Option.bind_eq_some_iff.mp h
      have i1 := patEnv_keys m d n l l1 h1
      have i2 := patEnv_keys m a n l1 l' h2
      refine ⟨by rw [i2.1, i1.1, vars_pair he]; simp, fun hn => i2.2 (i1.2 hn)⟩

/-- a template that closes an ellipsis contains a variable. -/
theorem checkDepths_true (m : Macro) (env : List (Key × Nat)) : ∀ (t : Sx) (n : Nat), checkDepths m env t n = some true →
    ∃ id ∈ listIds m (fun _ => true) t true [], ∃ d, n ≤ d ∧ assv id env = some d
  | .nil, _, h => by simp [checkDepths] at h
  | .atom _, _, h => by simp [checkDepths] at h
  | .sid _ id _, n, h => by
    simp only [checkDepths] at h
    split at h
    · simp at h
    · rename_i d hd
      split at h
      · cases h
      · simp only [Option.some.injEq, decide_eq_true_eq] at h
        exact ⟨id, by simp [listIds], d, by omega, hd⟩
  | .vec x, n, h => by
    simp only [checkDepths] at h
    simpa [listIds] using checkDepths_true m env x n h
  | .pair a d, n, h => by
    rcases pairCase m d with ⟨e, r, rfl, he⟩ | he
    · rw [checkDepths_ell he] at h
      obtain ⟨ca, h1, h2⟩ := Option.bind_eq_some_iff.mp h
      obtain ⟨cr, h3, h4⟩ := Option.bind_eq_some_iff.mp h2
      cases ca with
      | false => simp at h4
      | true =>
        rw [listIds_ell he, listIds_acc]
        obtain ⟨id, hi, k, hk, hd⟩ := checkDepths_true m env a (n + 1) h1
        exact ⟨id, List.mem_append_left _ hi, k, by omega, hd⟩
    · rw [checkDepths_pair he] at h
      obtain ⟨ca, h1, h2⟩ := Option.bind_eq_some_iff.mp h
      obtain ⟨cd, h3, h4⟩ := Option.bind_eq_some_iff.mp h2
      rw [listIds_pair he, listIds_acc]
      simp only [Option.some.injEq, Bool.or_eq_true] at h4
      rcases h4 with rfl | rfl
      · obtain ⟨id, hi, hd⟩ := checkDepths_true m env a n h1
        exact ⟨id, List.mem_append_left _ hi, hd⟩
      · obtain ⟨id, hi, hd⟩ := checkDepths_true m env d n h3
        exact ⟨id, List.mem_append_right _ hi, hd⟩

end Verif.Macros

import Verif.Parse.Spec
/-
What `psexp` does with each kind of form.
-/
namespace Verif.Parse
open Verif.Core
open Verif.Fold (beginExp)

theorem isList_list : ∀ xs : List S, isList (list xs .nil) = true
  | [] => rfl
  | _ :: xs => isList_list xs

theorem items_list : ∀ xs : List S, items (list xs .nil) = xs
  | [] => rfl
  | x :: xs => congrArg (x :: ·) (items_list xs)

theorem syms_map (ss : List Sym) : syms (ss.map .sym) = ss := by
  induction ss with
  | nil => rfl
  | cons s ss ih => simp [syms, ih]

/-- the patterns for a pair. -/
theorem match_pair {p ps x d : S} (h1 : p ≠ .sym "...".toList) (h2 : ps ≠ .pair (.sym "...".toList) .nil) :
    sexpMatch (.pair p ps) (.pair x d) = (sexpMatch p x && sexpMatch ps d) := by
  conv => lhs; unfold sexpMatch
  simp only [h1, h2, false_and, if_false]

/-- and for a list. -/
theorem match_list {p x : S} (h1 : p ≠ .sym "...".toList) (h2 : p ≠ .sym "*".toList) :
    sexpMatch (.pair p (.pair (.sym "...".toList) .nil)) x = (isList x && (items x).all (sexpMatch p)) := by
  conv => lhs; unfold sexpMatch
  simp only [h1, h2, false_and, if_false, if_true]

theorem match_sym {s : Sym} {x : S} (h : s ≠ "*".toList) (h2 : s ≠ "<id>".toList) (h3 : s ≠ "<symbol>".toList) (h4 : s ≠ "<string>".toList)
    (h5 : s ≠ "<literal>".toList) (h6 : s ≠ "<string-forest>".toList) : sexpMatch (.sym s) x = decide (x = .sym s) := by
  conv => lhs; unfold sexpMatch
  simp only [h, h2, h3, h4, h5, h6, decide_false, Bool.false_and, Bool.or_self, Bool.false_or]

theorem all_ids {ss : List Sym} (hs : ∀ s ∈ ss, s ∉ keywords) : (ss.map S.sym).all (sexpMatch (y "<id>")) = true := by
  rw [List.all_eq_true]
  intro x hx
  obtain ⟨s, hs', rfl⟩ := List.mem_map.mp hx
  simp [y, sexpMatch, isId, hs s hs']

/-- bindings of a `letrec`. -/
def bindings (ss : List Sym) (xs : List S) : List S := List.zipWith (fun s x => lst [.sym s, x]) ss xs

theorem all_bindings {ss : List Sym} (hs : ∀ s ∈ ss, s ∉ keywords) : ∀ xs : List S,
    (bindings ss xs).all (sexpMatch (lst [y "<id>", y "*"])) = true := by
  induction ss with
  | nil => intro xs; simp [bindings]
  | cons s ss ih =>
    intro xs
    cases xs with
    | nil => simp [bindings]
    | cons x xs =>
      have := ih (fun s hs' => hs s (by simp [hs'])) xs
      have h2 := hs s (by simp)
      simp only [bindings, List.zipWith_cons_cons, List.all_cons, Bool.and_eq_true] at this ⊢
      refine ⟨?_, this⟩
      simp [lst, list, y, sexpMatch, isId, isList1, h2]

theorem bindings_parts {ss : List Sym} : ∀ {xs : List S}, ss.length = xs.length →
    syms (cars (bindings ss xs)) = ss ∧ cadrs (bindings ss xs) = xs := by
  induction ss with
  | nil => intro xs h; cases xs <;> simp_all [bindings, cars, cadrs, syms]
  | cons s ss ih =>
    intro xs h
    cases xs with
    | nil => simp at h
    | cons x xs =>
      have := ih (xs := xs) (by simpa using h)
      refine ⟨?_, ?_⟩
      · exact congrArg (s :: ·) this.1
      · exact congrArg (x :: ·) this.2

variable {pn : List Char → PrimName} {n : Nat} {e : List (Sym × Id)} {st st' : St}

theorem psexp_if3 {a b c : S} {a' b' c' : Exp} (h : mapP (psexp pn n e) [a, b, c] st = some ([a', b', c'], st')) :
    psexp pn (n + 1) e (.pair (y "if") (lst [a, b, c])) st = some (.ite a' b' c', st') := by
  unfold psexp
  simp [sexpMatch, lst, list, y, isList1, items, h]

theorem psexp_if2 {a b : S} {a' b' : Exp} (h : mapP (psexp pn n e) [a, b] st = some ([a', b'], st')) :
    psexp pn (n + 1) e (.pair (y "if") (lst [a, b])) st = some (.ite a' b' voidExp, st') := by
  unfold psexp
  simp [sexpMatch, lst, list, y, isList1, items, h]

theorem psexp_withcc {a b : S} {a' b' : Exp} (h : mapP (psexp pn n e) [a, b] st = some ([a', b'], st')) :
    psexp pn (n + 1) e (.pair (y "withcc") (lst [a, b])) st = some (.withcc a' b', st') := by
  unfold psexp
  simp [sexpMatch, lst, list, y, isList1, items, h]

theorem psexp_set {s : Sym} (hs : s ∉ keywords) {a : S} {a' : Exp} (h : psexp pn n e a (makeId s e st).2 = some (a', st')) :
    psexp pn (n + 1) e (lst [y "set!", .sym s, a]) st = some (.set (makeId s e st).1 a', st') := by
  unfold psexp
  simp [sexpMatch, lst, list, y, isList1, items, isId, hs, h]

theorem psexp_letcc {s : Sym} (hs : s ∉ keywords) {b : S} {b' : Exp}
    (h : psexp pn n ((s, lexId st.next) :: e) b { st with next := st.next + 1 } = some (b', st')) :
    psexp pn (n + 1) e (lst [y "letcc", .sym s, b]) st = some (.letcc (lexId st.next) b', st') := by
  unfold psexp
  simp [sexpMatch, lst, list, y, isList1, items, isId, hs, h]

theorem psexp_begin {xs : List S} {es : List Exp} (h : mapP (psexp pn n e) xs st = some (es, st')) :
    psexp pn (n + 1) e (.pair (y "begin") (lst xs)) st =
      some ((beginAll st'.next es).1, { st' with next := (beginAll st'.next es).2 }) := by
  unfold psexp
  simp [sexpMatch, lst, list, y, isList1, items, isList_list, items_list, h]

theorem psexp_lambda {ss : List Sym} (hs : ∀ s ∈ ss, s ∉ keywords) {b : S} {b' : Exp}
    (h : psexp pn n (newIds st.next ss ++ e) b { st with next := st.next + (newIds st.next ss).length } = some (b', st')) :
    psexp pn (n + 1) e (lst [y "lambda", lst (ss.map .sym), b]) st = some (.lam ((newIds st.next ss).map (·.2)) b', st') := by
  have h1 := all_ids hs
  simp only [y] at h1
  unfold psexp
  simp only [lst, y] at h1 ⊢
  rw [if_neg (by simp [sexpMatch, list, isList1]), if_neg (by simp [sexpMatch, list, isList1]), if_neg (by simp [sexpMatch, list, isList1]),
    if_neg (by simp [sexpMatch, list, isList1]), if_pos]
  · simp [list, items, items_list, syms_map, h]
  · simp only [list]
    rw [match_pair (by simp) (by simp), match_pair (by simp) (by simp), match_list (by simp) (by simp), isList_list, items_list, h1]
    simp [sexpMatch, isList1]

theorem psexp_letrec {ss : List Sym} (hs : ∀ s ∈ ss, s ∉ keywords) {xs : List S} (hl : ss.length = xs.length) {b : S} {es : List Exp}
    {b' : Exp} {st1 : St}
    (h1 : mapP (psexp pn n (newIds st.next ss ++ e)) xs { st with next := st.next + (newIds st.next ss).length } = some (es, st1))
    (h2 : psexp pn n (newIds st.next ss ++ e) b st1 = some (b', st')) :
    psexp pn (n + 1) e (lst [y "letrec", lst (bindings ss xs), b]) st =
      some ((letrecExp st'.next ((newIds st.next ss).map (·.2)) es b').1,
        { st' with next := (letrecExp st'.next ((newIds st.next ss).map (·.2)) es b').2 }) := by
  have h3 := all_bindings hs xs
  unfold psexp
  simp only [lst, y] at h3 ⊢
  rw [if_neg (by simp [sexpMatch, list, isList1]), if_neg (by simp [sexpMatch, list, isList1]), if_neg (by simp [sexpMatch, list, isList1]),
    if_neg (by simp [sexpMatch, list, isList1]), if_neg (by simp [sexpMatch, list, isList1]), if_pos]
  · simp only [list, items, items_list, (bindings_parts hl).1, (bindings_parts hl).2, h1, h2]
  · simp only [list] at h3 ⊢
    rw [match_pair (by simp) (by simp), match_pair (by simp) (by simp), match_list (by simp) (by simp), isList_list, items_list, h3]
    simp [sexpMatch, isList1]

theorem psexp_cheap {c : S} (hc : cheap c = true) {a : Exp} (h : psexp pn n e c st = some (a, st')) :
    psexp pn (n + 1) e (.pair (y "%quote") (lst [c])) st = some (a, st') := by
  unfold psexp
  simp [sexpMatch, lst, list, y, isList1, items, hc, h]

theorem psexp_shared {c : S} (hc : cheap c = false) {p : S × Exp × Id} (h : st.consts.find? (fun p => decide (p.1 = c)) = some p) :
    psexp pn (n + 1) e (.pair (y "%quote") (lst [c])) st = some (.var p.2.2, st) := by
  unfold psexp
  simp [sexpMatch, lst, list, y, isList1, items, hc, h]

theorem psexp_lift {c : S} (hc : cheap c = false) (h : st.consts.find? (fun p => decide (p.1 = c)) = none) {a : Exp}
    (h2 : psexp pn n [] c st = some (a, st')) :
    psexp pn (n + 1) e (.pair (y "%quote") (lst [c])) st =
      some (.var ⟨-(st'.next : Int), true⟩, { st' with next := st'.next + 1, consts := (c, a, ⟨-(st'.next : Int), true⟩) :: st'.consts }) := by
  unfold psexp
  simp [sexpMatch, lst, list, y, isList1, items, hc, h, h2]

theorem prim_iff {kw : String} {eff : Effect} : IsPrim kw eff ↔ (kw, eff) ∈ prims := by
  constructor
  · rintro h
    obtain ⟨a, b, c⟩ := eff
    unfold IsPrim at h
    subst h
    cases a <;> cases b <;> cases c <;> decide
  · have : ∀ p ∈ prims, p.1 = "%prim" ++ (if p.2.alloc then "*" else "") ++ (if p.2.obs then "?" else "") ++ (if p.2.prod then "!" else "") := by
      decide
    exact this (kw, eff)

theorem text_iff : ∀ {x : S}, isForest x = true ↔ IsText x := by
  have h1 : ∀ {x : S}, IsText x → isForest x = true := by
    intro x h
    induction h with
    | str => rfl
    | @list xs _ ih =>
      rename_i h0
      clear h0
      induction xs with
      | nil => rfl
      | cons x xs ih2 =>
        have := ih2 fun z hz => ih z (by simp [hz])
        simp only [lst, list, isForest, ih x (by simp), isList_list, Bool.true_and] at this ⊢
        exact this
    | vec _ ih => exact ih
  have h2 : ∀ x : S, isForest x = true → IsText x ∧ (isList x = true → ∃ xs, x = lst xs ∧ ∀ z ∈ xs, IsText z) := by
    intro x
    induction x with
    | str s => intro _; exact ⟨.str, fun h => by cases h⟩
    | nil => intro _; exact ⟨.list (xs := []) (by simp), fun _ => ⟨[], rfl, by simp⟩⟩
    | pair a d iha ihd =>
      intro h
      simp only [isForest, Bool.and_eq_true] at h
      obtain ⟨xs, rfl, hx⟩ := (ihd h.2).2 h.1.2
      have : ∀ z ∈ a :: xs, IsText z := by
        intro z hz
        rcases List.mem_cons.1 hz with rfl | hz
        · exact (iha h.1.1).1
        · exact hx z hz
      exact ⟨.list (xs := a :: xs) this, fun _ => ⟨a :: xs, rfl, this⟩⟩
    | vec x ih => intro h; exact ⟨.vec (ih h).1, fun h => by cases h⟩
    | _ => intro h; simp [isForest] at h
  exact fun {x} => ⟨fun h => (h2 x h).1, h1⟩

theorem psexp_prim {kw : String} {eff : Effect} (hk : IsPrim kw eff) {sf : S} (hsf : IsText sf) {xs : List S} {es : List Exp}
    {t : List Char} (ht : Lit.forestToString (toForest sf) = some t) (h : mapP (psexp pn n e) xs st = some (es, st')) :
    psexp pn (n + 1) e (.pair (y kw) (.pair sf (lst xs))) st = some (.prim eff (pn t) es, st') := by
  replace hk := prim_iff.1 hk
  replace hsf := text_iff.2 hsf
  simp only [prims, List.mem_cons, Prod.mk.injEq, List.not_mem_nil, or_false] at hk
  rcases hk with ⟨rfl, rfl⟩ | ⟨rfl, rfl⟩ | ⟨rfl, rfl⟩ | ⟨rfl, rfl⟩ | ⟨rfl, rfl⟩ | ⟨rfl, rfl⟩ | ⟨rfl, rfl⟩ | ⟨rfl, rfl⟩ <;>
    (unfold psexp
     simp [sexpMatch, lst, list, y, isList1, items, isList_list, items_list, prims, hsf, ht, h, List.find?])

/-- the keywords that start a clause of `psexp`. -/
def heads : List Sym :=
  ["if", "set!", "begin", "lambda", "letrec", "letcc", "withcc", "%quote", "%const", "%prim", "%prim*", "%prim?", "%prim!", "%prim?!",
   "%prim*?", "%prim*!", "%prim*?!"].map String.toList

theorem no_head {k : String} {ps x d : S} (hx : ∀ s ∈ heads, x ≠ .sym s) (hk : k.toList ∈ heads)
    (h2 : ps ≠ .pair (.sym "...".toList) .nil) : sexpMatch (.pair (y k) ps) (.pair x d) = false := by
  have hne := hx _ hk
  have : sexpMatch (y k) x = false := by
    have hk' : k.toList ≠ "*".toList ∧ k.toList ≠ "<id>".toList ∧ k.toList ≠ "<symbol>".toList ∧ k.toList ≠ "<string>".toList ∧
        k.toList ≠ "<literal>".toList ∧ k.toList ≠ "<string-forest>".toList := by
      simp only [heads, List.map_cons, List.map_nil, List.mem_cons, List.not_mem_nil, or_false] at hk
      rcases hk with h | h | h | h | h | h | h | h | h | h | h | h | h | h | h | h | h <;> rw [h] <;> decide
    obtain ⟨a1, a2, a3, a4, a5, a6⟩ := hk'
    rw [y, match_sym a1 a2 a3 a4 a5 a6, decide_eq_false hne]
  have hd : y k ≠ .sym "...".toList := by
    intro e
    have e : k.toList = "...".toList := by simpa [y] using e
    rw [e] at hk
    revert hk; decide
  rw [match_pair hd h2, this]
  rfl

theorem psexp_app {f : S} (hf : ∀ s ∈ heads, f ≠ .sym s) {xs : List S} {f' : Exp} {es : List Exp}
    (h : mapP (psexp pn n e) (f :: xs) st = some (f' :: es, st')) :
    psexp pn (n + 1) e (.pair f (lst xs)) st = some (.app f' es, st') := by
  have key : ∀ (k : String) (ps : List S), k.toList ∈ heads → list ps .nil ≠ .pair (.sym "...".toList) .nil →
      sexpMatch (lst (y k :: ps)) (.pair f (lst xs)) = false := fun k ps hk h2 => no_head hf hk h2
  unfold psexp
  rw [if_neg, if_neg, if_neg, if_neg, if_neg, if_neg, if_neg, if_neg, if_neg, if_neg]
  · have : prims.find? (fun p => sexpMatch (lst [y p.1, y "<string-forest>", y "*", y "..."]) (.pair f (lst xs))) = none := by
      rw [List.find?_eq_none]
      intro p hp
      rw [key p.1 _ ?_ (by simp [list])]
      · simp
      · revert hp p; decide
    rw [this]
    simp only [lst, list, items, items_list, h]
    rw [if_pos]
    simp [sexpMatch, y, isList1, isList_list]
  all_goals
    simp only [Bool.not_eq_true]
    exact key _ _ (by decide) (by simp [list, y])

theorem psexp_var {s : Sym} (hs : s ∉ keywords) : psexp pn (n + 1) e (.sym s) st = some (.var (makeId s e st).1, (makeId s e st).2) := by
  unfold psexp
  simp [sexpMatch, lst, list, y, isList1, isId, hs, prims]

end Verif.Parse

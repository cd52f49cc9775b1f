import Verif.Labels.Make
/-
patch-shared! replaces every reference to a label by the labelled object.
-/
namespace Verif.Labels
open Verif.Equal (Obj Heap Node)

variable {F : Type} [DecidableEq F]

/-- the object a reference stands for -/
def deref (sh : List (Int × V)) : V → V
  | .proc n => (assq n sh).getD .void
  | v => v

/-- an object without references -/
def Cell.deref (sh : List (Int × V)) : Cell → Cell
  | .pair a d => .pair (Labels.deref sh a) (Labels.deref sh d)
  | .vec vs => .vec (vs.map (Labels.deref sh))
  | .box v => .box (Labels.deref sh v)
  | c => c

/-- the objects from `l` up to `r` have been patched -/
def Patched (sh : List (Int × V)) (l r : Nat) (K K' : List Cell) : Prop :=
  ∀ j, K'[j]? = if l ≤ j ∧ j < r then K[j]?.map (Cell.deref sh) else K[j]?

/-- the objects from `l` up to `r` have been patched, and object `a` is now `c` -/
def Step (sh : List (Int × V)) (l r a : Nat) (c : Cell) (K K' : List Cell) : Prop :=
  ∀ j, K'[j]? = if j = a then some c else if l ≤ j ∧ j < r then K[j]?.map (Cell.deref sh) else K[j]?

theorem Patched.refl (sh : List (Int × V)) (l : Nat) (K : List Cell) : Patched sh l l K K := by
  intro j
  rw [if_neg (by omega)]

theorem patchIx_step {sh : List (Int × V)} {n : Nat} {l r a : Nat} {get : Cell → Option V} {set : Cell → V → Cell} {c : Cell} {w : V}
    {K : List Cell} (hK : K[a]? = some c) (hget : get c = some w) (hset : set c w = c) (har : r ≤ a)
    (hp : ∀ k, w = .proc k → l = r ∧ ∃ b, assq k sh = some (.ptr b))
    (hIH : ∃ K', patchShared sh n w K = some K' ∧ Patched sh l r K K') (hn : 2 ≤ n) :
    ∃ K1, patchIx sh n (patchShared sh n) get set a K = some K1 ∧ Step sh l r a (set c (deref sh w)) K K1 := by
  have ha : a < K.length := (List.getElem?_eq_some_iff.1 hK).1
  unfold patchIx
  rw [hK]
  simp only [hget]
  by_cases hw : ∃ k, w = .proc k
  · obtain ⟨k, rfl⟩ := hw
    obtain ⟨rfl, b, hb⟩ := hp k rfl
    obtain ⟨n, rfl⟩ : ∃ m, n = m + 2 := ⟨n - 2, by omega⟩
    have e : patchRef sh (n + 2) (.proc k) = some (.ptr b) := by
      rw [patchRef, hb]
      simp only [patchRef]
    simp only [e, Option.map_some]
    refine ⟨_, rfl, fun j => ?_⟩
    simp only [deref, hb, Option.getD_some]
    by_cases hj : j = a
    · subst hj
      simp [ha]
    · rw [if_neg hj, if_neg (by omega), List.getElem?_set_ne (Ne.symm hj)]
  · have hd : deref sh w = w := by
      cases w with
      | proc k => exact (hw ⟨k, rfl⟩).elim
      | _ => rfl
    obtain ⟨K', e, hP⟩ := hIH
    refine ⟨K', ?_, fun j => ?_⟩
    · cases w with
      | proc k => exact (hw ⟨k, rfl⟩).elim
      | _ => exact e
    · rw [hP j, hd, hset]
      by_cases hj : j = a
      · subst hj
        rw [if_neg (by omega), if_pos rfl, hK]
      · rw [if_neg hj]

section
variable {E : Enc} {H : Heap F} {Sf : List Obj} {M : Obj → Prop} {sh : List (Int × V)}

/-- labels have contents -/
def Full (Sf : List Obj) (sh : List (Int × V)) : Prop := ∀ q ∈ Sf, ∃ a, assq (pos Sf q) sh = some (.ptr a)

mutual
theorem build_le : ∀ (d : D) {num : Nat → Nat} {h h' : List Cell} {s s' : List (Int × V)} {v : V}, build num d h s = some (v, h', s') →
    h <+: h'
  | .imm i, _, _, _, _, _, _, e => by simp only [build, Option.some.injEq, Prod.mk.injEq] at e; rw [e.2.1]; exact List.prefix_rfl
  | .str i, _, _, _, _, _, _, e => by simp only [build, Option.some.injEq, Prod.mk.injEq] at e; rw [← e.2.1]; exact List.prefix_append _ _
  | .bytes i, _, _, _, _, _, _, e => by simp only [build, Option.some.injEq, Prod.mk.injEq] at e; rw [← e.2.1]; exact List.prefix_append _ _
  | .pair a d, num, h, _, s, _, _, e => by
    rw [build] at e
    cases e1 : build num a h s with
    | none => simp [e1] at e
    | some p =>
      obtain ⟨v1, h1, s1⟩ := p
      simp only [e1] at e
      cases e2 : build num d h1 s1 with
      | none => simp [e2] at e
      | some p =>
        obtain ⟨v2, h2, s2⟩ := p
        simp only [e2, Option.some.injEq, Prod.mk.injEq] at e
        rw [← e.2.1]
        exact ((build_le a e1).trans (build_le d e2)).trans (List.prefix_append _ _)
  | .vec ds, num, h, _, s, _, _, e => by
    rw [build] at e
    cases e1 : builds num ds h s with
    | none => simp [e1] at e
    | some p =>
      obtain ⟨v1, h1, s1⟩ := p
      simp only [e1, Option.some.injEq, Prod.mk.injEq] at e
      rw [← e.2.1]
      exact (builds_le ds e1).trans (List.prefix_append _ _)
  | .box a, num, h, _, s, _, _, e => by
    rw [build] at e
    cases e1 : build num a h s with
    | none => simp [e1] at e
    | some p =>
      obtain ⟨v1, h1, s1⟩ := p
      simp only [e1, Option.some.injEq, Prod.mk.injEq] at e
      rw [← e.2.1]
      exact (build_le a e1).trans (List.prefix_append _ _)
  | .lab o d, num, h, _, s, _, _, e => by
    rw [build] at e
    split at e
    · simp at e
    · split at e
      · simp at e
      · next hne e1 =>
        simp only [Option.some.injEq, Prod.mk.injEq] at e
        rw [← e.2.1]
        exact build_le d e1
      · simp at e
  | .ref o, num, h, _, s, _, _, e => by
    rw [build] at e
    split at e
    · simp only [Option.some.injEq, Prod.mk.injEq] at e; rw [e.2.1]; exact List.prefix_rfl
    · simp at e
theorem builds_le : ∀ (ds : DS) {num : Nat → Nat} {h h' : List Cell} {s s' : List (Int × V)} {vs : List V},
    builds num ds h s = some (vs, h', s') → h <+: h'
  | .nil, _, _, _, _, _, _, e => by simp only [builds, Option.some.injEq, Prod.mk.injEq] at e; rw [e.2.1]; exact List.prefix_rfl
  | .cons d ds, num, h, _, s, _, _, e => by
    rw [builds] at e
    cases e1 : build num d h s with
    | none => simp [e1] at e
    | some p =>
      obtain ⟨v1, h1, s1⟩ := p
      simp only [e1] at e
      cases e2 : builds num ds h1 s1 with
      | none => simp [e2] at e
      | some p =>
        obtain ⟨v2, h2, s2⟩ := p
        simp only [e2, Option.some.injEq, Prod.mk.injEq] at e
        rw [← e.2.1]
        exact (build_le d e1).trans (builds_le ds e2)
end

/-- the objects from `l` up to `r` are those of `h` -/
def Agree (l r : Nat) (K h : List Cell) : Prop := ∀ j, l ≤ j → j < r → K[j]? = h[j]?

theorem prefix_get {α : Type} {h h' : List α} (hp : h <+: h') {j : Nat} (hj : j < h.length) : h'[j]? = h[j]? := by
  obtain ⟨t, rfl⟩ := hp
  exact List.getElem?_append_left hj

theorem proc_case {d : D} {b : Bool} {S : List Obj} {o : Obj} {S' X : List Obj} {h h' : List Cell} {s s' : List (Int × V)} {v : V}
    (hF : Full Sf sh) (hf : S' <:+ Sf) (hW : W E H M d b S o S' X) (e : build (pos Sf) d h s = some (v, h', s')) :
    ∀ k, v = .proc k → h.length = h'.length ∧ ∃ b, assq k sh = some (.ptr b) := by
  rintro k rfl
  obtain ⟨q, rfl, rfl, rfl, _⟩ := build_proc e
  rw [W] at hW
  obtain ⟨_, _, _, ho, rfl, _⟩ := hW
  exact ⟨rfl, hF q (hf.subset (by simp_all))⟩

mutual
theorem patch_tree (hF : Full Sf sh) : ∀ (d : D) (b : Bool) (S : List Obj) (o : Obj) (S' X : List Obj) (h h' : List Cell)
    (s s' : List (Int × V)) (v : V) (K : List Cell) (n : Nat), W E H M d b S o S' X → S' <:+ Sf →
    build (pos Sf) d h s = some (v, h', s') → Agree h.length h'.length K h' → d.sz ≤ n →
    ∃ K', patchShared sh n v K = some K' ∧ Patched sh h.length h'.length K K'
  | .imm i, b, S, o, S', X, h, h', s, s', v, K, n, hW, hf, e, hA, hn => by
    simp only [D.sz] at hn
    obtain ⟨n, rfl⟩ : ∃ m, n = m + 1 := ⟨n - 1, by omega⟩
    simp only [build, Option.some.injEq, Prod.mk.injEq] at e
    obtain ⟨rfl, rfl, rfl⟩ := e
    exact ⟨K, by rw [patchShared]; simp, Patched.refl _ _ _⟩
  | .ref k, b, S, o, S', X, h, h', s, s', v, K, n, hW, hf, e, hA, hn => by
    simp only [D.sz] at hn
    obtain ⟨n, rfl⟩ : ∃ m, n = m + 1 := ⟨n - 1, by omega⟩
    rw [build] at e
    split at e
    · simp only [Option.some.injEq, Prod.mk.injEq] at e
      obtain ⟨rfl, rfl, rfl⟩ := e
      exact ⟨K, by rw [patchShared]; simp, Patched.refl _ _ _⟩
    · simp at e
  | .lab k d, b, S, o, S', X, h, h', s, s', v, K, n, hW, hf, e, hA, hn => by
    simp only [D.sz] at hn
    rw [W] at hW
    obtain ⟨_, _, _, _, hW⟩ := hW
    rw [build] at e
    split at e
    · simp at e
    · split at e
      · simp at e
      · next hne e1 =>
        simp only [Option.some.injEq, Prod.mk.injEq] at e
        obtain ⟨rfl, rfl, rfl⟩ := e
        exact patch_tree hF d true _ _ _ _ h _ _ _ _ K n hW hf e1 hA (by omega)
      · simp at e
  | .str x, b, S, o, S', X, h, h', s, s', v, K, n, hW, hf, e, hA, hn => by
    simp only [D.sz] at hn
    obtain ⟨n, rfl⟩ : ∃ m, n = m + 1 := ⟨n - 1, by omega⟩
    simp only [build, Option.some.injEq, Prod.mk.injEq] at e
    obtain ⟨rfl, rfl, rfl⟩ := e
    have hK := hA h.length (le_refl _) (by simp)
    rw [List.getElem?_concat_length] at hK
    refine ⟨K, ?_, fun j => ?_⟩
    · rw [patchShared]
      simp only [hK]
    · by_cases hj : j = h.length
      · subst hj
        rw [if_pos (by simp), hK]
        rfl
      · rw [if_neg (by simp; omega)]
  | .bytes x, b, S, o, S', X, h, h', s, s', v, K, n, hW, hf, e, hA, hn => by
    simp only [D.sz] at hn
    obtain ⟨n, rfl⟩ : ∃ m, n = m + 1 := ⟨n - 1, by omega⟩
    simp only [build, Option.some.injEq, Prod.mk.injEq] at e
    obtain ⟨rfl, rfl, rfl⟩ := e
    have hK := hA h.length (le_refl _) (by simp)
    rw [List.getElem?_concat_length] at hK
    refine ⟨K, ?_, fun j => ?_⟩
    · rw [patchShared]
      simp only [hK]
    · by_cases hj : j = h.length
      · subst hj
        rw [if_pos (by simp), hK]
        rfl
      · rw [if_neg (by simp; omega)]
  | .pair da dd, b, S, o, S', X, h, h', s, s', v, K, n, hW, hf, e, hA, hn => by
    simp only [D.sz] at hn
    obtain ⟨n, rfl⟩ : ∃ m, n = m + 1 := ⟨n - 1, by omega⟩
    rw [W] at hW
    obtain ⟨_, a, d, S1, X1, X2, _, hW1, hW2, _⟩ := hW
    have hf1 := (W.suffix hW2).trans hf
    rw [build] at e
    cases e1 : build (pos Sf) da h s with
    | none => simp [e1] at e
    | some p =>
      obtain ⟨v1, h1, s1⟩ := p
      simp only [e1] at e
      cases e2 : build (pos Sf) dd h1 s1 with
      | none => simp [e2] at e
      | some p =>
        obtain ⟨v2, h2, s2⟩ := p
        simp only [e2, Option.some.injEq, Prod.mk.injEq] at e
        obtain ⟨rfl, rfl, rfl⟩ := e
        have l1 := build_le da e1
        have l2 := build_le dd e2
        have n1 := l1.length_le
        have n2 := l2.length_le
        have hK := hA h2.length (by omega) (by simp)
        rw [List.getElem?_concat_length] at hK
        have hA1 : Agree h.length h1.length K h1 := by
          intro j hj hj'
          rw [hA j hj (by simp; omega), List.getElem?_append_left (by omega), prefix_get l2 hj']
        obtain ⟨K1, p1, st1⟩ := patchIx_step (n := n) (get := Cell.car) (set := Cell.setCar) hK rfl rfl (by omega)
          (proc_case hF hf1 hW1 e1) (patch_tree hF da false _ _ _ _ h h1 _ _ v1 K n hW1 hf1 e1 hA1 (by omega)) (by omega)
        have hK1 := st1 h2.length
        rw [if_pos rfl] at hK1
        have hA2 : Agree h1.length h2.length K1 h2 := by
          intro j hj hj'
          rw [st1 j, if_neg (by omega), if_neg (by omega), hA j (by omega) (by simp; omega), List.getElem?_append_left (by omega)]
        obtain ⟨K2, p2, st2⟩ := patchIx_step (n := n) (get := Cell.cdr) (set := Cell.setCdr) hK1 rfl rfl (by omega)
          (proc_case hF hf hW2 e2) (patch_tree hF dd false _ _ _ _ h1 h2 _ _ v2 K1 n hW2 hf e2 hA2 (by omega)) (by omega)
        refine ⟨K2, ?_, fun j => ?_⟩
        · rw [patchShared]
          simp only [hK, p1, Option.bind_eq_bind, Option.bind_some, p2]
        · rw [st2 j, st1 j]
          by_cases hj : j = h2.length
          · subst hj
            rw [if_pos rfl, if_pos (by simp; omega), hK]
            rfl
          · rw [if_neg hj, if_neg hj]
            simp only [List.length_append, List.length_singleton]
            by_cases hj1 : h1.length ≤ j ∧ j < h2.length
            · rw [if_pos hj1, if_neg (by omega), if_pos (by omega)]
            · rw [if_neg hj1]
              by_cases hj2 : h.length ≤ j ∧ j < h1.length
              · rw [if_pos hj2, if_pos (by omega)]
              · rw [if_neg hj2, if_neg (by omega)]
  | .vec ds, b, S, o, S', X, h, h', s, s', v, K, n, hW, hf, e, hA, hn => by
    simp only [D.sz] at hn
    obtain ⟨n, rfl⟩ : ∃ m, n = m + 1 := ⟨n - 1, by omega⟩
    rw [W] at hW
    obtain ⟨_, ws, X1, _, hW1, _⟩ := hW
    rw [build] at e
    cases e1 : builds (pos Sf) ds h s with
    | none => simp [e1] at e
    | some p =>
      obtain ⟨v1, h1, s1⟩ := p
      simp only [e1, Option.some.injEq, Prod.mk.injEq] at e
      obtain ⟨rfl, rfl, rfl⟩ := e
      have n1 := (builds_le ds e1).length_le
      have hK := hA h1.length (by omega) (by simp)
      rw [List.getElem?_concat_length] at hK
      have hA1 : Agree h.length h1.length K h1 := by
        intro j hj hj'
        rw [hA j hj (by simp; omega), List.getElem?_append_left (by omega)]
      obtain ⟨K1, p1, st1⟩ := patch_items hF ds _ _ _ _ h h1 _ _ v1 K n h1.length v1 0 hW1 hf e1 hA1 hK rfl (le_refl _) (by omega)
      refine ⟨K1, ?_, fun j => ?_⟩
      · rw [patchShared]
        simp only [hK]
        rw [List.range_eq_range']
        exact p1
      · rw [st1 j]
        simp only [List.length_append, List.length_singleton]
        by_cases hj : j = h1.length
        · subst hj
          rw [if_pos rfl, if_pos (by omega), hK]
          rfl
        · rw [if_neg hj]
          by_cases hj2 : h.length ≤ j ∧ j < h1.length
          · rw [if_pos hj2, if_pos (by omega)]
          · rw [if_neg hj2, if_neg (by omega)]
  | .box da, b, S, o, S', X, h, h', s, s', v, K, n, hW, hf, e, hA, hn => by
    simp only [D.sz] at hn
    obtain ⟨n, rfl⟩ : ∃ m, n = m + 1 := ⟨n - 1, by omega⟩
    rw [W] at hW
    obtain ⟨_, a, X1, _, hW1, hnr, _⟩ := hW
    rw [build] at e
    cases e1 : build (pos Sf) da h s with
    | none => simp [e1] at e
    | some p =>
      obtain ⟨v1, h1, s1⟩ := p
      simp only [e1, Option.some.injEq, Prod.mk.injEq] at e
      obtain ⟨rfl, rfl, rfl⟩ := e
      have n1 := (build_le da e1).length_le
      have hK := hA h1.length (by omega) (by simp)
      rw [List.getElem?_concat_length] at hK
      have hA1 : Agree h.length h1.length K h1 := by
        intro j hj hj'
        rw [hA j hj (by simp; omega), List.getElem?_append_left (by omega)]
      obtain ⟨K1, p1, st1⟩ := patch_tree hF da false _ _ _ _ h h1 _ _ v1 K n hW1 hf e1 hA1 (by omega)
      have hv1 : ∀ k, v1 ≠ .proc k := by
        rintro k rfl
        obtain ⟨q, e, _⟩ := build_proc e1
        exact hnr q e
      have hd : deref sh v1 = v1 := by
        cases v1 with
        | proc k => exact (hv1 k rfl).elim
        | _ => rfl
      refine ⟨K1, ?_, fun j => ?_⟩
      · rw [patchShared]
        simp only [hK]
        cases v1 with
        | proc k => exact (hv1 k rfl).elim
        | _ => exact p1
      · rw [st1 j]
        simp only [List.length_append, List.length_singleton]
        by_cases hj : j = h1.length
        · subst hj
          rw [if_neg (by omega), if_pos (by omega), hK]
          simp only [Option.map_some, Cell.deref, hd]
        · by_cases hj2 : h.length ≤ j ∧ j < h1.length
          · rw [if_pos hj2, if_pos (by omega)]
          · rw [if_neg hj2, if_neg (by omega)]
theorem patch_items (hF : Full Sf sh) : ∀ (ds : DS) (S ws S' X : List Obj) (h h' : List Cell) (s s' : List (Int × V)) (vs : List V)
    (K : List Cell) (n a : Nat) (us : List V) (i : Nat), Ws E H M ds S ws S' X → S' <:+ Sf →
    builds (pos Sf) ds h s = some (vs, h', s') → Agree h.length h'.length K h' → K[a]? = some (.vec us) → us.drop i = vs → h'.length ≤ a →
    ds.sz ≤ n →
    ∃ K', (List.range' i vs.length).foldlM (fun h i => patchIx sh n (patchShared sh n) (Cell.ref i) (Cell.setRef i) a h) K = some K' ∧
      Step sh h.length h'.length a (.vec (us.take i ++ vs.map (deref sh))) K K'
  | .nil, S, ws, S', X, h, h', s, s', vs, K, n, a, us, i, hW, hf, e, hA, hK, hu, ha, hn => by
    simp only [builds, Option.some.injEq, Prod.mk.injEq] at e
    obtain ⟨rfl, rfl, rfl⟩ := e
    refine ⟨K, rfl, fun j => ?_⟩
    by_cases hj : j = a
    · subst hj
      have : us.take i = us := by
        rw [List.drop_eq_nil_iff] at hu
        exact List.take_of_length_le hu
      rw [if_pos rfl, hK, this]
      simp
    · rw [if_neg hj, if_neg (by omega)]
  | .cons d ds, S, ws, S', X, h, h', s, s', vs, K, n, a, us, i, hW, hf, e, hA, hK, hu, ha, hn => by
    simp only [DS.sz] at hn
    rw [Ws] at hW
    obtain ⟨w, r, S1, X1, X2, rfl, hW1, hW2, _⟩ := hW
    have hf1 := (Ws.suffix hW2).trans hf
    rw [builds] at e
    cases e1 : build (pos Sf) d h s with
    | none => simp [e1] at e
    | some p =>
      obtain ⟨v1, h1, s1⟩ := p
      simp only [e1] at e
      cases e2 : builds (pos Sf) ds h1 s1 with
      | none => simp [e2] at e
      | some p =>
        obtain ⟨v2, h2, s2⟩ := p
        simp only [e2, Option.some.injEq, Prod.mk.injEq] at e
        obtain ⟨rfl, rfl, rfl⟩ := e
        have l1 := build_le d e1
        have l2 := builds_le ds e2
        have n1 := l1.length_le
        have n2 := l2.length_le
        have hi : i < us.length := by
          by_contra hlt
          rw [List.drop_eq_nil_of_le (by omega)] at hu
          simp at hu
        rw [List.drop_eq_getElem_cons hi] at hu
        simp only [List.cons.injEq] at hu
        obtain ⟨hu1, hu2⟩ := hu
        have hA1 : Agree h.length h1.length K h1 := by
          intro j hj hj'
          rw [hA j hj (by omega), prefix_get l2 hj']
        obtain ⟨K1, p1, st1⟩ := patchIx_step (n := n) (a := a) (get := Cell.ref i) (set := Cell.setRef i) hK
          (show us[i]? = some v1 by rw [List.getElem?_eq_getElem hi, hu1])
          (show Cell.vec (us.set i v1) = .vec us by rw [← hu1]; simp) (by omega)
          (proc_case hF hf1 hW1 e1) (patch_tree hF d false _ _ _ _ h h1 _ _ v1 K n hW1 hf1 e1 hA1 (by omega))
          (by have := pos_sz d; omega)
        have hK1 := st1 a
        rw [if_pos rfl] at hK1
        have hA2 : Agree h1.length h2.length K1 h2 := by
          intro j hj hj'
          rw [st1 j, if_neg (by omega), if_neg (by omega), hA j (by omega) (by omega)]
        obtain ⟨K2, p2, st2⟩ := patch_items hF ds _ _ _ _ h1 h2 _ _ v2 K1 n a (us.set i (deref sh v1)) (i + 1) hW2 hf e2 hA2 hK1
          (by rw [List.drop_set_of_lt (by omega), hu2]) ha (by omega)
        refine ⟨K2, ?_, fun j => ?_⟩
        · rw [List.length_cons, List.range'_succ, List.foldlM_cons, p1]
          exact p2
        · rw [st2 j, st1 j]
          by_cases hj : j = a
          · rw [if_pos hj, if_pos hj]
            congr 2
            rw [List.take_succ_eq_append_getElem (by simpa using hi), List.take_set_of_le (le_refl _)]
            simp
          · rw [if_neg hj, if_neg hj, if_neg hj]
            by_cases hj1 : h1.length ≤ j ∧ j < h2.length
            · rw [if_pos hj1, if_neg (by omega), if_pos (by omega)]
            · rw [if_neg hj1]
              by_cases hj2 : h.length ≤ j ∧ j < h1.length
              · rw [if_pos hj2, if_pos (by omega)]
              · rw [if_neg hj2, if_neg (by omega)]
end

end

end Verif.Labels

import Verif.Lists.Lemmas
/-
Helper lemmas: the pointer-based merge sort of 7.sf:23-42 computes `List.mergeSort` on the sequence of pairs.
-/
namespace Verif.Lists

theorem mergeBy_seg (less : Obj → Obj → Bool) : ∀ {f : Nat} {ps qs : List Nat} {h : Heap} {l1 l2 : Obj},
    Seg h l1 ps .nil → Seg h l2 qs .nil → (ps ++ qs).Nodup → ps.length + qs.length < f →
    ∃ h' r, mergeBy less f h l1 l2 = some (h', r) ∧
      Seg h' r (List.merge ps qs (fun p q => !less (h.car q) (h.car p))) .nil ∧ h'.car = h.car ∧ h'.next = h.next ∧
      (∀ q, q ∉ ps ++ qs → h'.cdr q = h.cdr q) := by
  intro f
  induction f with
  | zero => intro ps qs h l1 l2 _ _ _ hf; omega
  | succ f ih =>
    intro ps qs h l1 l2 h1 h2 hnd hf
    cases ps with
    | nil =>
      refine ⟨h, l2, ?_, ?_, rfl, rfl, fun _ _ => rfl⟩
      · rw [show l1 = .nil from h1]; simp [mergeBy, isPair]
      · simpa using h2
    | cons x xs =>
      obtain ⟨rfl, h1'⟩ := h1
      cases qs with
      | nil =>
        refine ⟨h, .ptr x, ?_, ?_, rfl, rfl, fun _ _ => rfl⟩
        · rw [show l2 = .nil from h2]; simp [mergeBy, isPair]
        · simpa using ⟨rfl, h1'⟩
      | cons y ys =>
        obtain ⟨rfl, h2'⟩ := h2
        have hm : mergeBy less (f + 1) h (.ptr x) (.ptr y) =
            if less (h.car y) (h.car x) then
              (mergeBy less f h (.ptr x) (h.cdr y)).bind fun r => (setCdr r.1 (.ptr y) r.2).bind fun h'' => some (h'', .ptr y)
            else
              (mergeBy less f h (h.cdr x) (.ptr y)).bind fun r => (setCdr r.1 (.ptr x) r.2).bind fun h'' => some (h'', .ptr x) := by
          simp [mergeBy, isPair, car, cdr]
        rw [hm, List.cons_merge_cons]
        by_cases hl : less (h.car y) (h.car x)
        · rw [if_pos hl]
          have hnd1 : (x :: xs ++ ys).Nodup := hnd.sublist (by simp)
          have hy : y ∉ x :: xs ++ ys := by
            rw [List.nodup_middle, List.nodup_cons] at hnd; exact hnd.1
          obtain ⟨h', r, e1, e2, e3, e4, e5⟩ := ih (h := h) (l1 := .ptr x) (ps := x :: xs) ⟨rfl, h1'⟩ h2' hnd1
            (by simp at hf ⊢; omega)
          rw [e1]
          simp only [Option.bind_some, setCdr_ptr]
          refine ⟨_, _, rfl, ?_, e3, e4, ?_⟩
          · simp only [hl, Bool.not_true, Bool.false_eq_true, if_false]
            refine ⟨rfl, ?_⟩
            simp only [if_true]
            refine e2.frame (fun q hq => if_neg ?_)
            rintro rfl
            exact hy ((List.merge_perm_append _).mem_iff.1 hq)
          · intro q hq
            simp only [List.mem_append, List.mem_cons, not_or] at hq
            simp only [if_neg hq.2.1]
            exact e5 q (by simp [hq])
        · rw [if_neg hl]
          have hnd1 : (xs ++ y :: ys).Nodup := hnd.sublist (by simp)
          have hx : x ∉ xs ++ y :: ys := by
            rw [List.cons_append, List.nodup_cons] at hnd; exact hnd.1
          obtain ⟨h', r, e1, e2, e3, e4, e5⟩ := ih (h := h) (l2 := .ptr y) (qs := y :: ys) h1' ⟨rfl, h2'⟩ hnd1
            (by simp at hf ⊢; omega)
          rw [e1]
          simp only [Option.bind_some, setCdr_ptr]
          refine ⟨_, _, rfl, ?_, e3, e4, ?_⟩
          · simp only [hl, Bool.not_false, if_true]
            refine ⟨rfl, ?_⟩
            simp only [if_true]
            refine e2.frame (fun q hq => if_neg ?_)
            rintro rfl
            exact hx ((List.merge_perm_append _).mem_iff.1 hq)
          · intro q hq
            simp only [List.mem_append, List.mem_cons, not_or] at hq
            simp only [if_neg hq.1.1]
            exact e5 q (by simp [hq])

theorem splitLoop_seg : ∀ {f : Nat} {ps ts : List Nat} {h : Heap} {hd tl : Obj},
    Seg h hd ps .nil → Seg h tl ts .nil → ts.length < ps.length → ts.length < f →
    ∃ h' x, splitLoop f h hd tl = some (h', x) ∧ Seg h' hd (ps.take (ts.length / 2 + 1)) .nil ∧
      Seg h' x (ps.drop (ts.length / 2 + 1)) .nil ∧ h'.car = h.car ∧ h'.next = h.next ∧
      (∀ q, q ∉ ps → h'.cdr q = h.cdr q) := by
  intro f
  induction f with
  | zero => intro ps ts h hd tl _ _ _ hf; omega
  | succ f ih =>
    intro ps ts h hd tl h1 h2 hlt hf
    have hnd := seg_nodup (by rfl) h1
    obtain ⟨p, ps, rfl⟩ : ∃ p ps', ps = p :: ps' := by
      cases ps with
      | nil => simp at hlt
      | cons p ps => exact ⟨p, ps, rfl⟩
    obtain ⟨rfl, h1'⟩ := h1
    rw [List.nodup_cons] at hnd
    have cut : ∃ h' x, (setCdr h (.ptr p) .nil).bind (fun h'' => some (h'', h.cdr p)) = some (h', x) ∧
        Seg h' (.ptr p) [p] .nil ∧ Seg h' x ps .nil ∧ h'.car = h.car ∧ h'.next = h.next ∧
        (∀ q, q ∉ p :: ps → h'.cdr q = h.cdr q) := by
      refine ⟨_, _, rfl, ⟨rfl, if_pos rfl⟩, h1'.frame (fun q hq => if_neg ?_), rfl, rfl, ?_⟩
      · rintro rfl; exact hnd.1 hq
      · intro q hq
        simp only [List.mem_cons, not_or] at hq
        exact if_neg hq.1
    cases ts with
    | nil =>
      rw [show tl = .nil from h2]
      simpa [splitLoop, cdr] using cut
    | cons t ts =>
      obtain ⟨rfl, h2⟩ := h2
      cases ts with
      | nil =>
        have : h.cdr t = .nil := h2
        simpa [splitLoop, cdr, this] using cut
      | cons u ts =>
        obtain ⟨h3, h4⟩ := h2
        obtain ⟨h', x, e1, e2, e3, e4, e5, e6⟩ := ih h1' h4 (by simp at hlt; omega) (by simp at hf; omega)
        refine ⟨h', x, ?_, ?_, ?_, e4, e5, ?_⟩
        · simpa [splitLoop, cdr, h3] using e1
        · have : (t :: u :: ts).length / 2 + 1 = (ts.length / 2 + 1) + 1 := by simp; omega
          rw [this, List.take_succ_cons]
          refine ⟨rfl, ?_⟩
          rw [e6 p hnd.1]
          exact e2
        · have : (t :: u :: ts).length / 2 + 1 = (ts.length / 2 + 1) + 1 := by simp; omega
          rw [this, List.drop_succ_cons]
          exact e3
        · intro q hq
          exact e6 q (by simp at hq ⊢; exact hq.2)

theorem mergeSort_split {α : Type} (l : List α) (le : α → α → Bool) (h : 2 ≤ l.length) :
    l.mergeSort le = List.merge ((l.take ((l.length + 1) / 2)).mergeSort le) ((l.drop ((l.length + 1) / 2)).mergeSort le) le := by
  match l, h with
  | a :: b :: xs, _ =>
    conv_lhs => rw [List.mergeSort]
    simp only [List.MergeSort.Internal.splitInTwo_fst, List.MergeSort.Internal.splitInTwo_snd]

theorem sortBy_seg (less : Obj → Obj → Bool) : ∀ {f inner : Nat} {ps : List Nat} {h : Heap} {l : Obj},
    Seg h l ps .nil → ps.length < f → ps.length < inner →
    ∃ h' r, sortBy less inner f h l = some (h', r) ∧
      Seg h' r (ps.mergeSort (fun p q => !less (h.car q) (h.car p))) .nil ∧ h'.car = h.car ∧ h'.next = h.next ∧
      (∀ q, q ∉ ps → h'.cdr q = h.cdr q) := by
  intro f
  induction f with
  | zero => intro inner ps h l _ hf; omega
  | succ f ih =>
    intro inner ps h l hs0 hf hi
    match ps, hs0 with
    | [], hs =>
      refine ⟨h, .nil, ?_, ?_, rfl, rfl, fun _ _ => rfl⟩
      · rw [show l = .nil from hs]; simp [sortBy]
      · simp [Seg]
    | [p], ⟨hp, hs⟩ =>
      subst hp
      refine ⟨h, .ptr p, ?_, ?_, rfl, rfl, fun _ _ => rfl⟩
      · have : h.cdr p = .nil := hs
        simp [sortBy, cdr, this]
      · simpa using ⟨rfl, hs⟩
    | p :: q :: ps, ⟨hp, hs⟩ =>
      subst hp
      have hnd : (p :: q :: ps).Nodup := seg_nodup (by rfl) (show Seg h (.ptr p) (p :: q :: ps) .nil from ⟨rfl, hs⟩)
      have hq : h.cdr p = .ptr q := hs.1
      generalize hl : (p :: q :: ps) = l' at *
      have hlen : l'.length = ps.length + 2 := by rw [← hl]; rfl
      have hmem : ∀ x, x ∈ l' → x ∈ l' := fun _ h => h
      have hseg : Seg h (.ptr p) l' .nil := by rw [← hl]; exact ⟨rfl, hs⟩
      obtain ⟨h1, x, a1, a2, a3, a4, a5, a6⟩ := splitLoop_seg (f := inner) hseg hs (by simp [hlen]) (by simp [hlen] at hi ⊢; omega)
      have hk : (q :: ps).length / 2 + 1 = (l'.length + 1) / 2 := by simp [hlen]; omega
      rw [hk] at a2 a3
      set k := (l'.length + 1) / 2 with hkd
      have htl : (l'.take k).length = k := by rw [List.length_take]; omega
      have hdl : (l'.drop k).length = l'.length - k := by rw [List.length_drop]
      have hdis : ∀ y ∈ l'.take k, y ∉ l'.drop k := by
        have := hnd
        rw [← List.take_append_drop k l', List.nodup_append] at this
        intro y hy hy'
        exact this.2.2 y hy y hy' rfl
      obtain ⟨h2, s1, b1, b2, b3, b4, b5⟩ := ih (inner := inner) a2 (by omega) (by omega)
      have a3' : Seg h2 x (l'.drop k) .nil := a3.frame (fun y hy => b5 y (fun hy' => hdis y hy' hy))
      obtain ⟨h3, s2, c1, c2, c3, c4, c5⟩ := ih (inner := inner) a3' (by omega) (by omega)
      have b2' : Seg h3 s1 ((l'.take k).mergeSort (fun p q => !less (h1.car q) (h1.car p))) .nil :=
        b2.frame (fun y hy => c5 y (fun hy' => hdis y (List.mem_mergeSort.1 hy) hy'))
      obtain ⟨h4, r, d1, d2, d3, d4, d5⟩ := mergeBy_seg less (f := inner) b2' c2
        (by
          have : (l'.take k ++ l'.drop k).Nodup := by rw [List.take_append_drop]; exact hnd
          exact (((List.mergeSort_perm _ _).append (List.mergeSort_perm _ _)).nodup_iff).2 this)
        (by simp only [List.length_mergeSort]; omega)
      refine ⟨h4, r, ?_, ?_, ?_, ?_, ?_⟩
      · simp only [sortBy, cdr, hq, reduceCtorEq, if_false, splitBy, isPair, Bool.not_true, Bool.false_eq_true,
          Option.bind_eq_bind, Option.bind_some]
        rw [← hq, a1]
        simp only [Option.bind_some]
        rw [b1]
        simp only [Option.bind_some]
        rw [c1]
        simp only [Option.bind_some]
        exact d1
      · rw [mergeSort_split _ _ (by omega)]
        rw [c3, b3, a4] at d2
        exact d2
      · rw [d3, c3, b3, a4]
      · rw [d4, c4, b4, a5]
      · intro y hy
        have h1y : y ∉ l'.take k := fun hh => hy (List.mem_of_mem_take hh)
        have h2y : y ∉ l'.drop k := fun hh => hy (List.mem_of_mem_drop hh)
        rw [d5 y (by simp [List.mem_mergeSort, h1y, h2y]), c5 y h2y, b5 y h1y, a6 y hy]

end Verif.Lists

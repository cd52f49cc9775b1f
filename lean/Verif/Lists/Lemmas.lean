import Verif.Lists.Spec
import Mathlib.Data.List.Nodup
import Mathlib.Data.List.Infix
import Mathlib.Tactic.Ring
/-
Helper lemmas about list segments on the heap.
-/
namespace Verif.Lists

theorem seg_nil {h : Heap} {o t : Obj} : Seg h o [] t ↔ o = t := Iff.rfl

theorem Seg.frame {h h' : Heap} : ∀ {ps : List Nat} {o t : Obj}, Seg h o ps t → (∀ p ∈ ps, h'.cdr p = h.cdr p) →
    Seg h' o ps t := by
  intro ps
  induction ps with
  | nil => intro o t hs _; exact hs
  | cons p ps ih =>
    intro o t hs hf
    refine ⟨hs.1, ?_⟩
    rw [hf p (by simp)]
    exact ih hs.2 (fun q hq => hf q (by simp [hq]))

theorem seg_append {h : Heap} : ∀ {ps qs : List Nat} {o t : Obj},
    Seg h o (ps ++ qs) t ↔ ∃ m, Seg h o ps m ∧ Seg h m qs t := by
  intro ps
  induction ps with
  | nil => intro qs o t; simp [Seg]
  | cons p ps ih =>
    intro qs o t
    simp only [List.cons_append, Seg, ih]
    constructor
    · rintro ⟨h1, m, h2, h3⟩; exact ⟨m, ⟨h1, h2⟩, h3⟩
    · rintro ⟨m, ⟨h1, h2⟩, h3⟩; exact ⟨h1, m, h2, h3⟩

/-- a list determines its pairs -/
theorem seg_unique {h : Heap} {t : Obj} (ht : isPair t = false) : ∀ {ps qs : List Nat} {o : Obj},
    Seg h o ps t → Seg h o qs t → ps = qs := by
  intro ps
  induction ps with
  | nil =>
    intro qs o h1 h2
    cases qs with
    | nil => rfl
    | cons q qs => rw [show o = t from h1] at h2; rw [h2.1] at ht; simp [isPair] at ht
  | cons p ps ih =>
    intro qs o h1 h2
    cases qs with
    | nil => rw [show o = t from h2] at h1; rw [h1.1] at ht; simp [isPair] at ht
    | cons q qs =>
      have : p = q := by
        have := h1.1.symm.trans h2.1
        injection this
      subst this
      rw [ih h1.2 h2.2]

/-- a list never visits a pair twice -/
theorem seg_nodup {h : Heap} {t : Obj} (ht : isPair t = false) : ∀ {ps : List Nat} {o : Obj},
    Seg h o ps t → ps.Nodup := by
  intro ps
  induction ps with
  | nil => intro o _; exact List.nodup_nil
  | cons p ps ih =>
    intro o hs
    rw [List.nodup_cons]
    refine ⟨?_, ih hs.2⟩
    intro hm
    obtain ⟨a, b, rfl⟩ := List.append_of_mem hm
    obtain ⟨m, h1, h2⟩ := seg_append.1 hs.2
    have h3 : Seg h (.ptr p) (p :: b) t := ⟨rfl, h2.2⟩
    have h4 : Seg h (.ptr p) (p :: (a ++ p :: b)) t := ⟨rfl, hs.2⟩
    have := seg_unique ht h3 h4
    have := congrArg List.length this
    simp at this
    omega

theorem lengthLoop_seg {h : Heap} : ∀ {ps : List Nat} {o : Obj} {f n : Nat}, Seg h o ps .nil → ps.length < f →
    lengthLoop h f o n = some (n + ps.length) := by
  intro ps
  induction ps with
  | nil =>
    intro o f n hs hf
    obtain ⟨f, rfl⟩ : ∃ k, f = k + 1 := ⟨f - 1, by simp at hf; omega⟩
    rw [lengthLoop, if_pos (seg_nil.1 hs)]; rfl
  | cons p ps ih =>
    intro o f n hs hf
    obtain ⟨f, rfl⟩ : ∃ k, f = k + 1 := ⟨f - 1, by omega⟩
    obtain ⟨rfl, h2⟩ := hs
    simp only [lengthLoop, cdr, reduceCtorEq, if_false, Option.bind_eq_bind, Option.bind_some]
    rw [ih h2 (by simpa using hf)]
    simp; omega

theorem AgreeBelow.refl (n : Nat) (h : Heap) : AgreeBelow n h h := fun _ _ => ⟨rfl, rfl⟩
theorem AgreeBelow.trans {n : Nat} {a b c : Heap} (h1 : AgreeBelow n a b) (h2 : AgreeBelow n b c) : AgreeBelow n a c :=
  fun p hp => ⟨(h2 p hp).1.trans (h1 p hp).1, (h2 p hp).2.trans (h1 p hp).2⟩

theorem cons_agree (h : Heap) (a d : Obj) : AgreeBelow h.next h (cons h a d).1 := by
  intro p hp
  simp only [cons]
  rw [if_neg (by omega), if_neg (by omega)]; exact ⟨rfl, rfl⟩

/-- addresses of a fresh block of pairs -/
theorem reverseLoop_seg : ∀ {ps : List Nat} {h : Heap} {o acc : Obj} {f : Nat}, Seg h o ps .nil → (∀ p ∈ ps, p < h.next) →
    ps.length < f → ∃ h' r qs, reverseLoop f h o acc = some (h', r) ∧ Seg h' r qs acc ∧
      qs.map h'.car = (ps.map h.car).reverse ∧ AgreeBelow h.next h h' ∧ h'.next = h.next + ps.length ∧
      (∀ q ∈ qs, h.next ≤ q ∧ q < h'.next) := by
  intro ps
  induction ps with
  | nil =>
    intro h o acc f hs _ hf
    obtain ⟨f, rfl⟩ : ∃ k, f = k + 1 := ⟨f - 1, by simp at hf; omega⟩
    refine ⟨h, acc, [], ?_, rfl, rfl, AgreeBelow.refl _ _, rfl, by simp⟩
    rw [reverseLoop, if_pos (seg_nil.1 hs)]
  | cons p ps ih =>
    intro h o acc f hs hb hf
    obtain ⟨f, rfl⟩ : ∃ k, f = k + 1 := ⟨f - 1, by omega⟩
    obtain ⟨rfl, h2⟩ := hs
    have hp : p < h.next := hb p (by simp)
    have hag := cons_agree h (h.car p) acc
    have hs' : Seg (cons h (h.car p) acc).1 ((cons h (h.car p) acc).1.cdr p) ps .nil := by
      rw [(hag p hp).2]
      exact h2.frame (fun q hq => (hag q (hb q (by simp [hq]))).2)
    obtain ⟨h', r, qs, e1, e2, e3, e4, e5, e6⟩ := ih (acc := (cons h (h.car p) acc).2) hs'
      (fun q hq => by have := hb q (by simp [hq]); simp [cons]; omega) (show ps.length < f by simpa using hf)
    refine ⟨h', r, qs ++ [h.next], ?_, ?_, ?_, ?_, ?_, ?_⟩
    · simp only [reverseLoop, car, cdr, reduceCtorEq, if_false, Option.bind_eq_bind, Option.bind_some]
      exact e1
    · rw [seg_append]
      refine ⟨_, e2, rfl, ?_⟩
      have := (e4 h.next (by simp [cons])).2
      rw [this]; simp [cons, Seg]
    · have hc := (e4 h.next (by simp [cons])).1
      rw [List.map_append, List.map_singleton, hc, e3, List.map_cons, List.reverse_cons]
      congr 1
      · congr 1
        apply List.map_congr_left
        intro q hq
        exact (hag q (hb q (by simp [hq]))).1
      · simp [cons]
    · exact hag.trans (fun q hq => e4 q (by simp [cons]; omega))
    · rw [e5]; simp [cons]; omega
    · intro q hq
      rw [List.mem_append, List.mem_singleton] at hq
      have hn : (cons h (h.car p) acc).1.next = h.next + 1 := rfl
      rw [hn] at e5
      rcases hq with hq | rfl
      · have := e6 q hq
        rw [hn] at this; omega
      · omega

theorem setCdr_ptr (h : Heap) (p : Nat) (d : Obj) :
    setCdr h (.ptr p) d = some { h with cdr := fun q => if q = p then d else h.cdr q } := rfl

theorem reverseBangLoop_seg : ∀ {ps vs : List Nat} {h : Heap} {o v : Obj} {f : Nat}, Seg h o ps .nil → Seg h v vs .nil →
    (ps ++ vs).Nodup → ps.length < f → ∃ h' r, reverseBangLoop f h o v = some (h', r) ∧
      Seg h' r (ps.reverse ++ vs) .nil ∧ h'.car = h.car ∧ h'.next = h.next ∧ (∀ q, q ∉ ps → h'.cdr q = h.cdr q) := by
  intro ps
  induction ps with
  | nil =>
    intro vs h o v f hs hv hnd hf
    obtain ⟨f, rfl⟩ : ∃ k, f = k + 1 := ⟨f - 1, by simp at hf; omega⟩
    exact ⟨h, v, by rw [reverseBangLoop, if_pos (seg_nil.1 hs)], hv, rfl, rfl, fun _ _ => rfl⟩
  | cons p ps ih =>
    intro vs h o v f hs hv hnd hf
    obtain ⟨f, rfl⟩ : ∃ k, f = k + 1 := ⟨f - 1, by omega⟩
    obtain ⟨rfl, h2⟩ := hs
    simp only [List.cons_append, List.nodup_cons, List.mem_append, not_or] at hnd
    obtain ⟨⟨hp1, hp2⟩, hnd⟩ := hnd
    let h1 : Heap := { h with cdr := fun q => if q = p then v else h.cdr q }
    have hs1 : Seg h1 (h.cdr p) ps .nil := h2.frame (fun q hq => if_neg (by rintro rfl; exact hp1 hq))
    have hv1 : Seg h1 (.ptr p) (p :: vs) .nil := by
      refine ⟨rfl, ?_⟩
      have : h1.cdr p = v := if_pos rfl
      rw [this]
      exact hv.frame (fun q hq => if_neg (by rintro rfl; exact hp2 hq))
    have hnd1 : (ps ++ p :: vs).Nodup := by
      rw [List.nodup_middle, List.nodup_cons]
      exact ⟨by simp [hp1, hp2], hnd⟩
    obtain ⟨h', r, e1, e2, e3, e4, e5⟩ := ih hs1 hv1 hnd1 (show ps.length < f by simpa using hf)
    refine ⟨h', r, ?_, ?_, e3, e4, ?_⟩
    · simp only [reverseBangLoop, cdr, reduceCtorEq, if_false, setCdr_ptr, Option.bind_eq_bind, Option.bind_some]
      exact e1
    · simpa using e2
    · intro q hq
      simp only [List.mem_cons, not_or] at hq
      rw [e5 q hq.2]
      exact if_neg hq.1

theorem appendLoop_seg : ∀ {ps : List Nat} {h : Heap} {l t o : Obj} {f : Nat} {fs : List Nat} {p : Nat}, Seg h l ps .nil →
    (∀ q ∈ ps, q < p) → p < h.next → Seg h o (fs ++ [p]) t → (fs ++ [p]).Nodup → (∀ q ∈ fs, q < h.next) →
    ps.length < f → ∃ h' qs, appendLoop f h l t o (some p) = some (h', o) ∧ Seg h' o (fs ++ p :: qs) t ∧
      qs.map h'.car = ps.map h.car ∧ (∀ q < h.next, h'.car q = h.car q ∧ (q ≠ p → h'.cdr q = h.cdr q)) ∧
      h'.next = h.next + ps.length ∧ (∀ q ∈ qs, h.next ≤ q ∧ q < h'.next) := by
  intro ps
  induction ps with
  | nil =>
    intro h l t o f fs p hs _ _ ho _ _ hf
    obtain ⟨f, rfl⟩ : ∃ k, f = k + 1 := ⟨f - 1, by simp at hf; omega⟩
    refine ⟨h, [], ?_, ho, rfl, fun q _ => ⟨rfl, fun _ => rfl⟩, rfl, by simp⟩
    rw [appendLoop, if_pos (seg_nil.1 hs)]
  | cons x ps ih =>
    intro h l t o f fs p hs hps hp ho hnd hfs hf
    obtain ⟨f, rfl⟩ : ∃ k, f = k + 1 := ⟨f - 1, by omega⟩
    obtain ⟨rfl, h2⟩ := hs
    have hx : x < p := hps x (by simp)
    let h1 := (cons h (h.car x) t).1
    let h3 : Heap := { h1 with cdr := fun q => if q = p then .ptr h.next else h1.cdr q }
    have c1 : ∀ q < h.next, h3.car q = h.car q := by
      intro q hq; change h1.car q = _; simp [h1, cons]; omega
    have d1 : ∀ q < h.next, q ≠ p → h3.cdr q = h.cdr q := by
      intro q hq hqp; change (if q = p then _ else h1.cdr q) = _
      rw [if_neg hqp]; simp [h1, cons]; omega
    have dp : h3.cdr p = .ptr h.next := if_pos rfl
    have dn : h3.cdr h.next = t := by
      change (if h.next = p then _ else h1.cdr h.next) = _
      rw [if_neg (by omega)]; simp [h1, cons]
    have cn : h3.car h.next = h.car x := by change h1.car h.next = _; simp [h1, cons]
    have hs3 : Seg h3 (h3.cdr x) ps .nil := by
      rw [d1 x (by omega) (by omega)]
      exact h2.frame (fun q hq => by have := hps q (by simp [hq]); exact d1 q (by omega) (by omega))
    have hnx : h3.next = h.next + 1 := rfl
    have ho3 : Seg h3 o ((fs ++ [p]) ++ [h.next]) t := by
      obtain ⟨m, g1, g2⟩ := seg_append.1 ho
      rw [List.append_assoc, seg_append]
      refine ⟨m, g1.frame (fun q hq => d1 q (hfs q hq) ?_), g2.1, ?_⟩
      · rintro rfl
        rw [List.nodup_append] at hnd
        exact hnd.2.2 q hq q (by simp) rfl
      · rw [dp]; exact ⟨rfl, dn⟩
    obtain ⟨h', qs, e1, e2, e3, e4, e5, e6⟩ := ih (h := h3) (l := h3.cdr x) (t := t) (o := o) (f := f) (fs := fs ++ [p])
      (p := h.next) hs3 (fun q hq => by have := hps q (by simp [hq]); omega) (by rw [hnx]; omega) ho3
      (by
        rw [List.nodup_append]
        refine ⟨hnd, by simp, ?_⟩
        intro a ha b hb
        simp only [List.mem_append, List.mem_singleton] at ha hb
        rcases ha with ha | rfl
        · have := hfs a ha; omega
        · omega)
      (by
        intro q hq
        simp only [List.mem_append, List.mem_singleton] at hq
        rw [hnx]
        rcases hq with hq | rfl
        · have := hfs q hq; omega
        · omega)
      (show ps.length < f by simpa using hf)
    refine ⟨h', h.next :: qs, ?_, ?_, ?_, ?_, ?_, ?_⟩
    · simp only [appendLoop, car, reduceCtorEq, if_false, setCdr_ptr, Option.bind_eq_bind, Option.bind_some, cdr]
      exact e1
    · simpa using e2
    · rw [List.map_cons, List.map_cons, e3, (e4 h.next (by rw [hnx]; omega)).1, cn]
      congr 1
      apply List.map_congr_left
      intro q hq
      have := hps q (by simp [hq])
      exact c1 q (by omega)
    · intro q hq
      have := e4 q (by rw [hnx]; omega)
      refine ⟨this.1.trans (c1 q hq), fun hqp => (this.2 (by omega)).trans (d1 q hq hqp)⟩
    · rw [e5, hnx]; simp; omega
    · intro q hq
      rw [hnx] at e5
      rcases List.mem_cons.1 hq with rfl | hq
      · omega
      · have := e6 q hq; rw [hnx] at this; omega

theorem append2_seg {ps : List Nat} {h : Heap} {l t : Obj} {f : Nat} (hs : Seg h l ps .nil)
    (hb : ∀ p ∈ ps, p < h.next) (hf : ps.length < f) : ∃ h' r qs, append2 h f l t = some (h', r) ∧ Seg h' r qs t ∧
      qs.map h'.car = ps.map h.car ∧ AgreeBelow h.next h h' ∧ h'.next = h.next + ps.length ∧
      (∀ q ∈ qs, h.next ≤ q ∧ q < h'.next) := by
  obtain ⟨f, rfl⟩ : ∃ k, f = k + 1 := ⟨f - 1, by omega⟩
  unfold append2 length
  rw [lengthLoop_seg hs hf]
  simp only [Option.bind_eq_bind, Option.bind_some]
  cases ps with
  | nil =>
    refine ⟨h, t, [], ?_, rfl, rfl, AgreeBelow.refl _ _, rfl, by simp⟩
    rw [appendLoop, if_pos (seg_nil.1 hs)]
  | cons x ps =>
    obtain ⟨rfl, h2⟩ := hs
    have hx := hb x (by simp)
    let h1 := (cons h (h.car x) t).1
    have hag : AgreeBelow h.next h h1 := cons_agree h _ _
    have hnx : h1.next = h.next + 1 := rfl
    have hs1 : Seg h1 (h1.cdr x) ps .nil := by
      rw [(hag x hx).2]; exact h2.frame (fun q hq => (hag q (hb q (by simp [hq]))).2)
    obtain ⟨h', qs, e1, e2, e3, e4, e5, e6⟩ := appendLoop_seg (h := h1) (t := t) (o := .ptr h.next) (f := f) (fs := [])
      (p := h.next) hs1 (fun q hq => hb q (by simp [hq])) (by rw [hnx]; omega) (by simp [Seg, h1, cons]) (by simp) (by simp)
      (show ps.length < f by simpa using hf)
    refine ⟨h', .ptr h.next, h.next :: qs, ?_, by simpa using e2, ?_, ?_, ?_, ?_⟩
    · simp only [appendLoop, car, reduceCtorEq, if_false, Option.bind_eq_bind, Option.bind_some, cdr]
      exact e1
    · rw [List.map_cons, List.map_cons, e3, (e4 h.next (by rw [hnx]; omega)).1]
      congr 1
      · simp [h1, cons]
      · apply List.map_congr_left
        intro q hq
        exact (hag q (hb q (by simp [hq]))).1
    · intro q hq
      have := e4 q (by rw [hnx]; omega)
      exact ⟨this.1.trans (hag q hq).1, (this.2 (by omega)).trans (hag q hq).2⟩
    · rw [e5, hnx]; simp; omega
    · intro q hq
      rw [hnx] at e5
      rcases List.mem_cons.1 hq with rfl | hq
      · omega
      · have := e6 q hq; rw [hnx] at this; omega

end Verif.Lists

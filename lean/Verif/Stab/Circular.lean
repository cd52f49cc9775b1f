import Verif.Stab.Table
import Mathlib.Logic.Relation
/-
C14: circular?.
-/
namespace Verif.Stab
open Verif.Equal (Obj Heap Node feq seq)

variable {F : Type} [DecidableEq F]

/-- `y` is a word of the block `x` -/
def Edge (H : Heap F) (y x : Obj) : Prop := ∃ ws, H x = some (.blk ws) ∧ y ∈ ws

/-- `y` can be reached from `x` -/
def Reach (H : Heap F) (x y : Obj) : Prop := Relation.ReflTransGen (Edge H) y x

/-- `y` lies on a cycle -/
def OnCycle (H : Heap F) (y : Obj) : Prop := Relation.TransGen (Edge H) y y

/-- heap objects have even nonzero addresses and blocks have at least one word (the tag, type or code word) -/
structure Heap.Ok (H : Heap F) : Prop where
  addr : ∀ o, H o ≠ none → Addr o
  nonempty : ∀ o, H o ≠ some (.blk [])

/-- in the table -/
def Live (t : Tab) (o : Nat) : Prop := ∃ m, Has t o m

open Classical in
/-- number of objects of `dom` not in the table -/
noncomputable def missing (dom : List Nat) (t : Tab) : Nat := (dom.filter fun o => ¬ Live t o).length

theorem missing_le {dom : List Nat} {t t' : Tab} (h : ∀ o ∈ dom, Live t o → Live t' o) : missing dom t' ≤ missing dom t := by
  classical
  unfold missing
  induction dom with
  | nil => simp
  | cons a l ih =>
    have := ih fun o ho => h o (by simp [ho])
    have ha := h a (by simp)
    by_cases h1 : Live t a
    · simpa [h1, ha h1] using this
    · by_cases h2 : Live t' a
      · simp only [List.filter_cons, h1, h2, not_true_eq_false, not_false_eq_true, decide_true, decide_false, if_true,
          Bool.false_eq_true, if_false, List.length_cons]
        omega
      · simpa [h1, h2] using this

theorem missing_lt {dom : List Nat} {t t' : Tab} (h : ∀ o ∈ dom, Live t o → Live t' o) {o : Nat} (ho : o ∈ dom) (h1 : ¬ Live t o)
    (h2 : Live t' o) : missing dom t' < missing dom t := by
  classical
  unfold missing
  induction dom with
  | nil => simp at ho
  | cons a l ih =>
    have hl : ∀ o ∈ l, Live t o → Live t' o := fun o ho => h o (by simp [ho])
    have hle : (l.filter fun o => ¬ Live t' o).length ≤ (l.filter fun o => ¬ Live t o).length := missing_le hl
    by_cases hao : a = o
    · subst hao
      simp only [List.filter_cons, h1, h2, not_true_eq_false, not_false_eq_true, decide_true, decide_false, if_true,
        Bool.false_eq_true, if_false, List.length_cons]
      omega
    · have := ih hl (by simpa [Ne.symm hao] using ho)
      have ha := h a (by simp)
      by_cases h1 : Live t a
      · simpa [h1, ha h1] using this
      · by_cases h2 : Live t' a
        · simp only [List.filter_cons, h1, h2, not_true_eq_false, not_false_eq_true, decide_true, decide_false, if_true,
            Bool.false_eq_true, if_false, List.length_cons]
          omega
        · simpa [h1, h2] using this

theorem unwind_spec {R : List Nat} (hR : R = [] ∨ ∃ R', R = 0 :: R') : ∀ (P : List Nat) (t : Tab), Inv t → (∀ q ∈ P, Addr q) →
    ∃ t', unwind t (P ++ R) = some ⟨t', R⟩ ∧ Inv t' ∧ ∀ q, Addr q → ∀ m, Has t' q m ↔ (Has t q m ∧ (q ∈ P → m = true)) := by
  intro P
  induction P with
  | nil =>
    intro t hI _
    refine ⟨t, ?_, hI, by simp⟩
    rcases hR with rfl | ⟨R', rfl⟩
    · rfl
    · simp [unwind]
  | cons a P ih =>
    intro t hI hP
    have ha := hP a (by simp)
    obtain ⟨t1, e1, h1, h2⟩ := stabdelifu_spec hI ha
    obtain ⟨t2, e2, h3, h4⟩ := ih t1 h1 fun q hq => hP q (by simp [hq])
    refine ⟨t2, ?_, h3, fun q hq m => ?_⟩
    · rw [List.cons_append]
      unfold unwind
      rw [if_neg ha.1, e1]
      exact e2
    · rw [h4 q hq m, h2 q hq m]
      simp only [List.mem_cons]
      constructor
      · rintro ⟨⟨h, h5⟩, h6⟩
        refine ⟨h, ?_⟩
        rintro (h7 | h7)
        · exact h5 h7
        · exact h6 h7
      · rintro ⟨h, h5⟩
        exact ⟨⟨h, fun h7 => h5 (.inl h7)⟩, fun h7 => h5 (.inr h7)⟩

/-- state before a call on `o`: `anc` are the blocks on the path to `o`, `D` a set closed under `Edge` -/
structure Pre (H : Heap F) (D : Nat → Prop) (anc : List Nat) (o : Nat) (t : Tab) : Prop where
  inv : Inv t
  dom : D o
  plain : ∀ q, Addr q → Has t q false → q ∈ anc
  path : ∀ a ∈ anc, Relation.TransGen (Edge H) o a
  marked : ∀ q, Addr q → Has t q true → D q ∧ OnCycle H q

/-- `y` is a word of the block `x`, and `x` is not marked -/
def Plain (H : Heap F) (t : Tab) (y x : Obj) : Prop := Edge H y x ∧ ¬ Has t x true

theorem Plain.mono {H : Heap F} (hok : Heap.Ok H) {t t' : Tab} (h : ∀ q, Addr q → Has t q true → Has t' q true) {o : Obj}
    (ha : Acc (Plain H t) o) : Acc (Plain H t') o := by
  refine Subrelation.accessible (r := Plain H t) ?_ ha
  rintro y x ⟨⟨ws, e, hy⟩, h2⟩
  exact ⟨⟨ws, e, hy⟩, fun h3 => h2 (h x (hok.addr x (by rw [e]; simp)) h3)⟩

/-- effect of a call on `o` with stack segment `P` -/
structure Post (H : Heap F) (D : Nat → Prop) (P : List Nat) (o : Nat) (t t' : Tab) : Prop where
  inv : Inv t'
  plain : ∀ q, Addr q → Has t' q false → Has t q false ∧ q ∉ P
  marked : ∀ q, Addr q → Has t' q true → D q ∧ OnCycle H q
  marks : ∀ q, Addr q → Has t q true → Has t' q true
  keep : ∀ q, Addr q → Live t q → q ∉ P → Live t' q
  acc : Acc (Plain H t') o
  kids : ∀ q, Addr q → Has t' q true → ¬ Live t q → ∀ c, Edge H c q → Acc (Plain H t') c

section
variable {H : Heap F} {D : Nat → Prop} {dom : List Nat}

/-- the claim for one amount of fuel -/
def Spec (H : Heap F) (D : Nat → Prop) (dom : List Nat) (n : Nat) : Prop :=
  ∀ o t anc P R, Pre H D anc o t → (∀ a ∈ anc, D a) → (∀ q ∈ P, Addr q) → (R = [] ∨ ∃ R', R = 0 :: R') → missing dom t < n →
    ∃ t', stabcircular H n o ⟨t, P ++ R⟩ = some ⟨t', R⟩ ∧ Post H D P o t t'

theorem fold_spec (hok : Heap.Ok H) {n : Nat} (hS : Spec H D dom n) (hdom : ∀ q ∈ dom, Addr q) {anc : List Nat} (hanc : ∀ a ∈ anc, D a) {r : List Nat} :
    ∀ (ws : List Nat) (t : Tab), Inv t → (∀ w ∈ ws, D w ∧ ∀ a ∈ anc, Relation.TransGen (Edge H) w a) →
      (∀ q, Addr q → Has t q false → q ∈ anc) → (∀ q, Addr q → Has t q true → D q ∧ OnCycle H q) → missing dom t < n →
    ∃ t', ws.foldlM (fun s w => stabcircular H n w s) (⟨t, 0 :: r⟩ : St) = some ⟨t', 0 :: r⟩ ∧ Inv t' ∧
      (∀ q, Addr q → Has t' q false → Has t q false) ∧ (∀ q, Addr q → Has t' q true → D q ∧ OnCycle H q) ∧
      (∀ q, Addr q → Has t q true → Has t' q true) ∧ (∀ q, Addr q → Live t q → Live t' q) ∧
      (∀ w ∈ ws, Acc (Plain H t') w) ∧
      (∀ q, Addr q → Has t' q true → ¬ Live t q → ∀ c, Edge H c q → Acc (Plain H t') c) := by
  intro ws
  induction ws with
  | nil =>
    intro t hI _ _ hm _
    exact ⟨t, rfl, hI, fun _ _ h => h, hm, fun _ _ h => h, fun _ _ h => h, by simp, fun q _ h hn => (hn ⟨true, h⟩).elim⟩
  | cons w ws ih =>
    intro t hI hw hpl hmk hmis
    obtain ⟨hwd, hwa⟩ := hw w (by simp)
    obtain ⟨t1, e1, p1⟩ := hS w t anc [] (0 :: r) ⟨hI, hwd, hpl, hwa, hmk⟩ hanc (by simp) (.inr ⟨r, rfl⟩) hmis
    have hmis1 : missing dom t1 < n := by
      refine lt_of_le_of_lt (missing_le fun o ho hl => p1.keep o (hdom o ho) hl (by simp)) hmis
    obtain ⟨t2, e2, h1, h2, h3, h4, h5, h6, h7⟩ := ih t1 p1.inv (fun q hq => hw q (by simp [hq]))
      (fun q hq h => hpl q hq (p1.plain q hq h).1) p1.marked hmis1
    refine ⟨t2, ?_, h1, fun q hq h => (p1.plain q hq (h2 q hq h)).1, h3, fun q hq h => h4 q hq (p1.marks q hq h),
      fun q hq h => h5 q hq (p1.keep q hq h (by simp)), fun q hq => ?_, fun q hq h hn c hc => ?_⟩
    · rw [List.foldlM_cons]
      rw [List.nil_append] at e1
      rw [e1]
      exact e2
    · rcases List.mem_cons.1 hq with e | hq
      · rw [e]
        exact Plain.mono hok h4 p1.acc
      · exact h6 q hq
    · by_cases hl : Live t1 q
      · obtain ⟨m, hm⟩ := hl
        cases m with
        | false => exact (hn ⟨false, (p1.plain q hq hm).1⟩).elim
        | true => exact Plain.mono hok h4 (p1.kids q hq hm hn c hc)
      · exact h7 q hq h hl c hc

theorem circular_spec (hok : Heap.Ok H) (hcl : ∀ x y, D x → Edge H y x → D y) (hdom : ∀ q ∈ dom, Addr q)
    (hD : ∀ q, D q → H q ≠ none → q ∈ dom) : ∀ n, Spec H D dom n := by
  intro n
  induction n with
  | zero => intro o t anc P R _ _ _ _ h; omega
  | succ n ih =>
    intro o t anc P R hpre hanc hP hR hmis
    -- the case where `o` is no block
    have leaf : (∀ ws, H o ≠ some (.blk ws)) → stabnew H o t true = some (false, t) →
        ∃ t', stabcircular H (n + 1) o ⟨t, P ++ R⟩ = some ⟨t', R⟩ ∧ Post H D P o t t' := by
      intro hb hn
      obtain ⟨t', e, h1, h2⟩ := unwind_spec hR P t hpre.inv hP
      refine ⟨t', ?_, h1, ?_, ?_, ?_, ?_, ?_, fun q hq h hn => (hn ⟨true, ((h2 q hq true).1 h).1⟩).elim⟩
      · unfold stabcircular
        simp only [hn, Option.bind_eq_bind, Option.bind_some, Bool.false_eq_true, if_false]
        exact e
      · intro q hq h
        have := (h2 q hq false).1 h
        exact ⟨this.1, fun hq => by simpa using this.2 hq⟩
      · intro q hq h; exact hpre.marked q hq ((h2 q hq true).1 h).1
      · intro q hq h; exact (h2 q hq true).2 ⟨h, fun _ => rfl⟩
      · rintro q hq ⟨m, h⟩ hqP; exact ⟨m, (h2 q hq m).2 ⟨h, fun h => (hqP h).elim⟩⟩
      · refine ⟨_, ?_⟩
        rintro y ⟨⟨ws, e, _⟩, _⟩
        exact (hb ws e).elim
    cases eo : H o with
    | none => exact leaf (by simp [eo]) (by simp [stabnew, eo])
    | some nd =>
      by_cases hblk : ∃ ws, nd = .blk ws
      · obtain ⟨ws, rfl⟩ := hblk
        have ho : Addr o := hok.addr o (by simp [eo])
        obtain ⟨b, t1, en, hnew⟩ := stabnew_spec (H := H) (circ := true) hpre.inv ho (by simp [eo]) (by simp [isNative, eo])
        cases hnew with
        | @mark _ m0 hI hm0 hmk =>
          obtain ⟨t', e, h1, h2⟩ := unwind_spec hR P t1 hI hP
          have hmark : Has t' o true := (h2 o ho true).2 ⟨(hmk o ho true).2 (.inr ⟨rfl, rfl⟩), fun _ => rfl⟩
          refine ⟨t', ?_, h1, ?_, ?_, ?_, ?_, ?_, ?_⟩
          · unfold stabcircular
            simp only [en, Option.bind_eq_bind, Option.bind_some, Bool.false_eq_true, if_false]
            exact e
          · intro q hq h
            obtain ⟨h3, h4⟩ := (h2 q hq false).1 h
            rcases (hmk q hq false).1 h3 with h5 | h5
            · exact ⟨h5.2, fun hq => by simpa using h4 hq⟩
            · simp at h5
          · intro q hq h
            obtain ⟨h3, h4⟩ := (h2 q hq true).1 h
            rcases (hmk q hq true).1 h3 with h5 | ⟨h5, _⟩
            · exact hpre.marked q hq h5.2
            · subst h5
              cases m0 with
              | true => exact hpre.marked q hq hm0
              | false => exact ⟨hpre.dom, hpre.path q (hpre.plain q hq hm0)⟩
          · intro q hq h
            refine (h2 q hq true).2 ⟨(hmk q hq true).2 ?_, fun _ => rfl⟩
            by_cases hqo : q = o
            · exact .inr ⟨hqo, rfl⟩
            · exact .inl ⟨hqo, h⟩
          · rintro q hq ⟨m, h⟩ hqP
            by_cases hqo : q = o
            · exact ⟨true, by rw [hqo]; exact hmark⟩
            · exact ⟨m, (h2 q hq m).2 ⟨(hmk q hq m).2 (.inl ⟨hqo, h⟩), fun h => (hqP h).elim⟩⟩
          · exact ⟨_, fun y hy => (hy.2 hmark).elim⟩
          · intro q hq h hn
            rcases (hmk q hq true).1 ((h2 q hq true).1 h).1 with h5 | h5
            · exact (hn ⟨true, h5.2⟩).elim
            · exact (hn ⟨m0, by rw [h5.1]; exact hm0⟩).elim
        | add hI habs hadd =>
          have hlive : ∀ q ∈ dom, Live t q → Live t1 q := fun q hq ⟨m, h⟩ => ⟨m, (hadd q (hdom q hq) m).2 (.inl h)⟩
          have hmis1 : missing dom t1 < n := by
            have := missing_lt hlive (hD o hpre.dom (by simp [eo])) (fun ⟨m, h⟩ => habs m h)
              ⟨false, (hadd o ho false).2 (.inr ⟨rfl, rfl⟩)⟩
            omega
          have hws : ∀ w ∈ ws, D w ∧ ∀ a ∈ o :: anc, Relation.TransGen (Edge H) w a := by
            intro w hw
            have he : Edge H w o := ⟨ws, eo, hw⟩
            refine ⟨hcl o w hpre.dom he, fun a ha => ?_⟩
            rcases List.mem_cons.1 ha with e | ha
            · rw [e]; exact .single he
            · exact Relation.TransGen.head he (hpre.path a ha)
          have hanc' : ∀ a ∈ o :: anc, D a := by
            intro a ha
            rcases List.mem_cons.1 ha with e | ha
            · rw [e]; exact hpre.dom
            · exact hanc a ha
          have hpl1 : ∀ q, Addr q → Has t1 q false → q ∈ o :: anc := by
            intro q hq h
            rcases (hadd q hq false).1 h with h | h
            · exact List.mem_cons_of_mem _ (hpre.plain q hq h)
            · rw [h.1]; simp
          have hmk1 : ∀ q, Addr q → Has t1 q true → D q ∧ OnCycle H q := by
            intro q hq h
            rcases (hadd q hq true).1 h with h | h
            · exact hpre.marked q hq h
            · simp at h
          obtain ⟨t2, e2, i2, f1, f2, f3, f4, f5, f6⟩ := fold_spec hok ih hdom hanc' (r := P ++ R) ws.dropLast t1 hI
            (fun w hw => hws w (List.dropLast_subset ws hw)) hpl1 hmk1 hmis1
          have hne : ws ≠ [] := fun e => hok.nonempty o (by rw [eo, e])
          have hlast := List.getLast?_eq_getLast_of_ne_nil hne
          have hlm : ws.getLast hne ∈ ws := List.getLast_mem hne
          have hmis2 : missing dom t2 < n := lt_of_le_of_lt (missing_le fun q hq h => f4 q (hdom q hq) h) hmis1
          obtain ⟨t3, e3, p3⟩ := ih (ws.getLast hne) t2 (o :: anc) (o :: P) R
            ⟨i2, (hws _ hlm).1, fun q hq h => hpl1 q hq (f1 q hq h), (hws _ hlm).2, f2⟩ hanc'
            (fun q hq => by
              rcases List.mem_cons.1 hq with e | hq
              · rw [e]; exact ho
              · exact hP q hq) hR hmis2
          have hkids : ∀ y, Edge H y o → Acc (Plain H t3) y := by
            rintro y ⟨ws', e', hy⟩
            rw [eo] at e'
            simp only [Option.some.injEq, Node.blk.injEq] at e'
            subst e'
            by_cases hyl : y = ws.getLast hne
            · rw [hyl]; exact p3.acc
            · refine Plain.mono hok p3.marks (f5 y ?_)
              have := List.dropLast_append_getLast hne
              rw [← this, List.mem_append] at hy
              simpa [hyl] using hy
          refine ⟨t3, ?_, p3.inv, ?_, p3.marked, ?_, ?_, ⟨_, fun y hy => hkids y hy.1⟩, ?_⟩
          · unfold stabcircular
            simp only [en, eo, Option.bind_eq_bind, Option.bind_some, if_true, e2, pop, hlast]
            exact e3
          · intro q hq h
            obtain ⟨h1, h2⟩ := p3.plain q hq h
            simp only [List.mem_cons, not_or] at h2
            rcases (hadd q hq false).1 (f1 q hq h1) with h3 | h3
            · exact ⟨h3, h2.2⟩
            · exact (h2.1 h3.1).elim
          · intro q hq h
            exact p3.marks q hq (f3 q hq ((hadd q hq true).2 (.inl h)))
          · rintro q hq ⟨m, h⟩ hqP
            refine p3.keep q hq (f4 q hq ⟨m, (hadd q hq m).2 (.inl h)⟩) ?_
            simp only [List.mem_cons, not_or]
            refine ⟨?_, hqP⟩
            rintro rfl
            exact habs m h
          · intro q hq h hn c hc
            by_cases hqo : q = o
            · rw [hqo] at hc
              exact hkids c hc
            · have hn1 : ¬ Live t1 q := by
                rintro ⟨m, hm⟩
                rcases (hadd q hq m).1 hm with h5 | h5
                · exact hn ⟨m, h5⟩
                · exact hqo h5.1
              by_cases hl : Live t2 q
              · obtain ⟨m, hm⟩ := hl
                cases m with
                | false => exact (hn1 ⟨false, f1 q hq hm⟩).elim
                | true => exact Plain.mono hok p3.marks (f6 q hq hm hn1 c hc)
              · exact p3.kids q hq h hl c hc
      · refine leaf (fun ws e => hblk ⟨ws, by simpa [eo] using e⟩) ?_
        unfold stabnew
        have : isNative H o = true := by
          unfold isNative
          rw [eo]
          cases nd <;> simp_all
        rw [if_neg (by simp [eo]), this]
        simp

/-- C14: on every finite heap graph circular? terminates and answers true iff a cycle is reachable.  `dom` lists the heap objects
reachable from `x`. -/
theorem c14_circular (H : Heap F) (hok : Heap.Ok H) (x : Obj) (dom : List Obj)
    (hdom : ∀ y, Reach H x y → H y ≠ none → y ∈ dom) :
    ∃ b, (∀ n > dom.length, iscircular H n x = some b) ∧ (b = true ↔ ∃ z, Reach H x z ∧ OnCycle H z) := by
  classical
  by_cases hx : H x = none
  · refine ⟨false, fun n _ => by simp [iscircular, hx], ?_⟩
    simp only [Bool.false_eq_true, false_iff, not_exists, not_and]
    intro z hz hc
    have hlow : ∀ y, ¬ Edge H y x := by rintro y ⟨ws, e, _⟩; rw [hx] at e; simp at e
    have hzx : z = x := by
      rcases Relation.ReflTransGen.cases_tail hz with h | ⟨y, _, h⟩
      · exact h.symm
      · exact (hlow y h).elim
    subst hzx
    rcases Relation.TransGen.tail'_iff.1 hc with ⟨y, _, h⟩
    exact hlow y h
  · let D : Nat → Prop := Reach H x
    let dom' := dom.filter fun q => H q ≠ none
    have hd' : ∀ q ∈ dom', Addr q := fun q hq => hok.addr q (by simpa [dom'] using (List.mem_filter.1 hq).2)
    have hlen : dom'.length ≤ dom.length := List.length_filter_le _ _
    have hspec := circular_spec (H := H) (D := D) (dom := dom') hok (fun a b ha hb => Relation.ReflTransGen.head hb ha) hd'
      (fun q hq hn => List.mem_filter.2 ⟨hdom q hq hn, by simpa using hn⟩)
    have hmis : missing dom' newTab ≤ dom'.length := List.length_filter_le _ _
    have run : ∀ n > dom.length, ∃ t', stabcircular H n x ⟨newTab, []⟩ = some ⟨t', []⟩ ∧ Post H D [] x newTab t' := by
      intro n hn
      exact hspec n x newTab [] [] [] ⟨inv_new, .refl, fun q hq h => (has_new q hq false h).elim, by simp,
        fun q hq h => (has_new q hq true h).elim⟩ (by simp) (by simp) (.inl rfl) (by omega)
    have main : ∀ n > dom.length, ∃ b, iscircular H n x = some b ∧ (b = true ↔ ∃ z, Reach H x z ∧ OnCycle H z) := by
      intro n hn
      obtain ⟨t', e, hp⟩ := run n hn
      obtain ⟨r, er, hr⟩ := stabend_spec hp.inv
      refine ⟨r.isSome, by simp [iscircular, hx, e, er], ?_⟩
      rw [hr]
      constructor
      · rintro ⟨i, hi, hm⟩
        simp only [markW, Bool.and_eq_true, decide_eq_true_eq, beq_iff_eq] at hm
        have ha : Addr (key (t'.v i)) := ⟨hm.1, by unfold key; omega⟩
        exact ⟨_, hp.marked _ ha ⟨i, hi, by unfold key; simp only [Bool.toNat_true]; omega⟩⟩
      · rintro ⟨z, hz, hc⟩
        by_contra hno
        have hnone : ∀ q, Addr q → ¬ Has t' q true := fun q hq ⟨i, hi, h⟩ => hno ⟨i, hi, by
          have h1 := key_add hq true
          rw [← h] at h1
          unfold markW
          rw [h1, h]
          simp only [Bool.and_eq_true, decide_eq_true_eq, beq_iff_eq, Bool.toNat_true]
          exact ⟨hq.1, by have := hq.2; omega⟩⟩
        have hacc : Acc (Edge H) x := by
          refine Subrelation.accessible (r := Plain H t') ?_ hp.acc
          rintro y z ⟨ws, e, hy⟩
          exact ⟨⟨ws, e, hy⟩, hnone z (hok.addr z (by rw [e]; simp))⟩
        have hz' : Acc (Edge H) z := by
          clear hc
          induction hz using Relation.ReflTransGen.head_induction_on with
          | refl => exact hacc
          | head h _ ih => exact ih.inv h
        have hwf : Acc (Relation.TransGen (Edge H)) z := hz'.transGen
        have irr : ∀ {a : Nat}, Acc (Relation.TransGen (Edge H)) a → ¬ Relation.TransGen (Edge H) a a := by
          intro a ha
          induction ha with
          | intro a _ ih => intro h; exact ih a h h
        exact irr hwf hc
    obtain ⟨b, hb, hiff⟩ := main (dom.length + 1) (by omega)
    refine ⟨b, fun n hn => ?_, hiff⟩
    obtain ⟨b', hb', hiff'⟩ := main n hn
    rw [hb']
    congr 1
    rw [Bool.eq_iff_iff, hiff, hiff']

end

/-- a pair whose cdr is itself, and a list sharing one tail twice -/
def cyclic : Heap Nat := fun o => if o = 8 then some (.blk [5, 3, 8]) else none
def shared : Heap Nat := fun o => if o = 8 then some (.blk [5, 16, 16]) else if o = 16 then some (.blk [5, 3, 7]) else none

theorem cyclic_ok : Heap.Ok cyclic := by
  constructor
  · intro o h; unfold cyclic at h; split at h
    · next e => subst e; exact ⟨by decide, by decide⟩
    · simp at h
  · intro o h; unfold cyclic at h; split at h <;> simp at h

example : iscircular cyclic 3 8 = some true := by decide +kernel
example : iscircular shared 4 8 = some false := by decide +kernel
example : ∀ y, Reach cyclic 8 y → cyclic y ≠ none → y ∈ [8] := by
  intro y _ h; unfold cyclic at h; split at h
  · next e => simp [e]
  · simp at h

end Verif.Stab

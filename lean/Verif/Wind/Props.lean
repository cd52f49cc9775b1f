import Verif.Wind.Spec
import Mathlib.Data.List.Basic
import Mathlib.Tactic.Common
/-
C21: dynamic-wind.
-/
namespace Verif.Wind

variable {Thunk : Type}

/-- parents are older than their children -/
def WF (t : Tree Thunk) : Prop := ∀ (x : Nat) (e : Extent Thunk), t[x]? = some e → e.parent ≤ x

theorem enclosing_fuel {t : Tree Thunk} (hw : WF t) : ∀ {n m x : Nat}, x < n → x < m → enclosing t n x = enclosing t m x := by
  intro n
  induction n with
  | zero => intro m x h; omega
  | succ n ih =>
    intro m x h1 h2
    obtain ⟨m, rfl⟩ : ∃ k, m = k + 1 := ⟨m - 1, by omega⟩
    cases x with
    | zero => rfl
    | succ x =>
      simp only [enclosing]
      match e : t[x]? with
      | none => rfl
      | some ex =>
        have := hw x ex e
        simp only
        rw [ih (m := m) (by omega) (by omega)]

theorem inside_zero {t : Tree Thunk} : inside t 0 = [] := rfl

theorem inside_succ {t : Tree Thunk} (hw : WF t) {x : Nat} {e : Extent Thunk} (h : t[x]? = some e) :
    inside t (x + 1) = (x + 1) :: inside t e.parent := by
  have := hw x e h
  conv_lhs => rw [inside, enclosing]
  rw [h]
  simp only
  rw [inside, enclosing_fuel hw (m := e.parent + 1) (by omega) (by omega)]

theorem get_some {t : Tree Thunk} {x : Nat} (h : x < t.length) : ∃ e, t[x]? = some e :=
  ⟨_, List.getElem?_eq_getElem h⟩

theorem inside_le {t : Tree Thunk} (hw : WF t) : ∀ {x y : Nat}, x ≤ t.length → y ∈ inside t x → 0 < y ∧ y ≤ x := by
  intro x
  induction x using Nat.strongRecOn with
  | _ x ih =>
    intro y hx hy
    cases x with
    | zero => simp [inside_zero] at hy
    | succ x =>
      obtain ⟨e, he⟩ := get_some (show x < t.length by omega)
      have hp := hw x e he
      rw [inside_succ hw he, List.mem_cons] at hy
      rcases hy with rfl | hy
      · omega
      · have := ih e.parent (by omega) (by omega) hy
        omega

theorem self_mem {t : Tree Thunk} (hw : WF t) {x : Nat} (hx : x ≤ t.length) (h0 : x ≠ 0) : x ∈ inside t x := by
  obtain ⟨y, rfl⟩ : ∃ y, x = y + 1 := ⟨x - 1, by omega⟩
  obtain ⟨e, he⟩ := get_some (show y < t.length by omega)
  rw [inside_succ hw he]; simp

theorem inside_suffix {t : Tree Thunk} (hw : WF t) : ∀ {x y : Nat}, x ≤ t.length → y ∈ inside t x →
    ∃ pre, inside t x = pre ++ inside t y := by
  intro x
  induction x using Nat.strongRecOn with
  | _ x ih =>
    intro y hx hy
    cases x with
    | zero => simp [inside_zero] at hy
    | succ x =>
      obtain ⟨e, he⟩ := get_some (show x < t.length by omega)
      have hp := hw x e he
      rw [inside_succ hw he, List.mem_cons] at hy
      rcases hy with rfl | hy
      · exact ⟨[], rfl⟩
      · obtain ⟨pre, h⟩ := ih e.parent (by omega) (by omega) hy
        exact ⟨(x + 1) :: pre, by rw [inside_succ hw he, h]; rfl⟩

theorem inside_nodup {t : Tree Thunk} (hw : WF t) : ∀ {x : Nat}, x ≤ t.length → (inside t x).Nodup := by
  intro x
  induction x using Nat.strongRecOn with
  | _ x ih =>
    intro hx
    cases x with
    | zero => simp [inside_zero]
    | succ x =>
      obtain ⟨e, he⟩ := get_some (show x < t.length by omega)
      have hp := hw x e he
      rw [inside_succ hw he, List.nodup_cons]
      refine ⟨fun h => ?_, ih e.parent (by omega) (by omega)⟩
      have := inside_le hw (by omega) h
      omega

theorem inside_inj {t : Tree Thunk} (hw : WF t) {x y : Nat} (hx : x ≤ t.length) (hy : y ≤ t.length)
    (h : inside t x = inside t y) : x = y := by
  cases x with
  | zero =>
    cases y with
    | zero => rfl
    | succ y =>
      obtain ⟨e, he⟩ := get_some (show y < t.length by omega)
      rw [inside_succ hw he, inside_zero] at h; simp at h
  | succ x =>
    obtain ⟨e, he⟩ := get_some (show x < t.length by omega)
    cases y with
    | zero => rw [inside_succ hw he, inside_zero] at h; simp at h
    | succ y =>
      obtain ⟨e', he'⟩ := get_some (show y < t.length by omega)
      rw [inside_succ hw he, inside_succ hw he'] at h
      injection h

theorem inside_length {t : Tree Thunk} (hw : WF t) : ∀ {x : Nat}, x ≤ t.length → (inside t x).length ≤ x := by
  intro x
  induction x using Nat.strongRecOn with
  | _ x ih =>
    intro hx
    cases x with
    | zero => simp [inside_zero]
    | succ x =>
      obtain ⟨e, he⟩ := get_some (show x < t.length by omega)
      have hp := hw x e he
      have := ih e.parent (by omega) (by omega)
      rw [inside_succ hw he]
      simp; omega

/-- the mutable structure represents tree `t` seen from extent `c` -/
structure Rep (t : Tree Thunk) (c : Nat) (s : State Thunk) : Prop where
  wf : WF t
  next : s.next = t.length + 1
  cur : s.cur = c
  le : c ≤ t.length
  car0 : s.car c = none
  cdr0 : s.cdr c = none
  up : ∀ (x : Nat) (e : Extent Thunk), t[x]? = some e → x + 1 ∈ inside t c → s.cdr e.parent = some (x + 1) ∧ s.car e.parent = some (e.after, e.before)
  down : ∀ (x : Nat) (e : Extent Thunk), t[x]? = some e → x + 1 ∉ inside t c → s.cdr (x + 1) = some e.parent ∧ s.car (x + 1) = some (e.before, e.after)

theorem lt_of_get {t : Tree Thunk} {x : Nat} {e : Extent Thunk} (h : t[x]? = some e) : x < t.length := by
  rw [List.getElem?_eq_some_iff] at h; exact h.1

theorem rerootStep_some {s : State Thunk} {there : Nat} {b a : Thunk} (h : s.car there = some (b, a)) :
    rerootStep s there = some { s with
      car := fun x => if x = there then none else if x = s.cur then some (a, b) else s.car x
      cdr := fun x => if x = there then none else if x = s.cur then some there else s.cdr x
      cur := there
      log := s.log ++ [b] } := by
  simp [rerootStep, h]

theorem append_cons_tail {β : Type} {a : β} : ∀ {p q x y : List β}, a ∉ p → a ∉ q → p ++ a :: x = q ++ a :: y → x = y
  | [], [], _, _, _, _, h => by simpa using h
  | [], c :: q, _, _, _, hq, h => by simp at h; simp [h.1] at hq
  | c :: p, [], _, _, hp, _, h => by simp at h; simp [h.1] at hp
  | c :: p, d :: q, _, _, hp, hq, h => by
    simp at h hp hq
    exact append_cons_tail hp.2 hq.2 h.2

/-- one step into a child extent -/
theorem step_child {t : Tree Thunk} {s : State Thunk} {x : Nat} {e : Extent Thunk} (he : t[x]? = some e) (hR : Rep t e.parent s) :
    ∃ s', rerootStep s (x + 1) = some s' ∧ Rep t (x + 1) s' ∧ s'.log = s.log ++ [e.before] := by
  have hw := hR.wf
  have hp := hw x e he
  have hxl := lt_of_get he
  have hnot : x + 1 ∉ inside t e.parent := fun h => by have := inside_le hw (by omega) h; omega
  obtain ⟨d1, d2⟩ := hR.down x e he hnot
  refine ⟨_, rerootStep_some d2, ⟨hw, hR.next, rfl, by omega, by simp, by simp, ?_, ?_⟩, rfl⟩
  · intro z ez hz hin
    rw [inside_succ hw he, List.mem_cons] at hin
    simp only [hR.cur]
    rcases hin with hzx | hin
    · have : z = x := by omega
      subst this
      rw [he] at hz; simp only [Option.some.injEq] at hz; subst hz
      rw [if_neg (by omega), if_pos rfl, if_neg (by omega), if_pos rfl]
      exact ⟨rfl, rfl⟩
    · have h1 := inside_le hw (by omega) hin
      have h2 := hw z ez hz
      rw [if_neg (by omega), if_neg (by omega), if_neg (by omega), if_neg (by omega)]
      exact hR.up z ez hz hin
  · intro z ez hz hin
    rw [inside_succ hw he, List.mem_cons, not_or] at hin
    simp only [hR.cur]
    have h1 : z + 1 ≠ e.parent := by
      intro h
      exact hin.2 (h ▸ self_mem hw (by omega) (by omega))
    rw [if_neg (by omega), if_neg h1, if_neg (by omega), if_neg h1]
    exact hR.down z ez hz hin.2

/-- one step out to the parent extent -/
theorem step_parent {t : Tree Thunk} {s : State Thunk} {x : Nat} {e : Extent Thunk} (he : t[x]? = some e) (hR : Rep t (x + 1) s) :
    ∃ s', rerootStep s e.parent = some s' ∧ Rep t e.parent s' ∧ s'.log = s.log ++ [e.after] := by
  have hw := hR.wf
  have hp := hw x e he
  have hxl := lt_of_get he
  obtain ⟨d1, d2⟩ := hR.up x e he (self_mem hw (by omega) (by omega))
  refine ⟨_, rerootStep_some d2, ⟨hw, hR.next, rfl, by omega, by simp, by simp, ?_, ?_⟩, rfl⟩
  · intro z ez hz hin
    simp only [hR.cur]
    have h1 := inside_le hw (by omega) hin
    have h2 := hw z ez hz
    rw [if_neg (by omega), if_neg (by omega), if_neg (by omega), if_neg (by omega)]
    exact hR.up z ez hz (by rw [inside_succ hw he]; simp [hin])
  · intro z ez hz hin
    simp only [hR.cur]
    by_cases hzx : z = x
    · subst hzx
      rw [he] at hz; simp only [Option.some.injEq] at hz; subst hz
      rw [if_neg (by omega), if_pos rfl, if_neg (by omega), if_pos rfl]
      exact ⟨rfl, rfl⟩
    · have h1 : z + 1 ≠ e.parent := by
        intro h
        exact hin (h ▸ self_mem hw (by omega) (by omega))
      rw [if_neg h1, if_neg (by omega), if_neg h1, if_neg (by omega)]
      exact hR.down z ez hz (by rw [inside_succ hw he]; simp [hin, hzx])

theorem left_of_suffix {t : Tree Thunk} (hw : WF t) {c y : Nat} {pre : List Nat} (hc : c ≤ t.length)
    (h : inside t c = pre ++ inside t y) : left t c y = pre ∧ left t y c = [] := by
  have hnd := inside_nodup hw hc
  rw [h, List.nodup_append] at hnd
  constructor
  · rw [left, h, List.filter_append]
    have h1 : pre.filter (fun e => !(inside t y).contains e) = pre := by
      rw [List.filter_eq_self]
      intro a ha
      simp only [Bool.not_eq_true', List.contains_eq_mem, decide_eq_false_iff_not]
      exact fun hb => hnd.2.2 a ha a hb rfl
    have h2 : (inside t y).filter (fun e => !(inside t y).contains e) = [] := by
      rw [List.filter_eq_nil_iff]; intro a ha; simp [ha]
    rw [h1, h2, List.append_nil]
  · rw [left, List.filter_eq_nil_iff]
    intro a ha; simp [h, ha]

/-- going out to an enclosing extent -/
theorem reroot_up {t : Tree Thunk} {c : Nat} {s : State Thunk} (hR : Rep t c s) : ∀ (pre : List Nat) (y f : Nat), y ≤ t.length →
    inside t c = pre.reverse ++ inside t y → pre.length < f →
    ∃ s', reroot f s y = some s' ∧ Rep t y s' ∧ s'.log = s.log ++ thunks t c y := by
  have hw := hR.wf
  intro pre
  induction pre with
  | nil =>
    intro y f hy h hf
    obtain ⟨f, rfl⟩ : ∃ k, f = k + 1 := ⟨f - 1, by simp at hf; omega⟩
    have : c = y := inside_inj hw hR.le hy (by simpa using h)
    subst this
    refine ⟨s, by rw [reroot, if_pos hR.cur], hR, ?_⟩
    obtain ⟨l1, l2⟩ := left_of_suffix hw hR.le (show inside t c = [] ++ inside t c by simp)
    simp [thunks, entered, l1]
  | cons z pre ih =>
    intro y f hy h hf
    obtain ⟨f, rfl⟩ : ∃ k, f = k + 1 := ⟨f - 1, by omega⟩
    rw [List.reverse_cons, List.append_assoc] at h
    have hz : z ∈ inside t c := by rw [h]; simp
    have hzl := inside_le hw hR.le hz
    obtain ⟨w, rfl⟩ : ∃ w, z = w + 1 := ⟨z - 1, by omega⟩
    obtain ⟨e, he⟩ := get_some (show w < t.length by have := hR.le; omega)
    have hp := hw w e he
    obtain ⟨pre2, h2⟩ := inside_suffix hw hR.le hz
    have hnd := inside_nodup hw hR.le
    have hpar : e.parent = y := by
      rw [inside_succ hw he] at h2
      have h3 : pre.reverse ++ (w + 1) :: inside t y = pre2 ++ (w + 1) :: inside t e.parent := by
        rw [← h2, h]; rfl
      have h4 : (w + 1) ∉ pre.reverse := by
        rw [h, List.nodup_append] at hnd
        exact fun hm => hnd.2.2 _ hm (w + 1) (by simp) rfl
      have h5 : (w + 1) ∉ pre2 := by
        rw [h2, List.nodup_append] at hnd
        exact fun hm => hnd.2.2 _ hm (w + 1) (by simp) rfl
      exact (inside_inj hw hy (by have := hR.le; omega) (append_cons_tail h4 h5 h3)).symm
    subst hpar
    have h' : inside t c = pre.reverse ++ inside t (w + 1) := by rw [h, inside_succ hw he]; rfl
    obtain ⟨s1, g1, g2, g3⟩ := ih (w + 1) f (by have := hR.le; omega) h' (by simpa using hf)
    obtain ⟨s2, k1, k2, k3⟩ := step_parent he g2
    refine ⟨s2, ?_, k2, ?_⟩
    · rw [reroot, if_neg (by rw [hR.cur]; omega), (hR.up w e he hz).1]
      simp only [Option.bind_eq_bind, Option.bind_some, g1]
      exact k1
    · rw [k3, g3, List.append_assoc]
      congr 1
      obtain ⟨l1, l2⟩ := left_of_suffix hw hR.le h'
      obtain ⟨l3, l4⟩ := left_of_suffix hw hR.le (show inside t c = (pre.reverse ++ [w + 1]) ++ inside t e.parent by
        rw [List.append_assoc]; exact h)
      simp [thunks, entered, l1, l2, l3, l4, List.filterMap_append, he]

/-- going to any extent -/
theorem reroot_spec {t : Tree Thunk} {c : Nat} {s : State Thunk} (hR : Rep t c s) : ∀ (y f : Nat), y ≤ t.length →
    c + y < f → ∃ s', reroot f s y = some s' ∧ Rep t y s' ∧ s'.log = s.log ++ thunks t c y := by
  have hw := hR.wf
  intro y
  induction y using Nat.strongRecOn with
  | _ y ih =>
    intro f hy hf
    by_cases hin : y = 0 ∨ y ∈ inside t c
    · obtain ⟨pre, h⟩ : ∃ pre, inside t c = pre ++ inside t y := by
        rcases hin with rfl | hin
        · exact ⟨_, by rw [inside_zero, List.append_nil]⟩
        · exact inside_suffix hw hR.le hin
      refine reroot_up hR pre.reverse y f hy (by simpa using h) ?_
      have h1 := inside_length hw hR.le
      rw [h] at h1
      simp at h1 ⊢
      omega
    · rw [not_or] at hin
      obtain ⟨x, rfl⟩ : ∃ x, y = x + 1 := ⟨y - 1, by omega⟩
      obtain ⟨f, rfl⟩ : ∃ k, f = k + 1 := ⟨f - 1, by omega⟩
      obtain ⟨e, he⟩ := get_some (show x < t.length by omega)
      have hp := hw x e he
      obtain ⟨s1, g1, g2, g3⟩ := ih e.parent (by omega) f (by omega) (by omega)
      obtain ⟨s2, k1, k2, k3⟩ := step_child he g2
      have hc : c ≠ x + 1 := by
        rintro rfl
        exact hin.2 (self_mem hw hR.le (by omega))
      refine ⟨s2, ?_, k2, ?_⟩
      · rw [reroot, if_neg (by rw [hR.cur]; exact hc), (hR.down x e he hin.2).1]
        simp only [Option.bind_eq_bind, Option.bind_some, g1]
        exact k1
      · rw [k3, g3, List.append_assoc]
        congr 1
        have hl1 : left t c (x + 1) = left t c e.parent := by
          unfold left
          apply List.filter_congr
          intro a ha
          rw [inside_succ hw he]
          have : a ≠ x + 1 := by rintro rfl; exact hin.2 ha
          simp [this]
        have hl2 : left t (x + 1) c = (x + 1) :: left t e.parent c := by
          unfold left
          rw [inside_succ hw he, List.filter_cons, if_pos]
          simpa using hin.2
        simp [thunks, entered, hl1, hl2, List.filterMap_append, he]

theorem rep_init : Rep ([] : Tree Thunk) 0 init :=
  ⟨by intro x e h; simp at h, rfl, rfl, by simp, rfl, rfl, by intro x e h; simp at h, by intro x e h; simp at h⟩

theorem inside_append {t : Tree Thunk} (hw : WF t) (e : Extent Thunk) : ∀ {n x : Nat}, x ≤ t.length →
    enclosing (t ++ [e]) n x = enclosing t n x := by
  intro n
  induction n with
  | zero => intro x _; rfl
  | succ n ih =>
    intro x hx
    cases x with
    | zero => rfl
    | succ x =>
      obtain ⟨ex, hex⟩ := get_some (show x < t.length by omega)
      have := hw x ex hex
      simp only [enclosing]
      rw [List.getElem?_append_left (by omega), hex]
      simp only
      rw [ih (by omega)]

theorem rep_add {t : Tree Thunk} {c : Nat} {s : State Thunk} (hR : Rep t c s) (b a : Thunk) :
    Rep (t ++ [⟨c, b, a⟩]) c { s with
      car := fun x => if x = s.next then some (b, a) else s.car x
      cdr := fun x => if x = s.next then some s.cur else s.cdr x
      next := s.next + 1 } := by
  have hw := hR.wf
  have hn := hR.next
  have hc := hR.le
  have hin : inside (t ++ [⟨c, b, a⟩]) c = inside t c := inside_append hw _ hc
  refine ⟨?_, by simp [hn], hR.cur, by simp; omega, ?_, ?_, ?_, ?_⟩
  · intro x e h
    by_cases hx : x < t.length
    · rw [List.getElem?_append_left hx] at h; exact hw x e h
    · have hx' : x = t.length := by have := lt_of_get h; simp at this; omega
      subst hx'
      simp at h; subst h; exact hc
  · simp only; rw [if_neg (by omega)]; exact hR.car0
  · simp only; rw [if_neg (by omega)]; exact hR.cdr0
  · intro x e h hx
    rw [hin] at hx
    have := inside_le hw hc hx
    rw [List.getElem?_append_left (by omega)] at h
    have := hw x e h
    simp only
    rw [if_neg (by omega), if_neg (by omega)]
    exact hR.up x e h hx
  · intro x e h hx
    rw [hin] at hx
    simp only
    by_cases hxl : x < t.length
    · rw [List.getElem?_append_left hxl] at h
      rw [if_neg (by omega), if_neg (by omega)]
      exact hR.down x e h hx
    · have hx' : x = t.length := by have := lt_of_get h; simp at this; omega
      subst hx'
      simp at h; subst h
      rw [if_pos hn.symm, if_pos hn.symm, hR.cur]
      exact ⟨rfl, rfl⟩

theorem run_spec (fuel : Nat) : ∀ (ops : List (Op Thunk)) (sp : Spec Thunk) (s : State Thunk), Rep sp.tree sp.cur s →
    s.log = sp.log → Valid sp ops → 2 * (sp.tree.length + ops.length) < fuel →
    ∃ s', run fuel s ops = some s' ∧ s'.log = (sp.run ops).log ∧ s'.cur = (sp.run ops).cur := by
  intro ops
  induction ops with
  | nil => intro sp s hR hl _ _; exact ⟨s, rfl, hl, hR.cur⟩
  | cons o ops ih =>
    intro sp s hR hl hv hf
    cases o with
    | goto t =>
      obtain ⟨s1, g1, g2, g3⟩ := reroot_spec hR t fuel hv.1 (by have := hR.le; have := hv.1; simp at hf; omega)
      obtain ⟨s2, k1, k2⟩ := ih (sp.step (.goto t)) s1 g2 (by rw [g3, hl]; rfl) hv.2 (by simp [Spec.step] at hf ⊢; omega)
      exact ⟨s2, by simp only [run, step, g1, Option.bind_eq_bind, Option.bind_some]; exact k1, k2⟩
    | enter b a =>
      have hA := rep_add hR b a
      have hle := hR.le
      obtain ⟨s1, g1, g2, g3⟩ := reroot_spec hA s.next fuel (by simp [hR.next]) (by
        rw [hR.next]; simp at hf; omega)
      have hlen : List.length (sp.tree ++ [(⟨sp.cur, b, a⟩ : Extent Thunk)]) = s.next := by simp [hR.next]
      obtain ⟨s2, k1, k2⟩ := ih (sp.step (.enter b a)) s1 (by simp only [Spec.step, hlen]; exact g2)
        (by rw [g3]; simp only [Spec.step, hlen, hl]) hv.2 (by simp [Spec.step] at hf ⊢; omega)
      exact ⟨s2, by simp only [run, step, enter, g1, Option.bind_eq_bind, Option.bind_some]; exact k1, k2⟩

/-- C21: for every sequence of entries of dynamic extents and transfers of control (normal return or continuation
invocation) to any extent existing at that time, the thunks called by the implementation are, in order, exactly those of the
specification: each transfer runs the after thunks of the extents left, innermost first, followed by the before thunks
of the extents entered, outermost first.  No operation fails or diverges. -/
theorem c21_dynamic_wind (ops : List (Op Thunk)) (hv : Valid Spec.init ops) (fuel : Nat) (hf : 2 * ops.length < fuel) :
    ∃ s, run fuel init ops = some s ∧ s.log = (Spec.init.run ops).log ∧ s.cur = (Spec.init.run ops).cur :=
  run_spec fuel ops Spec.init init rep_init rfl hv (by simpa [Spec.init] using hf)

/-- C21: entering an extent runs exactly its before thunk, and returning from it normally runs exactly its after thunk, at whatever
point of whatever history. -/
theorem c21_normal (ops : List (Op Thunk)) (hv : Valid Spec.init ops) (b a : Thunk) (fuel : Nat) (hf : 2 * (ops.length + 2) < fuel) :
    ∃ s s', run fuel init ops = some s ∧ run fuel init (ops ++ [.enter b a, .goto s.cur]) = some s' ∧
      s'.log = s.log ++ [b, a] ∧ s'.cur = s.cur := by
  have key : ∀ (ops : List (Op Thunk)) (sp : Spec Thunk) (s : State Thunk), Rep sp.tree sp.cur s →
      Valid sp ops → 2 * (sp.tree.length + (ops.length + 2)) < fuel →
      ∃ s1 sp1, run fuel s ops = some s1 ∧ Rep (sp1 : Spec Thunk).tree sp1.cur s1 ∧ 2 * (sp1.tree.length + 2) < fuel := by
    intro ops
    induction ops with
    | nil => intro sp s hR _ hf; exact ⟨s, sp, rfl, hR, by simpa using hf⟩
    | cons o ops ih =>
      intro sp s hR hv hf
      cases o with
      | goto t =>
        obtain ⟨s1, g1, g2, g3⟩ := reroot_spec hR t fuel hv.1 (by have := hR.le; have := hv.1; simp at hf; omega)
        obtain ⟨s2, sp2, k1, k2⟩ := ih (sp.step (.goto t)) s1 g2 hv.2 (by simp [Spec.step] at hf ⊢; omega)
        exact ⟨s2, sp2, by simp only [run, step, g1, Option.bind_eq_bind, Option.bind_some]; exact k1, k2⟩
      | enter b a =>
        have hA := rep_add hR b a
        have hle := hR.le
        obtain ⟨s1, g1, g2, g3⟩ := reroot_spec hA s.next fuel (by simp [hR.next]) (by
          rw [hR.next]; simp at hf; omega)
        have hlen : List.length (sp.tree ++ [(⟨sp.cur, b, a⟩ : Extent Thunk)]) = s.next := by simp [hR.next]
        obtain ⟨s2, sp2, k1, k2⟩ := ih (sp.step (.enter b a)) s1 (by simp only [Spec.step, hlen]; exact g2)
          hv.2 (by simp [Spec.step] at hf ⊢; omega)
        exact ⟨s2, sp2, by simp only [run, step, enter, g1, Option.bind_eq_bind, Option.bind_some]; exact k1, k2⟩
  obtain ⟨s, sp, h1, hR, h2⟩ := key ops Spec.init init rep_init hv (by simpa [Spec.init] using hf)
  have hA := rep_add hR b a
  have hle := hR.le
  have hw := hA.wf
  obtain ⟨s1, g1, g2, g3⟩ := reroot_spec hA s.next fuel (by simp [hR.next]) (by rw [hR.next]; omega)
  obtain ⟨s2, k1, k2, k3⟩ := reroot_spec g2 s.cur fuel (by rw [hR.cur]; simp; omega) (by rw [hR.next, hR.cur]; omega)
  have hrun : ∀ (o1 o2 : List (Op Thunk)) (s0 : State Thunk), run fuel s0 (o1 ++ o2) = (run fuel s0 o1).bind (fun s => run fuel s o2) := by
    intro o1
    induction o1 with
    | nil => intro o2 s0; rfl
    | cons o o1 ih =>
      intro o2 s0
      simp only [List.cons_append, run, Option.bind_eq_bind]
      cases step fuel s0 o with
      | none => rfl
      | some s1 => simp only [Option.bind_some]; exact ih o2 s1
  refine ⟨s, s2, h1, ?_, ?_, k2.cur⟩
  · rw [hrun, h1]
    simp only [Option.bind_some, run, step, enter, g1, Option.bind_eq_bind, k1]
  · have he : (sp.tree ++ [(⟨sp.cur, b, a⟩ : Extent Thunk)])[sp.tree.length]? = some ⟨sp.cur, b, a⟩ := by simp
    have hi := inside_succ hw he
    rw [k3, g3, hR.next, hR.cur, List.append_assoc]
    congr 1
    obtain ⟨l1, l2⟩ := left_of_suffix hw (c := sp.tree.length + 1) (by simp)
      (show inside (sp.tree ++ [⟨sp.cur, b, a⟩]) (sp.tree.length + 1) = [sp.tree.length + 1] ++ inside _ sp.cur from hi)
    simp [thunks, entered, l1, l2]

/-- a history with nested extents and a jump between two branches: enter 1 (in 0), 2 (in 1), return to 1, enter 3 (in 1), jump to 2,
jump to 0, jump to 3 -/
def sampleOps : List (Op String) :=
  [.enter "b1" "a1", .enter "b2" "a2", .goto 1, .enter "b3" "a3", .goto 2, .goto 0, .goto 3]
example : Valid Spec.init sampleOps := by simp [sampleOps, Valid, Spec.step, Spec.init]
example : (run 20 init sampleOps).map (·.log) =
    some ["b1", "b2", "a2", "b3", "a3", "b2", "a2", "a1", "b1", "b3"] := by decide

end Verif.Wind

import Verif.PortLife.Model
import Mathlib.Tactic.Tauto
import Mathlib.Tactic.ByContra
import Mathlib.Tactic.SplitIfs
import Mathlib.Order.Basic
/-
C77: ports give back what they use, once.
-/
namespace Verif.PortLife
open Verif.Fx (Fault C)

/-- Addresses are given out only if they are not in use; `realloc` may return the same one. -/
def Legal (s : State) : Op → Prop
  | .openFile _ f => s.mem.files f = false
  | .openMem _ _ d b => s.mem.live d = false ∧ s.mem.live b = false ∧ d ≠ b
  | .put i (some a) => ∀ p, s.port i = some p → s.mem.live a = false ∨ s.mem.fld p.data = some a
  | _ => True

/-- States a program can get to. -/
inductive Reach : State → Prop
  | start : Reach start
  | step (s : State) (op : Op) (s' : State) (h : Reach s) (l : Legal s op) (e : step s op = .ok s') : Reach s'

/-- Port `i` is there, not closed, and uses the block `a`. -/
def Owns (s : State) (i : Nat) (a : Addr) : Prop :=
  ∃ p, s.port i = some p ∧ (p.tag = .str ∨ p.tag = .bv) ∧ (a = p.data ∨ s.mem.fld p.data = some a)

structure Inv (s : State) : Prop where
  live : ∀ a, s.mem.live a = true ↔ ∃ i, Owns s i a
  one : ∀ i j a, Owns s i a → Owns s j a → i = j
  buf : ∀ i p, s.port i = some p → (p.tag = .str ∨ p.tag = .bv) → ∃ b, s.mem.fld p.data = some b ∧ b ≠ p.data
  file : ∀ i p, s.port i = some p → p.tag = .file → s.mem.files p.data = true
  fone : ∀ i j p q, s.port i = some p → s.port j = some q → p.tag = .file → q.tag = .file → p.data = q.data → i = j
  next : ∀ i, s.next ≤ i → s.port i = none

theorem upd_same {α : Type} (f : Addr → α) (a : Addr) (v : α) : upd f a v a = v := if_pos rfl
theorem upd_ne {α : Type} (f : Addr → α) {a x : Addr} (v : α) (h : x ≠ a) : upd f a v x = f x := if_neg h

/-- a port gives back its blocks. -/
theorem release {s s' : State} (h : Inv s) {i : Nat} {p : Port} {b : Addr} (hp : s.port i = some p) (ht : p.tag = .str ∨ p.tag = .bv)
    (hb : s.mem.fld p.data = some b)
    (e1 : ∀ a, s'.mem.live a = true ↔ (s.mem.live a = true ∧ a ≠ p.data ∧ a ≠ b))
    (e2 : ∀ a, a ≠ p.data → s'.mem.fld a = s.mem.fld a) (e3 : s'.mem.files = s.mem.files)
    (e4 : ∀ j, j ≠ i → s'.port j = s.port j) (e5 : ∀ q, s'.port i = some q → q.tag = .closed) (e6 : s'.next = s.next)
    (e7 : s.next ≤ i → s'.port i = none) : Inv s' := by
  have od : Owns s i p.data := ⟨p, hp, ht, .inl rfl⟩
  have ob : Owns s i b := ⟨p, hp, ht, .inr hb⟩
  have own : ∀ j a, Owns s' j a ↔ (j ≠ i ∧ Owns s j a) := by
    intro j a
    constructor
    · rintro ⟨q, hq, tq, hq'⟩
      by_cases hj : j = i
      · subst hj
        rw [e5 q hq] at tq
        simp at tq
      · rw [e4 j hj] at hq
        refine ⟨hj, q, hq, tq, ?_⟩
        have : q.data ≠ p.data := fun h' => hj (h.one j i p.data ⟨q, hq, tq, .inl h'.symm⟩ od)
        rwa [e2 _ this] at hq'
    · rintro ⟨hj, q, hq, tq, hq'⟩
      have : q.data ≠ p.data := fun h' => hj (h.one j i p.data ⟨q, hq, tq, .inl h'.symm⟩ od)
      exact ⟨q, by rw [e4 j hj]; exact hq, tq, by rwa [e2 _ this]⟩
  refine ⟨fun a => ?_, fun j k a hj hk => ?_, fun j q hq tq => ?_, fun j q hq tq => ?_, fun j k q r hq hr tq tr hd => ?_, fun j hj => ?_⟩
  · rw [e1, h.live]
    constructor
    · rintro ⟨⟨j, hj⟩, a1, a2⟩
      refine ⟨j, (own j a).mpr ⟨?_, hj⟩⟩
      rintro rfl
      obtain ⟨q, hq, _, hq'⟩ := hj
      rw [hp] at hq
      cases hq
      rcases hq' with rfl | hq'
      · exact a1 rfl
      · rw [hb] at hq'; cases hq'; exact a2 rfl
    · rintro ⟨j, hj⟩
      obtain ⟨hji, hj⟩ := (own j a).mp hj
      refine ⟨⟨j, hj⟩, ?_, ?_⟩
      · rintro rfl; exact hji (h.one _ _ _ hj od)
      · rintro rfl; exact hji (h.one _ _ _ hj ob)
  · exact h.one j k a ((own _ _).mp hj).2 ((own _ _).mp hk).2
  · by_cases hj : j = i
    · subst hj; rw [e5 q hq] at tq; simp at tq
    · rw [e4 j hj] at hq
      have : q.data ≠ p.data := fun h' => hj (h.one j i p.data ⟨q, hq, tq, .inl h'.symm⟩ od)
      rw [e2 _ this]
      exact h.buf j q hq tq
  · by_cases hj : j = i
    · subst hj; rw [e5 q hq] at tq; simp at tq
    · rw [e4 j hj] at hq; rw [e3]; exact h.file j q hq tq
  · by_cases hj : j = i
    · subst hj; rw [e5 q hq] at tq; simp at tq
    · by_cases hk : k = i
      · subst hk; rw [e5 r hr] at tr; simp at tr
      · rw [e4 j hj] at hq; rw [e4 k hk] at hr; exact h.fone j k q r hq hr tq tr hd
  · rw [e6] at hj
    by_cases hji : j = i
    · subst hji; exact e7 hj
    · rw [e4 j hji]; exact h.next j hj

theorem bound {s : State} (h : Inv s) {i : Nat} {p : Port} (hp : s.port i = some p) : i < s.next := by
  by_contra hh
  rw [h.next i (by omega)] at hp
  simp at hp

theorem free_close {m : Mem} {d b : Addr} (hd : m.live d = true) (hf : m.fld d = some b) (hb : m.live b = true) (hne : b ≠ d) :
    (∃ m', siFree m d = .ok m' ∧ cbFree m d = .ok m' ∧ m' = { m with live := upd (upd m.live b false) d false }) ∧
      (∃ m', siClose m d = .ok m' ∧ cbClose m d = .ok m' ∧ m' = { m with live := upd m.live b false, fld := upd m.fld d none }) := by
  have h1 : upd m.live b false d = true := by rw [upd_ne _ _ (Ne.symm hne), hd]
  constructor <;>
    simp [siFree, cbFree, siClose, cbClose, load, free, store, hd, hf, hb, h1, bind, Except.bind]

/-- the second `free` after `close` finds NULL. -/
theorem free_closed {m : Mem} {d : Addr} (hd : m.live d = true) (hf : m.fld d = none) :
    siFree m d = .ok { m with live := upd m.live d false } ∧ cbFree m d = .ok { m with live := upd m.live d false } := by
  constructor <;> simp [siFree, cbFree, load, free, hd, hf, bind, Except.bind]

/-- what `close` does to a port in memory. -/
theorem close_mem {m : Mem} {p : Port} {b : Addr} (ht : p.tag = .str ∨ p.tag = .bv) (hd : m.live p.data = true) (hf : m.fld p.data = some b)
    (hb : m.live b = true) (hne : b ≠ p.data) :
    close m p = .ok ({ m with live := upd (upd m.live b false) p.data false, fld := upd m.fld p.data none }, { p with tag := .closed }) := by
  obtain ⟨-, m', c1, c2, rfl⟩ := free_close hd hf hb hne
  have h1 : upd m.live b false p.data = true := by rw [upd_ne _ _ (Ne.symm hne), hd]
  obtain ⟨f1, f2⟩ := free_closed (m := { m with live := upd m.live b false, fld := upd m.fld p.data none }) (d := p.data) h1 (upd_same _ _ _)
  rcases ht with ht | ht <;> cases ho : p.out <;>
    simp [close, vtClose, vtFree, ht, ho, c1, c2, f1, f2, bind, Except.bind, pure, Except.pure]

theorem inv_start : Inv start :=
  ⟨fun a => by simp [start, Owns], fun i j a ⟨p, hp, _⟩ => by simp [start] at hp, fun i p hp => by simp [start] at hp, fun i p hp => by simp [start] at hp,
    fun i j p q hp => by simp [start] at hp, fun i _ => rfl⟩

/-- Every operation keeps the invariant, and none is undefined. -/
theorem step_inv {s : State} (h : Inv s) (op : Op) (l : Legal s op) :
    step s op = .error .abort ∨ ∃ s', step s op = .ok s' ∧ Inv s' := by
  cases op with
  | openFile o f =>
    right
    refine ⟨_, rfl, ?_⟩
    have hn : s.port s.next = none := h.next _ (Nat.le_refl _)
    simp only [Legal] at l
    have old : ∀ i p, upd s.port s.next (some ⟨o, .file, f⟩) i = some p → (i = s.next ∧ p = ⟨o, .file, f⟩) ∨ (i ≠ s.next ∧ s.port i = some p) := by
      intro i p hp
      by_cases hi : i = s.next
      · subst hi; rw [upd_same] at hp; cases hp; exact .inl ⟨rfl, rfl⟩
      · rw [upd_ne _ _ hi] at hp; exact .inr ⟨hi, hp⟩
    have own : ∀ i a, Owns ⟨{ s.mem with files := upd s.mem.files f true }, upd s.port s.next (some ⟨o, .file, f⟩), s.next + 1⟩ i a ↔ Owns s i a := by
      intro i a
      constructor
      · rintro ⟨p, hp, tp, hp'⟩
        rcases old i p hp with ⟨_, rfl⟩ | ⟨_, hp⟩
        · simp at tp
        · exact ⟨p, hp, tp, hp'⟩
      · rintro ⟨p, hp, tp, hp'⟩
        refine ⟨p, ?_, tp, hp'⟩
        have : i ≠ s.next := by rintro rfl; rw [hn] at hp; cases hp
        show upd _ _ _ _ = _
        rw [upd_ne _ _ this]; exact hp
    refine ⟨fun a => ?_, fun i j a hi hj => ?_, fun i p hp tp => ?_, fun i p hp tp => ?_, fun i j p q hp hq tp tq hd => ?_, fun i hi => ?_⟩
    · simp only [own]; exact h.live a
    · exact h.one i j a ((own _ _).mp hi) ((own _ _).mp hj)
    · rcases old i p hp with ⟨_, rfl⟩ | ⟨_, hp⟩
      · simp at tp
      · exact h.buf i p hp tp
    · rcases old i p hp with ⟨_, rfl⟩ | ⟨_, hp⟩
      · exact upd_same _ _ _
      · show upd _ _ _ _ = _
        by_cases hf : p.data = f
        · rw [hf]; exact upd_same _ _ _
        · rw [upd_ne _ _ hf]; exact h.file i p hp tp
    · rcases old i p hp with ⟨hi, rfl⟩ | ⟨hi, hp⟩ <;> rcases old j q hq with ⟨hj, rfl⟩ | ⟨hj, hq⟩
      · rw [hi, hj]
      · have := h.file j q hq tq
        rw [← hd] at this
        simp [l] at this
      · have := h.file i p hp tp
        rw [hd] at this
        simp [l] at this
      · exact h.fone i j p q hp hq tp tq hd
    · have : i ≠ s.next := by rintro rfl; exact absurd hi (Nat.not_succ_le_self _)
      show upd _ _ _ _ = _
      rw [upd_ne _ _ this]
      exact h.next i (Nat.le_of_succ_le hi)
  | openMem o t d b =>
    right
    obtain ⟨ld, lb, hne⟩ := l
    have hn : s.port s.next = none := h.next _ (Nat.le_refl _)
    have hs : store (malloc (malloc s.mem d) b) d (some b) = .ok { s.mem with live := upd (upd s.mem.live d true) b true, fld := upd s.mem.fld d (some b) } := by
      simp [store, malloc, upd]
    refine ⟨⟨_, upd s.port s.next (some ⟨o, if t then .bv else .str, d⟩), s.next + 1⟩, by simp only [step, hs]; rfl, ?_⟩
    have tp : (⟨o, if t then .bv else .str, d⟩ : Port).tag = .str ∨ (⟨o, if t then .bv else .str, d⟩ : Port).tag = .bv := by cases t <;> simp
    generalize hP : (⟨o, if t then .bv else .str, d⟩ : Port) = P at tp
    have hPd : P.data = d := by rw [← hP]
    have old : ∀ i p, upd s.port s.next (some P) i = some p → (i = s.next ∧ p = P) ∨ (i ≠ s.next ∧ s.port i = some p) := by
      intro i p hp
      by_cases hi : i = s.next
      · subst hi; rw [upd_same] at hp; cases hp; exact .inl ⟨rfl, rfl⟩
      · rw [upd_ne _ _ hi] at hp; exact .inr ⟨hi, hp⟩
    have dead : ∀ i a, Owns s i a → a ≠ d ∧ a ≠ b := by
      intro i a ha
      have := (h.live a).mpr ⟨i, ha⟩
      constructor
      · rintro rfl; rw [ld] at this; cases this
      · rintro rfl; rw [lb] at this; cases this
    have own : ∀ i a, Owns ⟨{ s.mem with live := upd (upd s.mem.live d true) b true, fld := upd s.mem.fld d (some b) }, upd s.port s.next (some P), s.next + 1⟩ i a ↔
        (i = s.next ∧ (a = d ∨ a = b)) ∨ Owns s i a := by
      intro i a
      constructor
      · rintro ⟨p, hp, tq, hp'⟩
        rcases old i p hp with ⟨hi, rfl⟩ | ⟨hi, hp⟩
        · refine .inl ⟨hi, ?_⟩
          rw [hPd] at hp'
          rcases hp' with hp' | hp'
          · exact .inl hp'
          · exact .inr (by simpa [upd_same, eq_comm] using hp')
        · refine .inr ⟨p, hp, tq, ?_⟩
          have : p.data ≠ d := (dead i p.data ⟨p, hp, tq, .inl rfl⟩).1
          rcases hp' with hp' | hp'
          · exact .inl hp'
          · exact .inr ((upd_ne s.mem.fld (some b) this).symm.trans hp')
      · rintro (⟨rfl, ha⟩ | ⟨p, hp, tq, hp'⟩)
        · refine ⟨P, upd_same _ _ _, tp, ?_⟩
          rw [hPd]
          rcases ha with rfl | rfl
          · exact .inl rfl
          · exact .inr (upd_same _ _ _)
        · have hi : i ≠ s.next := by rintro rfl; rw [hn] at hp; cases hp
          have : p.data ≠ d := (dead i p.data ⟨p, hp, tq, .inl rfl⟩).1
          exact ⟨p, by show upd _ _ _ _ = _; rw [upd_ne _ _ hi]; exact hp, tq, by
            show _ ∨ upd _ _ _ _ = _
            rwa [upd_ne _ _ this]⟩
    refine ⟨fun a => ?_, fun i j a hi hj => ?_, fun i p hp tq => ?_, fun i p hp tq => ?_, fun i j p q hp hq tq tr hd => ?_, fun i hi => ?_⟩
    · simp only [own]
      show upd (upd s.mem.live d true) b true a = true ↔ _
      by_cases h1 : a = b
      · subst h1; rw [upd_same]; exact ⟨fun _ => ⟨s.next, .inl ⟨rfl, .inr rfl⟩⟩, fun _ => rfl⟩
      · rw [upd_ne _ _ h1]
        by_cases h2 : a = d
        · subst h2; rw [upd_same]; exact ⟨fun _ => ⟨s.next, .inl ⟨rfl, .inl rfl⟩⟩, fun _ => rfl⟩
        · rw [upd_ne _ _ h2, h.live]
          constructor
          · rintro ⟨i, hi⟩; exact ⟨i, .inr hi⟩
          · rintro ⟨i, ⟨_, hi | hi⟩ | hi⟩
            · exact absurd hi h2
            · exact absurd hi h1
            · exact ⟨i, hi⟩
    · rcases (own i a).mp hi with ⟨i1, i2⟩ | i1 <;> rcases (own j a).mp hj with ⟨j1, j2⟩ | j1
      · rw [i1, j1]
      · have := dead j a j1; tauto
      · have := dead i a i1; tauto
      · exact h.one i j a i1 j1
    · rcases old i p hp with ⟨hi, rfl⟩ | ⟨hi, hp⟩
      · exact ⟨b, by rw [hPd]; exact upd_same _ _ _, by rw [hPd]; exact Ne.symm hne⟩
      · have : p.data ≠ d := (dead i p.data ⟨p, hp, tq, .inl rfl⟩).1
        show ∃ b', upd _ _ _ _ = _ ∧ _
        rw [upd_ne _ _ this]
        exact h.buf i p hp tq
    · rcases old i p hp with ⟨hi, rfl⟩ | ⟨hi, hp⟩
      · rw [tq] at tp; simp at tp
      · exact h.file i p hp tq
    · rcases old i p hp with ⟨hi, rfl⟩ | ⟨hi, hp⟩
      · rw [tq] at tp; simp at tp
      · rcases old j q hq with ⟨hj, rfl⟩ | ⟨hj, hq⟩
        · rw [tr] at tp; simp at tp
        · exact h.fone i j p q hp hq tq tr hd
    · have : i ≠ s.next := by rintro rfl; exact absurd hi (Nat.not_succ_le_self _)
      show upd _ _ _ _ = _
      rw [upd_ne _ _ this]
      exact h.next i (Nat.le_of_succ_le hi)
  | get i =>
    simp only [step]
    rcases hp : s.port i with _ | p
    · exact .inl rfl
    · dsimp only
      cases p.out
      · right
        refine ⟨s, ?_, h⟩
        rcases ht : p.tag with _ | _ | _ | _
        · simp [getch, ht, bind, Except.bind, pure, Except.pure]
        · simp [getch, ht, faccess, h.file i p hp ht, bind, Except.bind, pure, Except.pure]
        all_goals
          have tq : p.tag = .str ∨ p.tag = .bv := by rw [ht]; simp
          obtain ⟨b, hb, _⟩ := h.buf i p hp tq
          have l1 := (h.live p.data).mpr ⟨i, p, hp, tq, .inl rfl⟩
          have l2 := (h.live b).mpr ⟨i, p, hp, tq, .inr hb⟩
          simp [getch, ht, load, access, l1, l2, hb, bind, Except.bind, pure, Except.pure]
      · exact .inl rfl
  | put i g =>
    simp only [step]
    rcases hp : s.port i with _ | p
    · exact .inl rfl
    · dsimp only
      cases p.out
      · exact .inl rfl
      · right
        simp only [if_true]
        rcases ht : p.tag with _ | _ | _ | _
        · exact ⟨s, by simp [putch, ht, bind, Except.bind, pure, Except.pure], h⟩
        · exact ⟨s, by simp [putch, ht, faccess, h.file i p hp ht, bind, Except.bind, pure, Except.pure], h⟩
        all_goals
          have tq : p.tag = .str ∨ p.tag = .bv := by rw [ht]; simp
          obtain ⟨b, hb, hne⟩ := h.buf i p hp tq
          have l1 := (h.live p.data).mpr ⟨i, p, hp, tq, .inl rfl⟩
          have l2 := (h.live b).mpr ⟨i, p, hp, tq, .inr hb⟩
          rcases g with _ | a
          · refine ⟨s, ?_, h⟩
            simp [putch, ht, cbputc, cbroom, cbbyte, load, access, l1, l2, hb, bind, Except.bind, pure, Except.pure]
          · have la := l p hp
            have had : a ≠ p.data := by
              rcases la with la | la
              · rintro rfl; rw [l1] at la; cases la
              · rw [hb] at la; cases la; exact hne
            have e : cbputc s.mem p.data (some a) =
                .ok { s.mem with live := upd (upd s.mem.live b false) a true, fld := upd s.mem.fld p.data (some a) } := by
              have h1 : upd (upd s.mem.live b false) a true p.data = true := by
                rw [upd_ne _ _ (Ne.symm had), upd_ne _ _ (Ne.symm hne), l1]
              simp [cbputc, cbroom, cbbyte, cbgrow, load, free, store, malloc, access, l1, l2, hb, h1, upd_same, bind, Except.bind, pure, Except.pure]
            refine ⟨_, by simp only [putch, ht, e, bind, Except.bind, pure, Except.pure]; rfl, ?_⟩
            have od : Owns s i p.data := ⟨p, hp, tq, .inl rfl⟩
            have sep : ∀ j q, s.port j = some q → (q.tag = .str ∨ q.tag = .bv) → j ≠ i → q.data ≠ p.data := fun j q hq tr hj h' =>
              hj (h.one j i p.data ⟨q, hq, tr, .inl h'.symm⟩ od)
            have own : ∀ j c, Owns { s with mem := { s.mem with live := upd (upd s.mem.live b false) a true, fld := upd s.mem.fld p.data (some a) } } j c ↔
                (j = i ∧ (c = p.data ∨ c = a)) ∨ (j ≠ i ∧ Owns s j c) := by
              intro j c
              constructor
              · rintro ⟨q, hq, tr, hq'⟩
                by_cases hj : j = i
                · subst hj
                  have hq : s.port j = some q := hq
                  rw [hp] at hq
                  cases hq
                  refine .inl ⟨rfl, ?_⟩
                  rcases hq' with hq' | hq'
                  · exact .inl hq'
                  · exact .inr (by simpa [upd_same, eq_comm] using hq')
                · refine .inr ⟨hj, q, hq, tr, ?_⟩
                  rcases hq' with hq' | hq'
                  · exact .inl hq'
                  · exact .inr ((upd_ne s.mem.fld (some a) (sep j q hq tr hj)).symm.trans hq')
              · rintro (⟨rfl, hc⟩ | ⟨hj, q, hq, tr, hq'⟩)
                · refine ⟨p, hp, tq, ?_⟩
                  rcases hc with rfl | rfl
                  · exact .inl rfl
                  · exact .inr (upd_same _ _ _)
                · exact ⟨q, hq, tr, by
                    show _ ∨ upd _ _ _ _ = _
                    rwa [upd_ne _ _ (sep j q hq tr hj)]⟩
            have other : ∀ j c, j ≠ i → Owns s j c → c ≠ p.data ∧ c ≠ b ∧ c ≠ a := by
              intro j c hj hc
              refine ⟨?_, ?_, ?_⟩
              · rintro rfl; exact hj (h.one _ _ _ hc od)
              · rintro rfl; exact hj (h.one _ _ _ hc ⟨p, hp, tq, .inr hb⟩)
              · rintro rfl
                rcases la with la | la
                · have := (h.live c).mpr ⟨j, hc⟩; rw [la] at this; cases this
                · exact hj (h.one _ _ _ hc ⟨p, hp, tq, .inr la⟩)
            refine ⟨fun c => ?_, fun j k c hj hk => ?_, fun j q hq tr => ?_, h.file, h.fone, h.next⟩
            · simp only [own]
              show upd (upd s.mem.live b false) a true c = true ↔ _
              by_cases h1 : c = a
              · subst h1; rw [upd_same]; exact ⟨fun _ => ⟨i, .inl ⟨rfl, .inr rfl⟩⟩, fun _ => rfl⟩
              · rw [upd_ne _ _ h1]
                by_cases h2 : c = b
                · subst h2
                  rw [upd_same]
                  constructor
                  · intro h; cases h
                  · rintro ⟨j, ⟨_, hj | hj⟩ | ⟨hj, hc⟩⟩
                    · exact absurd hj hne
                    · exact absurd hj h1
                    · exact absurd rfl (other j c hj hc).2.1
                · rw [upd_ne _ _ h2, h.live]
                  constructor
                  · rintro ⟨j, hj⟩
                    by_cases hji : j = i
                    · subst hji
                      obtain ⟨q, hq, _, hq'⟩ := hj
                      rw [hp] at hq
                      cases hq
                      rcases hq' with hq' | hq'
                      · exact ⟨j, .inl ⟨rfl, .inl hq'⟩⟩
                      · rw [hb] at hq'; cases hq'; exact absurd rfl h2
                    · exact ⟨j, .inr ⟨hji, hj⟩⟩
                  · rintro ⟨j, ⟨_, hj | hj⟩ | ⟨hj, hc⟩⟩
                    · exact ⟨i, by rw [hj]; exact od⟩
                    · exact absurd hj h1
                    · exact ⟨j, hc⟩
            · rcases (own j c).mp hj with ⟨j1, j2⟩ | ⟨j1, j2⟩ <;> rcases (own k c).mp hk with ⟨k1, k2⟩ | ⟨k1, k2⟩
              · rw [j1, k1]
              · have := other k c k1 k2; tauto
              · have := other j c j1 j2; tauto
              · exact h.one j k c j2 k2
            · by_cases hj : j = i
              · subst hj
                have hq : s.port j = some q := hq
                rw [hp] at hq
                cases hq
                exact ⟨a, upd_same _ _ _, had⟩
              · show ∃ b', upd _ _ _ _ = _ ∧ _
                rw [upd_ne _ _ (sep j q hq tr hj)]
                exact h.buf j q hq tr
  | close i =>
    simp only [step]
    rcases hp : s.port i with _ | p
    · exact .inl rfl
    · right
      have hlt := bound h hp
      by_cases tq : p.tag = .str ∨ p.tag = .bv
      · obtain ⟨b, hb, hne⟩ := h.buf i p hp tq
        have l1 := (h.live p.data).mpr ⟨i, p, hp, tq, .inl rfl⟩
        have l2 := (h.live b).mpr ⟨i, p, hp, tq, .inr hb⟩
        refine ⟨_, by simp only [close_mem tq l1 hb l2 hne, bind, Except.bind]; rfl, ?_⟩
        refine release h hp tq hb (fun a => ?_) (fun a ha => upd_ne _ _ ha) rfl (fun j hj => upd_ne _ _ hj) (fun q hq => ?_) rfl (fun hh => by omega)
        · show upd (upd s.mem.live b false) p.data false a = true ↔ _
          by_cases h1 : a = p.data
          · subst h1; simp [upd_same]
          · rw [upd_ne _ _ h1]
            by_cases h2 : a = b
            · subst h2; simp [upd_same]
            · rw [upd_ne _ _ h2]; simp [h1, h2]
        · have hq : upd s.port i _ i = some q := hq
          rw [upd_same] at hq; cases hq; rfl
      · rcases ht : p.tag with _ | _ | _ | _
        · have e : close s.mem p = .ok (s.mem, { p with tag := .closed }) := by
            simp [close, vtClose, vtFree, ht, bind, Except.bind, pure, Except.pure]
          refine ⟨_, by simp only [e, bind, Except.bind]; rfl, ?_⟩
          have : ({ p with tag := .closed } : Port) = p := by cases p; simp at ht; simp [ht]
          simp only [this]
          have hu : upd s.port i (some p) = s.port := by
            funext j
            by_cases hj : j = i
            · subst hj; rw [upd_same, hp]
            · rw [upd_ne _ _ hj]
          rw [hu]
          exact h
        · have hf := h.file i p hp ht
          have e : close s.mem p = .ok ({ s.mem with files := upd s.mem.files p.data false }, { p with tag := .closed }) := by
            simp [close, vtClose, vtFree, ht, fclose, hf, bind, Except.bind, pure, Except.pure]
          refine ⟨_, by simp only [e, bind, Except.bind]; rfl, ?_⟩
          have old : ∀ j q, upd s.port i (some { p with tag := .closed }) j = some q → q.tag = .closed ∨ (j ≠ i ∧ s.port j = some q) := by
            intro j q hq
            by_cases hj : j = i
            · subst hj; rw [upd_same] at hq; cases hq; exact .inl rfl
            · rw [upd_ne _ _ hj] at hq; exact .inr ⟨hj, hq⟩
          have own : ∀ j a, Owns { s with mem := { s.mem with files := upd s.mem.files p.data false }, port := upd s.port i (some { p with tag := .closed }) } j a ↔ Owns s j a := by
            intro j a
            constructor
            · rintro ⟨q, hq, tr, hq'⟩
              rcases old j q hq with hc | ⟨_, hq⟩
              · rw [hc] at tr; simp at tr
              · exact ⟨q, hq, tr, hq'⟩
            · rintro ⟨q, hq, tr, hq'⟩
              have hj : j ≠ i := by rintro rfl; rw [hp] at hq; cases hq; exact tq tr
              exact ⟨q, by show upd _ _ _ _ = _; rw [upd_ne _ _ hj]; exact hq, tr, hq'⟩
          refine ⟨fun a => ?_, fun j k a hj hk => ?_, fun j q hq tr => ?_, fun j q hq tr => ?_, fun j k q r hq hr tr tr' hd => ?_, fun j hj => ?_⟩
          · simp only [own]; exact h.live a
          · exact h.one j k a ((own _ _).mp hj) ((own _ _).mp hk)
          · rcases old j q hq with hc | ⟨_, hq⟩
            · rw [hc] at tr; simp at tr
            · exact h.buf j q hq tr
          · rcases old j q hq with hc | ⟨hj, hq⟩
            · rw [hc] at tr; simp at tr
            · have : q.data ≠ p.data := fun h' => hj (h.fone j i q p hq hp tr ht h')
              show upd _ _ _ _ = _
              rw [upd_ne _ _ this]; exact h.file j q hq tr
          · rcases old j q hq with hc | ⟨hj, hq⟩
            · rw [hc] at tr; simp at tr
            · rcases old k r hr with hc | ⟨hk, hr⟩
              · rw [hc] at tr'; simp at tr'
              · exact h.fone j k q r hq hr tr tr' hd
          · have hji : j ≠ i := by rintro rfl; have : s.next ≤ j := hj; omega
            show upd _ _ _ _ = _
            rw [upd_ne _ _ hji]; exact h.next j hj
        · exact absurd (.inl ht) tq
        · exact absurd (.inr ht) tq
  | collect i =>
    simp only [step]
    rcases hp : s.port i with _ | p
    · exact .inl rfl
    · right
      have hlt := bound h hp
      by_cases tq : p.tag = .str ∨ p.tag = .bv
      · obtain ⟨b, hb, hne⟩ := h.buf i p hp tq
        have l1 := (h.live p.data).mpr ⟨i, p, hp, tq, .inl rfl⟩
        have l2 := (h.live b).mpr ⟨i, p, hp, tq, .inr hb⟩
        obtain ⟨⟨m', f1, f2, rfl⟩, -⟩ := free_close l1 hb l2 hne
        have e : vtFree s.mem p = .ok { s.mem with live := upd (upd s.mem.live b false) p.data false } := by
          rcases tq with ht | ht <;> cases ho : p.out <;> simp [vtFree, ht, ho, f1, f2]
        refine ⟨_, by simp only [e, bind, Except.bind]; rfl, ?_⟩
        refine release h hp tq hb (fun a => ?_) (fun a ha => rfl) rfl (fun j hj => upd_ne _ _ hj) (fun q hq => ?_) rfl (fun hh => by omega)
        · show upd (upd s.mem.live b false) p.data false a = true ↔ _
          by_cases h1 : a = p.data
          · subst h1; simp [upd_same]
          · rw [upd_ne _ _ h1]
            by_cases h2 : a = b
            · subst h2; simp [upd_same]
            · rw [upd_ne _ _ h2]; simp [h1, h2]
        · have hq : upd s.port i none i = some q := hq
          rw [upd_same] at hq; cases hq
      · have e : vtFree s.mem p = .ok s.mem := by
          rcases ht : p.tag with _ | _ | _ | _
          · simp [vtFree, ht]
          · simp [vtFree, ht]
          · exact absurd (.inl ht) tq
          · exact absurd (.inr ht) tq
        refine ⟨_, by simp only [e, bind, Except.bind]; rfl, ?_⟩
        have old : ∀ j q, upd s.port i none j = some q → j ≠ i ∧ s.port j = some q := by
          intro j q hq
          by_cases hj : j = i
          · subst hj; rw [upd_same] at hq; cases hq
          · rw [upd_ne _ _ hj] at hq; exact ⟨hj, hq⟩
        have own : ∀ j a, Owns { s with mem := s.mem, port := upd s.port i none } j a ↔ Owns s j a := by
          intro j a
          constructor
          · rintro ⟨q, hq, tr, hq'⟩; exact ⟨q, (old j q hq).2, tr, hq'⟩
          · rintro ⟨q, hq, tr, hq'⟩
            have hj : j ≠ i := by rintro rfl; rw [hp] at hq; cases hq; exact tq tr
            exact ⟨q, by show upd _ _ _ _ = _; rw [upd_ne _ _ hj]; exact hq, tr, hq'⟩
        refine ⟨fun a => ?_, fun j k a hj hk => ?_, fun j q hq tr => ?_, fun j q hq tr => ?_, fun j k q r hq hr tr tr' hd => ?_, fun j hj => ?_⟩
        · simp only [own]; exact h.live a
        · exact h.one j k a ((own _ _).mp hj) ((own _ _).mp hk)
        · exact h.buf j q (old j q hq).2 tr
        · exact h.file j q (old j q hq).2 tr
        · exact h.fone j k q r (old j q hq).2 (old k r hr).2 tr tr' hd
        · have hji : j ≠ i := by rintro rfl; have : s.next ≤ j := hj; omega
          show upd _ _ _ _ = _
          rw [upd_ne _ _ hji]; exact h.next j hj

theorem reach_inv {s : State} (h : Reach s) : Inv s := by
  induction h with
  | start => exact inv_start
  | step s op s' _ l e ih =>
    rcases step_inv ih op l with h | ⟨s'', h, hi⟩
    · rw [h] at e; cases e
    · rw [h] at e; cases e; exact hi

/-- **C77**.  No operation on ports is undefined: no block is given back twice or used after it was given back, no file is closed twice or used after that,
whatever the program did before. -/
theorem c77_safe {s : State} (h : Reach s) (op : Op) (l : Legal s op) : step s op ≠ .error .ub := by
  rcases step_inv (reach_inv h) op l with e | ⟨s', e, _⟩ <;> rw [e] <;> simp

/-- **C77**.  The blocks in use are those of the ports that are neither closed nor gone, and no two ports share one. -/
theorem c77_owned {s : State} (h : Reach s) : (∀ a, s.mem.live a = true ↔ ∃ i, Owns s i a) ∧ ∀ i j a, Owns s i a → Owns s j a → i = j :=
  ⟨(reach_inv h).live, (reach_inv h).one⟩

/-- **C77**.  When every port is closed or gone, no memory is in use. -/
theorem c77_no_leak {s : State} (h : Reach s) (hc : ∀ i p, s.port i = some p → p.tag = .closed ∨ p.tag = .file) (a : Addr) : s.mem.live a = false := by
  by_contra hl
  obtain ⟨i, p, hp, tp, _⟩ := ((reach_inv h).live a).mp (by simpa using hl)
  rcases hc i p hp with hc | hc <;> rw [hc] at tp <;> simp at tp

/-- **C77**.  The file of a port that is not closed is in use, and belongs to this port only. -/
theorem c77_files {s : State} (h : Reach s) {i : Nat} {p : Port} (hp : s.port i = some p) (ht : p.tag = .file) :
    s.mem.files p.data = true ∧ ∀ j q, s.port j = some q → q.tag = .file → q.data = p.data → j = i :=
  ⟨(reach_inv h).file i p hp ht, fun j q hq tq hd => (reach_inv h).fone j i q p hq hp tq ht hd⟩

/-- **C77**.  Closing: the port is closed afterwards, its file is, too, and its blocks are given back; closing again changes nothing. -/
theorem c77_close {s : State} (h : Reach s) {i : Nat} {p : Port} (hp : s.port i = some p) :
    ∃ s', step s (.close i) = .ok s' ∧ s'.port i = some { p with tag := .closed } ∧ (∀ j, j ≠ i → s'.port j = s.port j) ∧
      (∀ a, Owns s i a → s'.mem.live a = false) ∧ (p.tag = .file → s'.mem.files p.data = false) ∧ step s' (.close i) = .ok s' := by
  have hi := reach_inv h
  have again : ∀ m : Mem, step ⟨m, upd s.port i (some { p with tag := .closed }), s.next⟩ (.close i) =
      .ok ⟨m, upd s.port i (some { p with tag := .closed }), s.next⟩ := by
    intro m
    have : upd (upd s.port i (some { p with tag := Tag.closed })) i (some { p with tag := Tag.closed }) = upd s.port i (some { p with tag := .closed }) := by
      funext j; unfold upd; split_ifs <;> rfl
    simp only [step, upd_same, close, vtClose, vtFree, bind, Except.bind, pure, Except.pure, this]
  rcases ht : p.tag with _ | _ | _ | _
  · refine ⟨⟨s.mem, upd s.port i (some { p with tag := .closed }), s.next⟩, ?_, upd_same _ _ _, fun j hj => upd_ne _ _ hj, ?_, ?_, again _⟩
    · simp [step, hp, close, vtClose, vtFree, ht, bind, Except.bind, pure, Except.pure]
    · rintro a ⟨q, hq, tq, _⟩
      rw [hp] at hq; cases hq; rw [ht] at tq; simp at tq
    · simp
  · have hf := hi.file i p hp ht
    refine ⟨⟨{ s.mem with files := upd s.mem.files p.data false }, upd s.port i (some { p with tag := .closed }), s.next⟩, ?_, upd_same _ _ _,
      fun j hj => upd_ne _ _ hj, ?_, fun _ => upd_same _ _ _, again _⟩
    · simp [step, hp, close, vtClose, vtFree, ht, fclose, hf, bind, Except.bind, pure, Except.pure]
    · rintro a ⟨q, hq, tq, _⟩
      rw [hp] at hq; cases hq; rw [ht] at tq; simp at tq
  all_goals
    have tq : p.tag = .str ∨ p.tag = .bv := by rw [ht]; simp
    obtain ⟨b, hb, hne⟩ := hi.buf i p hp tq
    have l1 := (hi.live p.data).mpr ⟨i, p, hp, tq, .inl rfl⟩
    have l2 := (hi.live b).mpr ⟨i, p, hp, tq, .inr hb⟩
    refine ⟨⟨{ s.mem with live := upd (upd s.mem.live b false) p.data false, fld := upd s.mem.fld p.data none }, upd s.port i (some { p with tag := .closed }), s.next⟩,
      by simp only [step, hp, close_mem tq l1 hb l2 hne, bind, Except.bind, pure, Except.pure], upd_same _ _ _, fun j hj => upd_ne _ _ hj, ?_, by simp, again _⟩
    rintro a ⟨q, hq, _, ha⟩
    rw [hp] at hq
    cases hq
    show upd (upd s.mem.live b false) p.data false a = false
    by_cases h1 : a = p.data
    · rw [h1]; exact upd_same _ _ _
    · rw [upd_ne _ _ h1]
      rcases ha with ha | ha
      · exact absurd ha h1
      · rw [hb] at ha; cases ha; exact upd_same _ _ _

/-- **C77**.  Reading from a closed port finds the end, writing to one does nothing. -/
theorem c77_closed (m : Mem) (p : Port) (ht : p.tag = .closed) (g : Option Addr) : getch m p = .ok false ∧ putch m p g = .ok (m, false) := by
  simp [getch, putch, ht]

/-- Ports the collector finds give back what they use. -/
def C77Collect : Prop := ∀ s, Reach s → ∀ i p s', s.port i = some p → step s (.collect i) = .ok s' →
  (∀ a, Owns s i a → s'.mem.live a = false) ∧ (p.tag = .file → s'.mem.files p.data = false)

/-- **C77** (partial).  Ports in memory give back their blocks.  Missing: files, which stay open (`c77_counterexample`). -/
theorem c77_collect_partial {s : State} (h : Reach s) {i : Nat} {p : Port} {s' : State} (hp : s.port i = some p) (e : step s (.collect i) = .ok s') :
    s'.port i = none ∧ ∀ a, Owns s i a → s'.mem.live a = false := by
  have h' : Inv s' := reach_inv (.step s (.collect i) s' h trivial e)
  have e1 : s'.port i = none ∧ (∀ j, j ≠ i → s'.port j = s.port j) ∧ s'.mem.fld = s.mem.fld := by
    simp only [step, hp] at e
    have hi := reach_inv h
    by_cases tq : p.tag = .str ∨ p.tag = .bv
    · obtain ⟨b, hb, hne⟩ := hi.buf i p hp tq
      have l1 := (hi.live p.data).mpr ⟨i, p, hp, tq, .inl rfl⟩
      have l2 := (hi.live b).mpr ⟨i, p, hp, tq, .inr hb⟩
      obtain ⟨⟨m', f1, f2, rfl⟩, -⟩ := free_close l1 hb l2 hne
      have ev : vtFree s.mem p = .ok { s.mem with live := upd (upd s.mem.live b false) p.data false } := by
        rcases tq with ht | ht <;> cases ho : p.out <;> simp [vtFree, ht, ho, f1, f2]
      simp only [ev, bind, Except.bind, pure, Except.pure, Except.ok.injEq] at e
      subst e
      exact ⟨upd_same _ _ _, fun j hj => upd_ne _ _ hj, rfl⟩
    · have ev : vtFree s.mem p = .ok s.mem := by
        rcases ht : p.tag with _ | _ | _ | _
        · simp [vtFree, ht]
        · simp [vtFree, ht]
        · exact absurd (.inl ht) tq
        · exact absurd (.inr ht) tq
      simp only [ev, bind, Except.bind, pure, Except.pure, Except.ok.injEq] at e
      subst e
      exact ⟨upd_same _ _ _, fun j hj => upd_ne _ _ hj, rfl⟩
  obtain ⟨e1, e2, e3⟩ := e1
  refine ⟨e1, fun a ha => ?_⟩
  by_contra hl
  obtain ⟨j, q, hq, tq, hq'⟩ := (h'.live a).mp (by simpa using hl)
  have hj : j ≠ i := by rintro rfl; rw [e1] at hq; cases hq
  rw [e2 j hj] at hq
  rw [e3] at hq'
  exact hj ((reach_inv h).one j i a ⟨q, hq, tq, hq'⟩ ha)

/-- **C77** (refuted).  The file of a port that becomes unreachable before it is closed stays open for ever. -/
theorem c77_counterexample : ¬ C77Collect := by
  intro h
  have r : Reach ⟨{ start.mem with files := upd start.mem.files 5 true }, upd start.port 0 (some ⟨true, .file, 5⟩), 1⟩ :=
    .step start (.openFile true 5) _ .start rfl rfl
  have := (h _ r 0 ⟨true, .file, 5⟩ _ rfl rfl).2 rfl
  simp [upd] at this

/-- Two ports in memory, one of which grows to a new block and is closed; the other one is collected; addresses come again. -/
example : ∃ s, Reach s ∧ s.port 0 = some ⟨true, .closed, 1⟩ ∧ s.port 1 = none ∧ s.port 2 = some ⟨true, .bv, 2⟩ ∧ s.mem.live 2 = true ∧ s.mem.live 4 = false := by
  refine ⟨_, .step _ (.openMem true true 2 3) _ (.step _ (.collect 1) _ (.step _ (.close 0) _ (.step _ (.put 0 (some 5)) _
    (.step _ (.openMem false false 3 4) _ (.step _ (.openMem true false 1 2) _ .start ?_ rfl) ?_ rfl) ?_ rfl) trivial rfl) trivial rfl) ?_ rfl, ?_⟩
  · exact ⟨rfl, rfl, by decide⟩
  · exact ⟨rfl, rfl, by decide⟩
  · intro p _; exact .inl rfl
  · exact ⟨rfl, rfl, by decide⟩
  · exact ⟨rfl, rfl, rfl, rfl, rfl⟩

/-- **C77**.  A port that is opened in memory is there, and uses the two blocks it was given. -/
theorem c77_open {s : State} (o t : Bool) (d b : Addr) (l : Legal s (.openMem o t d b)) :
    ∃ s', step s (.openMem o t d b) = .ok s' ∧ s'.port s.next = some ⟨o, if t then .bv else .str, d⟩ ∧ (∀ a, Owns s' s.next a ↔ a = d ∨ a = b) ∧
      s'.mem.live d = true ∧ s'.mem.live b = true := by
  obtain ⟨_, _, hne⟩ := l
  have hs : store (malloc (malloc s.mem d) b) d (some b) = .ok { s.mem with live := upd (upd s.mem.live d true) b true, fld := upd s.mem.fld d (some b) } := by
    simp [store, malloc, upd]
  refine ⟨⟨_, upd s.port s.next (some ⟨o, if t then .bv else .str, d⟩), s.next + 1⟩, by simp only [step, hs]; rfl, upd_same _ _ _, fun a => ?_, ?_, ?_⟩
  · constructor
    · rintro ⟨p, hp, _, hp'⟩
      have hp : upd s.port s.next _ s.next = some p := hp
      rw [upd_same] at hp
      cases hp
      rcases hp' with rfl | hp'
      · exact .inl rfl
      · exact .inr (Option.some.inj (hp'.symm.trans (upd_same _ _ _)))
    · intro ha
      refine ⟨_, upd_same _ _ _, by cases t <;> simp, ?_⟩
      rcases ha with rfl | rfl
      · exact .inl rfl
      · exact .inr (upd_same _ _ _)
  · exact (upd_ne _ _ hne).trans (upd_same _ _ _)
  · exact upd_same _ _ _

theorem free_files {m m' : Mem} {a : Option Addr} (e : free m a = .ok m') : m'.files = m.files := by
  unfold free at e
  split at e
  · cases e; rfl
  · split at e
    · cases e; rfl
    · cases e
theorem store_files {m m' : Mem} {a : Addr} {v : Option Addr} (e : store m a v = .ok m') : m'.files = m.files := by
  unfold store at e
  split at e
  · cases e; rfl
  · cases e
theorem bind_ok {α β : Type} {x : C α} {f : α → C β} {r : β} (e : (x >>= f) = .ok r) : ∃ a, x = .ok a ∧ f a = .ok r := by
  cases x with
  | ok a => exact ⟨a, rfl, e⟩
  | error => cases e
theorem free2_files {m m' : Mem} {a : Addr} (e : siFree m a = .ok m' ∨ cbFree m a = .ok m' ∨ siClose m a = .ok m' ∨ cbClose m a = .ok m') : m'.files = m.files := by
  rcases e with e | e | e | e <;>
  · obtain ⟨b, _, e⟩ := bind_ok e
    obtain ⟨m1, e1, e⟩ := bind_ok e
    first
    | exact (free_files e).trans (free_files e1)
    | exact (store_files e).trans (free_files e1)
theorem vtFree_files {m m' : Mem} {p : Port} (e : vtFree m p = .ok m') : m'.files = m.files := by
  rcases ht : p.tag with _ | _ | _ | _ <;> simp only [vtFree, ht] at e
  · cases e; rfl
  · cases e; rfl
  all_goals
    split at e
    · exact free2_files (.inr (.inl e))
    · exact free2_files (.inl e)
theorem vtClose_files {m m' : Mem} {p : Port} (e : vtClose m p = .ok m') (f : Addr) (h : m'.files f = true) :
    m.files f = true ∧ (p.tag = .file → p.data ≠ f) := by
  rcases ht : p.tag with _ | _ | _ | _ <;> simp only [vtClose, ht] at e
  · cases e; exact ⟨h, by simp⟩
  · unfold fclose at e
    split at e
    · cases e
      by_cases hf : f = p.data
      · subst hf; simp [upd_same] at h
      · exact ⟨(upd_ne m.files false hf).symm.trans h, fun _ h' => hf h'.symm⟩
    · cases e
  all_goals
    refine ⟨?_, by simp⟩
    split at e
    · rw [← free2_files (.inr (.inr (.inr e)))]; exact h
    · rw [← free2_files (.inr (.inr (.inl e)))]; exact h
theorem cbputc_files {m m' : Mem} {a : Addr} {g : Option Addr} (e : cbputc m a g = .ok m') : m'.files = m.files := by
  obtain ⟨m1, e1, e⟩ := bind_ok e
  obtain ⟨b, _, e⟩ := bind_ok e
  have h1 : m1.files = m.files := by
    rcases g with _ | g
    · cases e1; rfl
    · obtain ⟨b, _, e1⟩ := bind_ok e1
      obtain ⟨m2, e2, e1⟩ := bind_ok e1
      have h2 : m1.files = m2.files := store_files (m := malloc m2 g) e1
      exact h2.trans (free_files e2)
  rcases b with _ | b
  · cases e
  · obtain ⟨_, _, e⟩ := bind_ok e
    cases e
    exact h1

/-- Programs that close the ports of their files before they lose them. -/
inductive Tidy : State → Prop
  | start : Tidy start
  | step (s : State) (op : Op) (s' : State) (h : Tidy s) (l : Legal s op) (t : ∀ i p, op = .collect i → s.port i = some p → p.tag ≠ .file)
      (e : step s op = .ok s') : Tidy s'

theorem Tidy.reach {s : State} (h : Tidy s) : Reach s := by
  induction h with
  | start => exact .start
  | step s op s' _ l _ e ih => exact .step s op s' ih l e

/-- **C77**.  In programs that close the ports of their files before they lose them, the files in use are those of the ports that are not closed. -/
theorem c77_files_tidy {s : State} (h : Tidy s) (f : Addr) :
    s.mem.files f = true ↔ ∃ i p, s.port i = some p ∧ p.tag = .file ∧ p.data = f := by
  refine ⟨?_, fun ⟨i, p, hp, ht, hd⟩ => hd ▸ (reach_inv h.reach).file i p hp ht⟩
  induction h with
  | start => intro hf; cases hf
  | step s op s' hs l t e ih =>
    intro hf
    have hn : s.port s.next = none := (reach_inv hs.reach).next _ (Nat.le_refl _)
    have keep : ∀ q : Option Port, (∃ i p, s.port i = some p ∧ p.tag = .file ∧ p.data = f) →
        ∃ i p, upd s.port s.next q i = some p ∧ p.tag = .file ∧ p.data = f := by
      rintro q ⟨i, p, hp, r⟩
      exact ⟨i, p, by rw [upd_ne _ _ (by rintro rfl; rw [hn] at hp; cases hp)]; exact hp, r⟩
    cases op with
    | openFile o g =>
      cases e
      by_cases hg : f = g
      · exact ⟨s.next, _, upd_same _ _ _, rfl, hg.symm⟩
      · exact keep _ (ih ((upd_ne s.mem.files true hg).symm.trans hf))
    | openMem o t d b =>
      obtain ⟨m, e1, e⟩ := bind_ok e
      cases e
      have h2 : m.files = s.mem.files := store_files (m := malloc (malloc s.mem d) b) e1
      exact keep _ (ih (by rw [← h2]; exact hf))
    | get i =>
      simp only [step] at e
      split at e
      · split at e
        · cases e
        · obtain ⟨_, _, e⟩ := bind_ok e
          cases e
          exact ih hf
      · cases e
    | put i g =>
      simp only [step] at e
      split at e
      · rename_i p hp
        split at e
        · obtain ⟨r, e1, e⟩ := bind_ok e
          cases e
          refine ih ?_
          have : r.1.files = s.mem.files := by
            rcases ht : p.tag with _ | _ | _ | _ <;> simp only [putch, ht] at e1
            · cases e1; rfl
            · obtain ⟨_, _, e1⟩ := bind_ok e1; cases e1; rfl
            all_goals
              obtain ⟨m, e2, e1⟩ := bind_ok e1
              cases e1
              exact cbputc_files e2
          rw [← this]; exact hf
        · cases e
      · cases e
    | close i =>
      simp only [step] at e
      split at e
      · rename_i p hp
        obtain ⟨r, e1, e⟩ := bind_ok e
        cases e
        obtain ⟨m1, e2, e1⟩ := bind_ok e1
        obtain ⟨m2, e3, e1⟩ := bind_ok e1
        cases e1
        have hf : m2.files f = true := hf
        rw [vtFree_files e3] at hf
        obtain ⟨h1, h2⟩ := vtClose_files e2 f hf
        obtain ⟨j, q, hq, tq, hd⟩ := ih h1
        refine ⟨j, q, ?_, tq, hd⟩
        have : j ≠ i := by rintro rfl; rw [hp] at hq; cases hq; exact h2 tq hd
        exact (upd_ne s.port _ this).trans hq
      · cases e
    | collect i =>
      simp only [step] at e
      split at e
      · rename_i p hp
        obtain ⟨m, e1, e⟩ := bind_ok e
        cases e
        have hf : m.files f = true := hf
        rw [vtFree_files e1] at hf
        obtain ⟨j, q, hq, tq, hd⟩ := ih hf
        refine ⟨j, q, ?_, tq, hd⟩
        have : j ≠ i := by rintro rfl; exact t j q rfl hq tq
        exact (upd_ne s.port _ this).trans hq
      · cases e

/-- Two files; one is closed, and its address comes again. -/
example : ∃ s, Tidy s ∧ s.port 0 = some ⟨true, .closed, 7⟩ ∧ s.port 1 = some ⟨false, .file, 7⟩ ∧ s.mem.files 7 = true := by
  refine ⟨_, .step _ (.openFile false 7) _ (.step _ (.close 0) _ (.step _ (.openFile true 7) _ .start rfl ?_ rfl) trivial ?_ rfl) rfl ?_ rfl, rfl, rfl, rfl⟩
  all_goals intro i p h; cases h

end Verif.PortLife

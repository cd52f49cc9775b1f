import Verif.Stab.Circular
import Verif.Equal.Props
/-
C13: LibL's equal? decides indistinguishability by access paths, on circular data too.
-/
namespace Verif.Stab
open Verif.Equal (Obj Heap Node feq seq)

variable {F : Type} [DecidableEq F]

/-! ### specification -/

/-- flonums equal as numbers, strings equal as C strings, bytevectors with equal contents -/
inductive Leaf (H : Heap F) (x y : Obj) : Prop
  | flo {a b} : H x = some (.flo a) → H y = some (.flo b) → feq a b = true → Leaf H x y
  | str {a b} : H x = some (.str a) → H y = some (.str b) → seq a b = true → Leaf H x y
  | bytes {a b} : H x = some (.bytes a) → H y = some (.bytes b) → a = b → Leaf H x y

/-- two blocks of the same size and with the same tag word; `ws`, `us` are the other words -/
def Blocks (H : Heap F) (x y : Obj) (ws us : List Obj) : Prop :=
  ∃ w, H x = some (.blk (w :: ws)) ∧ H y = some (.blk (w :: us)) ∧ ws.length = us.length

/-- the access path `p` leads from `x` and `y` to two objects that differ on the spot -/
def DiffAt (H : Heap F) : List Nat → Obj → Obj → Prop
  | [], x, y => ¬ (x = y ∨ Leaf H x y ∨ ∃ ws us, Blocks H x y ws us)
  | i :: p, x, y => ∃ ws us a b, Blocks H x y ws us ∧ ws[i]? = some a ∧ us[i]? = some b ∧ DiffAt H p a b

/-- no access path distinguishes `x` and `y` -/
def Indist (H : Heap F) (x y : Obj) : Prop := ∀ p, ¬ DiffAt H p x y

/-! ### the fast path -/

theorem indist_refl (H : Heap F) (x : Obj) : Indist H x x := by
  intro p
  induction p generalizing x with
  | nil => simp [DiffAt]
  | cons i p ih =>
    rintro ⟨ws, us, a, b, ⟨w, e1, e2, _⟩, ha, hb, h⟩
    rw [e1] at e2
    simp only [Option.some.injEq, Node.blk.injEq, List.cons.injEq, true_and] at e2
    subst e2
    rw [ha] at hb
    cases hb
    exact ih a h

theorem Blocks.det {H : Heap F} {x y : Obj} {ws us ws' us' : List Obj} (h : Blocks H x y ws us) (h' : Blocks H x y ws' us') :
    ws = ws' ∧ us = us' := by
  obtain ⟨w, e1, e2, _⟩ := h
  obtain ⟨w', e1', e2', _⟩ := h'
  rw [e1] at e1'; rw [e2] at e2'
  simp only [Option.some.injEq, Node.blk.injEq, List.cons.injEq] at e1' e2'
  exact ⟨e1'.2, e2'.2⟩

theorem leaf_indist {H : Heap F} {x y : Obj} (h : Leaf H x y) : Indist H x y := by
  intro p
  cases p with
  | nil => simp only [DiffAt, not_not]; exact .inr (.inl h)
  | cons i p =>
    rintro ⟨ws, us, a, b, ⟨w, e1, e2, _⟩, -⟩
    cases h with
    | flo h | str h | bytes h => rw [h] at e1; simp at e1

theorem blocks_indist {H : Heap F} {x y : Obj} {ws us : List Obj} (hb : Blocks H x y ws us) :
    Indist H x y ↔ ∀ (i : Nat) (a b : Obj), ws[i]? = some a → us[i]? = some b → Indist H a b := by
  constructor
  · intro h i a b ha hb' p hp
    exact h (i :: p) ⟨ws, us, a, b, hb, ha, hb', hp⟩
  · intro h p
    cases p with
    | nil => simp only [DiffAt, not_not]; exact .inr (.inr ⟨ws, us, hb⟩)
    | cons i p =>
      rintro ⟨ws', us', a, b, hb', ha, hb2, hp⟩
      obtain ⟨rfl, rfl⟩ := hb.det hb'
      exact h i a b ha hb2 p hp

theorem not_indist {H : Heap F} {x y : Obj} (h1 : x ≠ y) (h2 : ¬ Leaf H x y) (h3 : ∀ ws us, ¬ Blocks H x y ws us) :
    ¬ Indist H x y := by
  intro h
  refine h [] ?_
  simp only [DiffAt, not_or, not_exists]
  exact ⟨h1, h2, h3⟩

/-- C13, fast path: with any positive fuel it terminates (recursing at most `fuel` deep, its assertion holding throughout); a
positive answer means indistinguishable, a negative one distinguishable. -/
theorem c13_bound (H : Heap F) : ∀ (n : Nat) (x y : Obj) (fuel : Int), 0 < fuel → fuel ≤ n →
    ∃ res, boundequal H n x y fuel = some res ∧ res < fuel ∧ (0 < res → Indist H x y) ∧ (res < 0 → ¬ Indist H x y) := by
  intro n
  induction n with
  | zero => intro x y fuel h1 h2; simp at h2; omega
  | succ n ih =>
    intro x y fuel h1 h2
    unfold boundequal
    rw [if_neg (by omega)]
    by_cases hxy : x = y
    · subst hxy
      rw [if_pos rfl]
      exact ⟨fuel - 1, rfl, by omega, fun _ => indist_refl H x, fun h => by omega⟩
    · rw [if_neg hxy]
      split
      · next a b e1 e2 =>
        cases hf : feq a b with
        | true => exact ⟨fuel - 1, by simp, by omega, fun _ => leaf_indist (.flo e1 e2 hf), fun h => by omega⟩
        | false =>
          refine ⟨-1, by simp, by omega, fun h => by omega, fun _ => not_indist hxy ?_ ?_⟩
          · rintro (⟨e1', e2', h⟩ | ⟨e1', e2', h⟩ | ⟨e1', e2', h⟩) <;> simp_all
          · rintro ws us ⟨w, e1', _⟩; simp_all
      · next a b e1 e2 =>
        cases hf : seq a b with
        | true => exact ⟨fuel - 1, by simp, by omega, fun _ => leaf_indist (.str e1 e2 hf), fun h => by omega⟩
        | false =>
          refine ⟨-1, by simp, by omega, fun h => by omega, fun _ => not_indist hxy ?_ ?_⟩
          · rintro (⟨e1', e2', h⟩ | ⟨e1', e2', h⟩ | ⟨e1', e2', h⟩) <;> simp_all
          · rintro ws us ⟨w, e1', _⟩; simp_all
      · next a b e1 e2 =>
        by_cases hf : a = b
        · exact ⟨fuel - 1, by simp [hf], by omega, fun _ => leaf_indist (.bytes e1 e2 hf), fun h => by omega⟩
        · refine ⟨-1, by simp [hf], by omega, fun h => by omega, fun _ => not_indist hxy ?_ ?_⟩
          · rintro (⟨e1', e2', h⟩ | ⟨e1', e2', h⟩ | ⟨e1', e2', h⟩) <;> simp_all
          · rintro ws us ⟨w, e1', _⟩; simp_all
      · next w ws u us e1 e2 =>
        by_cases hc : ws.length = us.length ∧ w = u
        · rw [if_pos hc]
          have hb : Blocks H x y ws us := ⟨w, e1, by rw [hc.2]; exact e2, hc.1⟩
          by_cases h0 : fuel - 1 = 0
          · rw [if_pos h0]
            exact ⟨0, rfl, by omega, fun h => by omega, fun h => by omega⟩
          · rw [if_neg h0]
            have all : ∀ (ws us : List Obj) (f : Int), ws.length = us.length → 0 < f → f ≤ n →
                ∃ res, cmpAllB (boundequal H n) ws us f = some res ∧ res ≤ f ∧
                  (0 < res → ∀ (i : Nat) (a b : Obj), ws[i]? = some a → us[i]? = some b → Indist H a b) ∧
                  (res < 0 → ∃ (i : Nat) (a b : Obj), ws[i]? = some a ∧ us[i]? = some b ∧ ¬ Indist H a b) := by
              intro ws
              induction ws with
              | nil =>
                intro us f hl hf1 hf2
                cases us with
                | nil => exact ⟨f, rfl, le_rfl, by simp, fun h => by omega⟩
                | cons u us => simp at hl
              | cons x ws ih2 =>
                intro us f hl hf1 hf2
                cases us with
                | nil => simp at hl
                | cons y us =>
                  obtain ⟨res, r1, r2, r3, r4⟩ := ih x y f hf1 hf2
                  unfold cmpAllB
                  simp only [r1, Option.bind_eq_bind, Option.bind_some]
                  by_cases hr : res ≤ 0
                  · rw [if_pos hr]
                    exact ⟨res, rfl, by omega, fun h => by omega, fun h => ⟨0, x, y, rfl, rfl, r4 h⟩⟩
                  · rw [if_neg hr]
                    obtain ⟨res', s1, s2, s3, s4⟩ := ih2 us res (by simpa using hl) (by omega) (by omega)
                    refine ⟨res', s1, by omega, fun h i a b ha hb => ?_, fun h => ?_⟩
                    · cases i with
                      | zero =>
                        simp only [List.getElem?_cons_zero, Option.some.injEq] at ha hb
                        subst ha; subst hb
                        exact r3 (by omega)
                      | succ i => exact s3 h i a b (by simpa using ha) (by simpa using hb)
                    · obtain ⟨i, a, b, ha, hb, hd⟩ := s4 h
                      exact ⟨i + 1, a, b, by simpa using ha, by simpa using hb, hd⟩
            obtain ⟨res, r1, r2, r3, r4⟩ := all ws us (fuel - 1) hc.1 (by omega) (by omega)
            refine ⟨res, r1, by omega, fun h => (blocks_indist hb).2 (r3 h), fun h hi => ?_⟩
            obtain ⟨i, a, b, ha, hb', hd⟩ := r4 h
            exact hd ((blocks_indist hb).1 hi i a b ha hb')
        · rw [if_neg hc]
          refine ⟨-1, rfl, by omega, fun h => by omega, fun _ => not_indist hxy ?_ ?_⟩
          · rintro (⟨e1', e2', h⟩ | ⟨e1', e2', h⟩ | ⟨e1', e2', h⟩) <;> simp_all
          · rintro ws' us' ⟨w', e1', e2', hl⟩
            rw [e1] at e1'; rw [e2] at e2'
            simp only [Option.some.injEq, Node.blk.injEq, List.cons.injEq] at e1' e2'
            exact hc ⟨by rw [e1'.2, e2'.2, hl], by rw [e1'.1, e2'.1]⟩
      · next n1 n2 n3 n4 =>
        refine ⟨-1, rfl, by omega, fun h => by omega, fun _ => not_indist hxy ?_ ?_⟩
        · rintro (⟨e1', e2', h⟩ | ⟨e1', e2', h⟩ | ⟨e1', e2', h⟩)
          · exact n1 _ _ e1' e2'
          · exact n2 _ _ e1' e2'
          · exact n3 _ _ e1' e2'
        · rintro ws us ⟨w, e1', e2', _⟩
          exact n4 _ _ _ _ e1' e2'

/-! ### collecting the reachable objects -/

/-- every heap component of an object in the table is in the table, except for those in `old` -/
def ClosedBut (H : Heap F) (old : Nat → Prop) (t : Tab) : Prop :=
  ∀ q, Addr q → Live t q → ¬ old q → ∀ y, Edge H y q → H y ≠ none → Live t y

/-- effect of stabshared -/
structure PostS (H : Heap F) (D : Nat → Prop) (o : Nat) (t t' : Tab) : Prop where
  inv : Inv t'
  keep : ∀ q, Addr q → Live t q → Live t' q
  got : H o ≠ none → Live t' o
  closed : ClosedBut H (Live t) t'
  only : ∀ q, Addr q → Live t' q → Live t q ∨ (D q ∧ H q ≠ none)

theorem shared_spec {H : Heap F} {D : Nat → Prop} {dom : List Nat} (hok : Heap.Ok H) (hcl : ∀ x y, D x → Edge H y x → D y)
    (hdom : ∀ q ∈ dom, Addr q) (hD : ∀ q, D q → H q ≠ none → q ∈ dom) : ∀ n o t, Inv t → D o → missing dom t < n →
    ∃ t', stabshared H n o t = some t' ∧ PostS H D o t t' := by
  intro n
  induction n with
  | zero => intro o t _ _ h; omega
  | succ n ih =>
    intro o t hI hDo hmis
    cases eo : H o with
    | none =>
      refine ⟨t, by simp [stabshared, stabnew, eo], hI, fun _ _ h => h, fun h => (h eo).elim, ?_, fun _ _ h => .inl h⟩
      intro q _ h hn; exact (hn h).elim
    | some nd =>
      have ho : Addr o := hok.addr o (by simp [eo])
      obtain ⟨b, t1, en, hnew⟩ := stabnew_spec (H := H) (circ := false) hI ho (by simp [eo]) (by simp)
      cases hnew with
      | @mark _ m0 hI1 hm0 hmk =>
        have hiff : ∀ q, Addr q → (Live t1 q ↔ Live t q) := by
          intro q hq
          constructor
          · rintro ⟨m, h⟩
            rcases (hmk q hq m).1 h with h | h
            · exact ⟨m, h.2⟩
            · exact ⟨m0, by rw [h.1]; exact hm0⟩
          · rintro ⟨m, h⟩
            by_cases hqo : q = o
            · exact ⟨true, (hmk q hq true).2 (.inr ⟨hqo, rfl⟩)⟩
            · exact ⟨m, (hmk q hq m).2 (.inl ⟨hqo, h⟩)⟩
        refine ⟨t1, by simp [stabshared, en], hI1, fun q hq h => (hiff q hq).2 h, fun _ => (hiff o ho).2 ⟨m0, hm0⟩, ?_,
          fun q hq h => .inl ((hiff q hq).1 h)⟩
        intro q hq h hn; exact (hn ((hiff q hq).1 h)).elim
      | add hI1 habs hadd =>
        have hiff : ∀ q, Addr q → (Live t1 q ↔ (Live t q ∨ q = o)) := by
          intro q hq
          constructor
          · rintro ⟨m, h⟩
            rcases (hadd q hq m).1 h with h | h
            · exact .inl ⟨m, h⟩
            · exact .inr h.1
          · rintro (⟨m, h⟩ | h)
            · exact ⟨m, (hadd q hq m).2 (.inl h)⟩
            · exact ⟨false, (hadd q hq false).2 (.inr ⟨h, rfl⟩)⟩
        by_cases hblk : ∃ ws, nd = .blk ws
        · obtain ⟨ws, rfl⟩ := hblk
          have hmis1 : missing dom t1 < n := by
            have := missing_lt (dom := dom) (t := t) (t' := t1) (fun q hq h => (hiff q (hdom q hq)).2 (.inl h))
              (hD o hDo (by simp [eo])) (fun ⟨m, h⟩ => habs m h) ((hiff o ho).2 (.inr rfl))
            omega
          have fold : ∀ (ws' : List Nat) (t : Tab), Inv t → (∀ w ∈ ws', D w) → missing dom t < n →
              ∃ t', ws'.foldlM (fun t w => stabshared H n w t) t = some t' ∧ Inv t' ∧ (∀ q, Addr q → Live t q → Live t' q) ∧
                (∀ w ∈ ws', H w ≠ none → Live t' w) ∧ ClosedBut H (Live t) t' ∧
                (∀ q, Addr q → Live t' q → Live t q ∨ (D q ∧ H q ≠ none)) := by
            intro ws'
            induction ws' with
            | nil => intro t hI _ _; exact ⟨t, rfl, hI, fun _ _ h => h, by simp, fun q _ h hn => (hn h).elim, fun _ _ h => .inl h⟩
            | cons w ws' ih2 =>
              intro t hI hw hm
              obtain ⟨ta, ea, pa⟩ := ih w t hI (hw w (by simp)) hm
              obtain ⟨tb, eb, b1, b2, b3, b4, b5⟩ := ih2 ta pa.inv (fun q hq => hw q (by simp [hq]))
                (lt_of_le_of_lt (missing_le fun q hq h => pa.keep q (hdom q hq) h) hm)
              refine ⟨tb, ?_, b1, fun q hq h => b2 q hq (pa.keep q hq h), fun q hq hn => ?_, fun q hq h hn y hy hyn => ?_,
                fun q hq h => ?_⟩
              · rw [List.foldlM_cons, ea]; exact eb
              · rcases List.mem_cons.1 hq with e | hq
                · rw [e] at hn ⊢
                  exact b2 w (hok.addr w hn) (pa.got hn)
                · exact b3 q hq hn
              · by_cases hqa : Live ta q
                · exact b2 y (hok.addr y hyn) (pa.closed q hq hqa hn y hy hyn)
                · exact b4 q hq h hqa y hy hyn
              · rcases b5 q hq h with h | h
                · exact pa.only q hq h
                · exact .inr h
          obtain ⟨t2, e2, f1, f2, f3, f4, f5⟩ := fold ws t1 hI1 (fun w hw => hcl o w hDo ⟨ws, eo, hw⟩) hmis1
          refine ⟨t2, ?_, f1, fun q hq h => f2 q hq ((hiff q hq).2 (.inl h)), fun _ => f2 o ho ((hiff o ho).2 (.inr rfl)),
            fun q hq h hn y hy hyn => ?_, fun q hq h => ?_⟩
          · unfold stabshared
            simp only [en, eo, Option.bind_eq_bind, Option.bind_some, if_true]
            exact e2
          · by_cases hqo : q = o
            · obtain ⟨ws', e', hy'⟩ := hy
              rw [hqo, eo] at e'
              simp only [Option.some.injEq, Node.blk.injEq] at e'
              subst e'
              exact f3 y hy' hyn
            · refine f4 q hq h (fun h1 => ?_) y hy hyn
              rcases (hiff q hq).1 h1 with h1 | h1
              · exact hn h1
              · exact hqo h1
          · rcases f5 q hq h with h | h
            · rcases (hiff q hq).1 h with h | h
              · exact .inl h
              · exact .inr (by rw [h]; exact ⟨hDo, by simp [eo]⟩)
            · exact .inr h
        · refine ⟨t1, ?_, hI1, fun q hq h => (hiff q hq).2 (.inl h), fun _ => (hiff o ho).2 (.inr rfl), fun q hq h hn y hy hyn => ?_,
            fun q hq h => ?_⟩
          · unfold stabshared
            simp only [en, eo, Option.bind_eq_bind, Option.bind_some, if_true]
            cases nd with
            | blk ws => exact (hblk ⟨ws, rfl⟩).elim
            | _ => rfl
          · obtain ⟨ws, e', _⟩ := hy
            rcases (hiff q hq).1 h with h1 | h1
            · exact (hn h1).elim
            · rw [h1, eo] at e'
              exact (hblk ⟨ws, by simpa using e'⟩).elim
          · rcases (hiff q hq).1 h with h | h
            · exact .inl h
            · exact .inr (by rw [h]; exact ⟨hDo, by simp [eo]⟩)

/-! ### union-find -/

/-- slot in use -/
def Slot (t : Tab) (i : Nat) : Prop := i < t.sz ∧ key (t.v i) ≠ 0

/-- invariant of the parent array; `k` bounds the number of classes -/
structure UInv (t : Tab) (r : Nat → Int) (k : Nat) : Prop where
  valid : ∀ i, Slot t i → 0 ≤ r i → Slot t (r i).toNat
  height : ∃ h : Nat → Nat, (∀ i, Slot t i → 0 ≤ r i → h (r i).toNat < h i) ∧ ∀ i, Slot t i → h i + k < t.sz
  roots : ∃ l : List Nat, l.length = k ∧ ∀ i, Slot t i → r i < 0 → i ∈ l

/-- `j` is the root of `i` -/
def Root (r : Nat → Int) (i j : Nat) : Prop := ∃ n, find r n i = some j

theorem find_mono {r : Nat → Int} : ∀ {n i j}, find r n i = some j → find r (n + 1) i = some j := by
  intro n
  induction n with
  | zero => intro i j h; simp [find] at h
  | succ n ih =>
    intro i j h
    unfold find at h ⊢
    split
    · next h1 => rw [if_pos h1] at h; exact h
    · next h1 => rw [if_neg h1] at h; exact ih h

theorem find_le {r : Nat → Int} {n m i j : Nat} (hnm : n ≤ m) (h : find r n i = some j) : find r m i = some j := by
  induction hnm with
  | refl => exact h
  | step _ ih => exact find_mono ih

theorem Root.det {r : Nat → Int} {i j j' : Nat} (h : Root r i j) (h' : Root r i j') : j = j' := by
  obtain ⟨n, h⟩ := h
  obtain ⟨m, h'⟩ := h'
  have h1 := find_le (show n ≤ max n m by omega) h
  have h2 := find_le (show m ≤ max n m by omega) h'
  rw [h1] at h2
  simpa using h2

theorem root_neg {r : Nat → Int} {i : Nat} (h : r i < 0) : Root r i i := ⟨1, by simp [find, h]⟩

theorem root_step {r : Nat → Int} {i j : Nat} (h : 0 ≤ r i) (h' : Root r (r i).toNat j) : Root r i j := by
  obtain ⟨n, h'⟩ := h'
  exact ⟨n + 1, by unfold find; rw [if_neg (by omega)]; exact h'⟩

theorem root_inv {r : Nat → Int} {i j : Nat} (h : Root r i j) : (r i < 0 ∧ i = j) ∨ (0 ≤ r i ∧ Root r (r i).toNat j) := by
  obtain ⟨n, h⟩ := h
  cases n with
  | zero => simp [find] at h
  | succ n =>
    unfold find at h
    split at h
    · next h1 => exact .inl ⟨h1, by simpa using h⟩
    · next h1 => exact .inr ⟨by omega, n, h⟩

/-- every slot has a root, found within the fuel -/
theorem UInv.total {t : Tab} {r : Nat → Int} {k : Nat} (hU : UInv t r k) {i : Nat} (hi : Slot t i) :
    ∃ j, find r t.sz i = some j ∧ Slot t j ∧ r j < 0 := by
  obtain ⟨h, h1, h2⟩ := hU.height
  have : ∀ n i, Slot t i → h i < n → ∃ j, find r n i = some j ∧ Slot t j ∧ r j < 0 := by
    intro n
    induction n with
    | zero => intro i _ h; omega
    | succ n ih =>
      intro i hi hn
      unfold find
      by_cases hr : r i < 0
      · rw [if_pos hr]; exact ⟨i, rfl, hi, hr⟩
      · rw [if_neg hr]
        have := h1 i hi (by omega)
        exact ih _ (hU.valid i hi (by omega)) (by omega)
  exact this t.sz i hi (by have := h2 i hi; omega)

theorem UInv.root {t : Tab} {r : Nat → Int} {k : Nat} (hU : UInv t r k) {i : Nat} (hi : Slot t i) :
    ∃ j, Root r i j ∧ Slot t j ∧ r j < 0 := by
  obtain ⟨j, h, h1, h2⟩ := hU.total hi
  exact ⟨j, ⟨_, h⟩, h1, h2⟩

/-- path compression changes no root -/
theorem compress_spec {t : Tab} {r : Nat → Int} {k : Nat} (hU : UInv t r k) {ix i : Nat} (hx : Slot t ix) (hi : Slot t i)
    (hr : Root r ix i) (hneg : r i < 0) : UInv t (compress r ix i) k ∧ (∀ a, Slot t a → ∀ b, Root (compress r ix i) a b ↔ Root r a b) ∧
      (∀ a, r a < 0 ↔ compress r ix i a < 0) := by
  unfold compress
  by_cases hne : i = ix
  · simp only [hne, ne_eq, not_true_eq_false, if_false]
    exact ⟨hU, fun _ _ _ => trivial, fun _ => trivial⟩
  · simp only [ne_eq, hne, not_false_eq_true, if_true]
    have hnn : 0 ≤ r ix := by
      rcases root_inv hr with h | h
      · exact (hne h.2.symm).elim
      · exact h.1
    obtain ⟨h, h1, h2⟩ := hU.height
    have hlt : ∀ n a, h a < n → Slot t a → ∀ b, Root r a b → 0 ≤ r a → h b < h a := by
      intro n
      induction n with
      | zero => intro a h; omega
      | succ n ih =>
        intro a han ha b hb h0
        rcases root_inv hb with h3 | ⟨_, h3⟩
        · omega
        · have h4 := h1 a ha h0
          have hv := hU.valid a ha h0
          rcases root_inv h3 with ⟨h5, h6⟩ | ⟨h5, h6⟩
          · rw [← h6]; exact h4
          · have := ih _ (by omega) hv b h3 h5
            omega
    have hsg : ∀ a, r a < 0 ↔ setr r ix (i : Int) a < 0 := by
      intro a
      unfold setr
      split
      · next e => subst e; constructor <;> intro <;> omega
      · rfl
    have hU' : UInv t (setr r ix i) k := by
      refine ⟨fun a ha h0 => ?_, ⟨h, fun a ha h0 => ?_, h2⟩, ?_⟩
      · unfold setr at h0 ⊢
        split
        · simpa using hi
        · next hc => rw [if_neg hc] at h0; exact hU.valid a ha h0
      · unfold setr at h0 ⊢
        split
        · next e => subst e; simpa using hlt (h a + 1) a (by omega) ha i hr hnn
        · next hc => rw [if_neg hc] at h0; exact h1 a ha h0
      · obtain ⟨l, hl, hl2⟩ := hU.roots
        exact ⟨l, hl, fun a ha h0 => hl2 a ha ((hsg a).2 h0)⟩
    refine ⟨hU', ?_, hsg⟩
    have fwd : ∀ n a, h a < n → Slot t a → ∀ b, Root r a b → Root (setr r ix i) a b := by
      intro n
      induction n with
      | zero => intro a h; omega
      | succ n ih =>
        intro a han ha b hb
        by_cases hax : a = ix
        · subst hax
          have : b = i := hb.det hr
          subst this
          have e : setr r a (b : Int) a = b := by unfold setr; rw [if_pos rfl]
          refine root_step (by rw [e]; omega) ?_
          rw [e]
          exact root_neg (by rw [← hsg]; simpa using hneg)
        · have e : setr r ix (i : Int) a = r a := by unfold setr; rw [if_neg hax]
          rcases root_inv hb with ⟨h3, h4⟩ | ⟨h3, h4⟩
          · subst h4; exact root_neg (by rw [e]; exact h3)
          · have := h1 a ha h3
            refine root_step (by rw [e]; exact h3) ?_
            rw [e]
            exact ih _ (by omega) (hU.valid a ha h3) b h4
    intro a ha b
    constructor
    · intro hb
      obtain ⟨c, hc, _⟩ := hU.root ha
      have := fwd _ a (Nat.lt_succ_self _) ha c hc
      rw [hb.det this]; exact hc
    · exact fwd _ a (Nat.lt_succ_self _) ha b

/-- joining two classes -/
theorem union_spec {t : Tab} {r : Nat → Int} {k : Nat} (hU : UInv t r k) {i j : Nat} (hi : Slot t i) (hj : Slot t j) (hij : i ≠ j)
    (ri : r i < 0) (rj : r j < 0) : ∃ k', k = k' + 1 ∧ UInv t (setr (setr r i (r i + r j)) j i) k' ∧
      ∀ a, Slot t a → ∀ b c, Root r a c → (Root (setr (setr r i (r i + r j)) j i) a b ↔ b = if c = j then i else c) := by
  obtain ⟨h, h1, h2⟩ := hU.height
  obtain ⟨l, hl, hl2⟩ := hU.roots
  have hjl := hl2 j hj rj
  have hlen := List.length_erase_of_mem hjl
  have hpos : 0 < l.length := List.length_pos_of_mem hjl
  have ej : setr (setr r i (r i + r j)) j (i : Int) j = i := by unfold setr; rw [if_pos rfl]
  have ei : setr (setr r i (r i + r j)) j (i : Int) i = r i + r j := by unfold setr; rw [if_neg hij, if_pos rfl]
  have eo : ∀ a, a ≠ i → a ≠ j → setr (setr r i (r i + r j)) j (i : Int) a = r a := by
    intro a ha hb; unfold setr; rw [if_neg hb, if_neg ha]
  refine ⟨k - 1, by omega, ?_, ?_⟩
  · refine ⟨fun a ha h0 => ?_, ⟨fun a => if a = i then 0 else h a + 1, fun a ha h0 => ?_, fun a ha => ?_⟩, ⟨l.erase j, by omega, ?_⟩⟩
    · by_cases haj : a = j
      · subst haj; rw [ej]; simpa using hi
      · by_cases hai : a = i
        · subst hai; rw [ei] at h0; omega
        · rw [eo a hai haj] at h0 ⊢; exact hU.valid a ha h0
    · by_cases haj : a = j
      · subst haj
        rw [ej]
        simp only [Int.toNat_natCast, if_true, if_neg (Ne.symm hij)]
        omega
      · by_cases hai : a = i
        · subst hai; rw [ei] at h0; omega
        · rw [eo a hai haj] at h0 ⊢
          have := h1 a ha h0
          simp only [if_neg hai]
          split <;> omega
    · have := h2 a ha
      simp only
      split <;> omega
    · intro a ha h0
      by_cases haj : a = j
      · subst haj; rw [ej] at h0; omega
      · refine (List.mem_erase_of_ne haj).2 ?_
        by_cases hai : a = i
        · subst hai; exact hl2 a ha ri
        · rw [eo a hai haj] at h0; exact hl2 a ha h0
  · have main : ∀ n a, h a < n → Slot t a → ∀ c, Root r a c → Root (setr (setr r i (r i + r j)) j i) a (if c = j then i else c) := by
      intro n
      induction n with
      | zero => intro a h; omega
      | succ n ih =>
        intro a han ha c hc
        have ri' : Root (setr (setr r i (r i + r j)) j i) i i := root_neg (by rw [ei]; omega)
        rcases root_inv hc with ⟨h3, h4⟩ | ⟨h3, h4⟩
        · subst h4
          by_cases haj : a = j
          · rw [if_pos haj]
            subst haj
            refine root_step (by rw [ej]; omega) ?_
            rw [ej]
            simpa using ri'
          · rw [if_neg haj]
            by_cases hai : a = i
            · subst hai; exact ri'
            · exact root_neg (by rw [eo a hai haj]; exact h3)
        · have haj : a ≠ j := by rintro rfl; omega
          have hai : a ≠ i := by rintro rfl; omega
          have := h1 a ha h3
          refine root_step (by rw [eo a hai haj]; exact h3) ?_
          rw [eo a hai haj]
          exact ih _ (by omega) (hU.valid a ha h3) c h4
    intro a ha b c hc
    have := main _ a (Nat.lt_succ_self _) ha c hc
    constructor
    · intro hb; exact hb.det this
    · rintro rfl; exact this

/-- `x` occupies slot `i` -/
def Loc (t : Tab) (x i : Nat) : Prop := i < t.sz ∧ key (t.v i) = x

theorem loc_of_live {t : Tab} {x : Nat} (hx : Addr x) (h : Live t x) : ∃ i, Loc t x i := by
  obtain ⟨m, i, hi, e⟩ := h
  exact ⟨i, hi, by rw [e, key_add hx]⟩

theorem Loc.slot {t : Tab} {x i : Nat} (hx : Addr x) (h : Loc t x i) : Slot t i := ⟨h.1, by rw [h.2]; exact hx.1⟩

theorem Loc.det {t : Tab} {x i j : Nat} (hI : Inv t) (hx : Addr x) (h : Loc t x i) (h' : Loc t x j) : i = j :=
  hI.idx.inj i h.1 j h'.1 (by rw [h.2, h'.2]) (by rw [h.2]; exact hx.1)

theorem locate_spec {t : Tab} {x i : Nat} (hI : Inv t) (hx : Addr x) (h : Loc t x i) : locate t x = some i := by
  unfold locate
  simp only [Option.bind_eq_bind]
  rcases probe_spec hI.idx hI.room hx.1 with ⟨j, hj, hk, e⟩ | ⟨hno, _⟩
  · rw [e, h.det hI hx ⟨hj, hk⟩]; simp
  · exact (hno i h.1 h.2).elim

/-- `x` and `y` are in one class -/
def E (t : Tab) (r : Nat → Int) (x y : Nat) : Prop :=
  Addr x ∧ Addr y ∧ ∃ i j c, Loc t x i ∧ Loc t y j ∧ Root r i c ∧ Root r j c

theorem E.symm {t : Tab} {r : Nat → Int} {x y : Nat} (h : E t r x y) : E t r y x := by
  obtain ⟨h1, h2, i, j, c, h3, h4, h5, h6⟩ := h
  exact ⟨h2, h1, j, i, c, h4, h3, h6, h5⟩

theorem E.trans {t : Tab} {r : Nat → Int} (hI : Inv t) {x y z : Nat} (h : E t r x y) (h' : E t r y z) : E t r x z := by
  obtain ⟨h1, h2, i, j, c, h3, h4, h5, h6⟩ := h
  obtain ⟨h1', h2', i', j', c', h3', h4', h5', h6'⟩ := h'
  have := h4.det hI h2 h3'
  subst this
  have := h6.det h5'
  subst this
  exact ⟨h1, h2', i, j', c, h3, h4', h5, h6'⟩

theorem E.refl {t : Tab} {r : Nat → Int} {k : Nat} (hU : UInv t r k) {x : Nat} (hx : Addr x) (h : Live t x) : E t r x x := by
  obtain ⟨i, hi⟩ := loc_of_live hx h
  obtain ⟨c, hc, _⟩ := hU.root (hi.slot hx)
  exact ⟨hx, hx, i, i, c, hi, hi, hc, hc⟩

theorem ufind_spec {t : Tab} {r : Nat → Int} {k : Nat} (hI : Inv t) (hU : UInv t r k) {x y : Nat} (hx : Addr x) (hy : Addr y)
    (lx : Live t x) (ly : Live t y) : ∃ b r', stabufind t r x y = some (b, r') ∧
      ((b = true ∧ UInv t r' k ∧ E t r x y ∧ ∀ a c, E t r' a c ↔ E t r a c) ∨
       (b = false ∧ (∃ k', k = k' + 1 ∧ UInv t r' k') ∧
         ∀ a c, E t r' a c ↔ (E t r a c ∨ (E t r a x ∧ E t r y c) ∨ (E t r a y ∧ E t r x c)))) := by
  obtain ⟨ix, hix⟩ := loc_of_live hx lx
  obtain ⟨iy, hiy⟩ := loc_of_live hy ly
  obtain ⟨i, ei, si, ni⟩ := hU.total (hix.slot hx)
  obtain ⟨U1, R1, S1⟩ := compress_spec hU (hix.slot hx) si ⟨_, ei⟩ ni
  obtain ⟨j, ej, sj, nj⟩ := U1.total (hiy.slot hy)
  obtain ⟨U2, R2, S2⟩ := compress_spec U1 (hiy.slot hy) sj ⟨_, ej⟩ nj
  have hR : ∀ a, Slot t a → ∀ b, Root (compress (compress r ix i) iy j) a b ↔ Root r a b :=
    fun a ha b => (R2 a ha b).trans (R1 a ha b)
  have hE : ∀ a c, E t (compress (compress r ix i) iy j) a c ↔ E t r a c := by
    intro a c
    constructor
    · rintro ⟨h1, h2, i', j', d, h3, h4, h5, h6⟩
      exact ⟨h1, h2, i', j', d, h3, h4, (hR _ (h3.slot h1) d).1 h5, (hR _ (h4.slot h2) d).1 h6⟩
    · rintro ⟨h1, h2, i', j', d, h3, h4, h5, h6⟩
      exact ⟨h1, h2, i', j', d, h3, h4, (hR _ (h3.slot h1) d).2 h5, (hR _ (h4.slot h2) d).2 h6⟩
  have rx : Root r ix i := ⟨_, ei⟩
  have ry : Root r iy j := (R1 iy (hiy.slot hy) j).1 ⟨_, ej⟩
  have ni2 : compress (compress r ix i) iy j i < 0 := (S2 i).1 ((S1 i).1 ni)
  have nj2 : compress (compress r ix i) iy j j < 0 := (S2 j).1 nj
  unfold stabufind
  simp only [locate_spec hI hx hix, locate_spec hI hy hiy, ei, ej, Option.bind_eq_bind, Option.bind_some]
  by_cases hij : i = j
  · rw [if_pos hij]
    exact ⟨true, _, rfl, .inl ⟨rfl, U2, ⟨hx, hy, ix, iy, i, hix, hiy, rx, by rw [hij]; exact ry⟩, hE⟩⟩
  · rw [if_neg hij]
    generalize compress (compress r ix i) iy j = r2 at *
    -- classes after joining roots p (kept) and q (moved)
    have join : ∀ (p q : Nat) (r3 : Nat → Int), p ≠ q →
        (∀ a, Slot t a → ∀ b c, Root r2 a c → (Root r3 a b ↔ b = if c = q then p else c)) →
        ∀ a c, E t r3 a c ↔ (E t r a c ∨ ∃ i j, Addr a ∧ Addr c ∧ Loc t a i ∧ Loc t c j ∧
          ((Root r i p ∧ Root r j q) ∨ (Root r i q ∧ Root r j p))) := by
      intro p q r3 hpq hr3 a c
      constructor
      · rintro ⟨h1, h2, i', j', d, h3, h4, h5, h6⟩
        obtain ⟨ca, hca, _⟩ := U2.root (h3.slot h1)
        obtain ⟨cb, hcb, _⟩ := U2.root (h4.slot h2)
        have ea := (hr3 _ (h3.slot h1) d ca hca).1 h5
        have eb := (hr3 _ (h4.slot h2) d cb hcb).1 h6
        have qa := (hR _ (h3.slot h1) ca).1 hca
        have qb := (hR _ (h4.slot h2) cb).1 hcb
        by_cases ha : ca = q <;> by_cases hb : cb = q
        · exact .inl ⟨h1, h2, i', j', q, h3, h4, by rw [← ha]; exact qa, by rw [← hb]; exact qb⟩
        · rw [if_pos ha] at ea; rw [if_neg hb] at eb
          exact .inr ⟨i', j', h1, h2, h3, h4, .inr ⟨by rw [← ha]; exact qa, by rw [← ea, eb]; exact qb⟩⟩
        · rw [if_neg ha] at ea; rw [if_pos hb] at eb
          exact .inr ⟨i', j', h1, h2, h3, h4, .inl ⟨by rw [← eb, ea]; exact qa, by rw [← hb]; exact qb⟩⟩
        · rw [if_neg ha] at ea; rw [if_neg hb] at eb
          exact .inl ⟨h1, h2, i', j', d, h3, h4, by rw [ea]; exact qa, by rw [eb]; exact qb⟩
      · rintro (⟨h1, h2, i', j', d, h3, h4, h5, h6⟩ | ⟨i', j', h1, h2, h3, h4, h⟩)
        · have ra := (hr3 _ (h3.slot h1) (if d = q then p else d) d ((hR _ (h3.slot h1) d).2 h5)).2 rfl
          have rb := (hr3 _ (h4.slot h2) (if d = q then p else d) d ((hR _ (h4.slot h2) d).2 h6)).2 rfl
          exact ⟨h1, h2, i', j', _, h3, h4, ra, rb⟩
        · rcases h with ⟨h5, h6⟩ | ⟨h5, h6⟩
          · have ra := (hr3 _ (h3.slot h1) p p ((hR _ (h3.slot h1) p).2 h5)).2 (by rw [if_neg hpq])
            have rb := (hr3 _ (h4.slot h2) p q ((hR _ (h4.slot h2) q).2 h6)).2 (by rw [if_pos rfl])
            exact ⟨h1, h2, i', j', p, h3, h4, ra, rb⟩
          · have ra := (hr3 _ (h3.slot h1) p q ((hR _ (h3.slot h1) q).2 h5)).2 (by rw [if_pos rfl])
            have rb := (hr3 _ (h4.slot h2) p p ((hR _ (h4.slot h2) p).2 h6)).2 (by rw [if_neg hpq])
            exact ⟨h1, h2, i', j', p, h3, h4, ra, rb⟩
    have conv : ∀ a c, (∃ i' j', Addr a ∧ Addr c ∧ Loc t a i' ∧ Loc t c j' ∧
        ((Root r i' i ∧ Root r j' j) ∨ (Root r i' j ∧ Root r j' i))) ↔ ((E t r a x ∧ E t r y c) ∨ (E t r a y ∧ E t r x c)) := by
      intro a c
      constructor
      · rintro ⟨i', j', h1, h2, h3, h4, ⟨h5, h6⟩ | ⟨h5, h6⟩⟩
        · exact .inl ⟨⟨h1, hx, i', ix, i, h3, hix, h5, rx⟩, ⟨hy, h2, iy, j', j, hiy, h4, ry, h6⟩⟩
        · exact .inr ⟨⟨h1, hy, i', iy, j, h3, hiy, h5, ry⟩, ⟨hx, h2, ix, j', i, hix, h4, rx, h6⟩⟩
      · rintro (⟨⟨h1, _, a1, a2, a3, a4, a5, a6, a7⟩, ⟨_, h2, b1, b2, b3, b4, b5, b6, b7⟩⟩ |
                ⟨⟨h1, _, a1, a2, a3, a4, a5, a6, a7⟩, ⟨_, h2, b1, b2, b3, b4, b5, b6, b7⟩⟩)
        · have := a5.det hI hx hix
          subst this
          have := b4.det hI hy hiy
          subst this
          have := a7.det rx
          subst this
          have := b6.det ry
          subst this
          exact ⟨a1, b2, h1, h2, a4, b5, .inl ⟨a6, b7⟩⟩
        · have := a5.det hI hy hiy
          subst this
          have := b4.det hI hx hix
          subst this
          have := a7.det ry
          subst this
          have := b6.det rx
          subst this
          exact ⟨a1, b2, h1, h2, a4, b5, .inr ⟨a6, b7⟩⟩
    by_cases hlt : r2 i < r2 j
    · rw [if_pos hlt]
      obtain ⟨k', hk', U3, R3⟩ := union_spec U2 si sj hij ni2 nj2
      exact ⟨false, _, rfl, .inr ⟨rfl, ⟨k', hk', U3⟩, fun a c => by rw [join i j _ hij R3 a c, conv]⟩⟩
    · rw [if_neg hlt]
      obtain ⟨k', hk', U3, R3⟩ := union_spec U2 sj si (Ne.symm hij) nj2 ni2
      refine ⟨false, _, rfl, .inr ⟨rfl, ⟨k', hk', U3⟩, fun a c => ?_⟩⟩
      rw [join j i _ (Ne.symm hij) R3 a c, ← conv]
      constructor <;>
      · rintro (h | ⟨i', j', h1, h2, h3, h4, h5⟩)
        · exact .inl h
        · exact .inr ⟨i', j', h1, h2, h3, h4, h5.symm⟩

/-! ### the slow path -/

section
variable {H : Heap F} {t : Tab}

/-- related by identity, as leaves, or by class -/
def Rel (H : Heap F) (R : Nat → Nat → Prop) (x y : Nat) : Prop := x = y ∨ Leaf H x y ∨ R x y

/-- blocks whose components are related -/
def Compat (H : Heap F) (R : Nat → Nat → Prop) (x y : Nat) : Prop :=
  ∃ ws us, Blocks H x y ws us ∧ ∀ (i : Nat) (a b : Obj), ws[i]? = some a → us[i]? = some b → Rel H R a b

/-- an equivalence that only relates blocks -/
structure Nice (H : Heap F) (R : Nat → Nat → Prop) : Prop where
  symm : ∀ a b, R a b → R b a
  trans : ∀ a b c, R a b → R b c → R a c
  typed : ∀ a b, R a b → a = b ∨ ((∃ ws, H a = some (.blk ws)) ∧ ∃ ws, H b = some (.blk ws))

theorem Leaf.symm {x y : Obj} (h : Leaf H x y) : Leaf H y x := by
  cases h with
  | flo h1 h2 h => exact .flo h2 h1 (by rw [Equal.feq_comm]; exact h)
  | str h1 h2 h => exact .str h2 h1 (by rw [Equal.seq_comm]; exact h)
  | bytes h1 h2 h => exact .bytes h2 h1 h.symm

theorem Leaf.trans {x y z : Obj} (h : Leaf H x y) (h' : Leaf H y z) : Leaf H x z := by
  cases h with
  | flo h1 h2 h =>
    cases h' with
    | flo h1' h2' h' =>
      rw [h2] at h1'
      simp only [Option.some.injEq, Node.flo.injEq] at h1'
      subst h1'
      rw [Equal.feq_iff] at h h'
      exact .flo h1 h2' ((Equal.feq_iff _ _).2 ⟨h.1.trans h'.1, h.2⟩)
    | str h1' | bytes h1' => rw [h2] at h1'; simp at h1'
  | str h1 h2 h =>
    cases h' with
    | str h1' h2' h' =>
      rw [h2] at h1'
      simp only [Option.some.injEq, Node.str.injEq] at h1'
      subst h1'
      rw [Equal.seq_iff] at h h'
      exact .str h1 h2' ((Equal.seq_iff _ _).2 (h.trans h'))
    | flo h1' | bytes h1' => rw [h2] at h1'; simp at h1'
  | bytes h1 h2 h =>
    cases h' with
    | bytes h1' h2' h' =>
      rw [h2] at h1'
      simp only [Option.some.injEq, Node.bytes.injEq] at h1'
      exact .bytes h1 h2' (h.trans (h1'.trans h'))
    | flo h1' | str h1' => rw [h2] at h1'; simp at h1'

theorem Leaf.not_blk_left {x y : Obj} (h : Leaf H x y) : ∀ ws, H x ≠ some (.blk ws) := by
  intro ws e
  cases h with
  | flo h | str h | bytes h => rw [h] at e; simp at e

theorem Rel.symm {R : Nat → Nat → Prop} (hN : Nice H R) {x y : Nat} (h : Rel H R x y) : Rel H R y x := by
  rcases h with h | h | h
  · exact .inl h.symm
  · exact .inr (.inl h.symm)
  · exact .inr (.inr (hN.symm _ _ h))

theorem Rel.trans {R : Nat → Nat → Prop} (hN : Nice H R) {x y z : Nat} (h : Rel H R x y) (h' : Rel H R y z) : Rel H R x z := by
  rcases h with h | h | h
  · rw [h]; exact h'
  · rcases h' with h' | h' | h'
    · rw [← h']; exact .inr (.inl h)
    · exact .inr (.inl (h.trans h'))
    · rcases hN.typed _ _ h' with e | ⟨⟨ws, e⟩, _⟩
      · rw [← e]; exact .inr (.inl h)
      · exact (h.symm.not_blk_left ws e).elim
  · rcases h' with h' | h' | h'
    · rw [← h']; exact .inr (.inr h)
    · rcases hN.typed _ _ h with e | ⟨_, ⟨ws, e⟩⟩
      · rw [e]; exact .inr (.inl h')
      · exact (h'.not_blk_left ws e).elim
    · exact .inr (.inr (hN.trans _ _ _ h h'))

theorem Blocks.symm {x y : Obj} {ws us : List Obj} (h : Blocks H x y ws us) : Blocks H y x us ws := by
  obtain ⟨w, h1, h2, h3⟩ := h
  exact ⟨w, h2, h1, h3.symm⟩

theorem Compat.symm {R : Nat → Nat → Prop} (hN : Nice H R) {x y : Nat} (h : Compat H R x y) : Compat H R y x := by
  obtain ⟨ws, us, hb, h⟩ := h
  exact ⟨us, ws, hb.symm, fun i a b ha hb => (h i b a hb ha).symm hN⟩

theorem Compat.trans {R : Nat → Nat → Prop} (hN : Nice H R) {x y z : Nat} (h : Compat H R x y) (h' : Compat H R y z) :
    Compat H R x z := by
  obtain ⟨ws, us, ⟨w, e1, e2, el⟩, h⟩ := h
  obtain ⟨us', vs, ⟨w', e1', e2', el'⟩, h'⟩ := h'
  rw [e2] at e1'
  simp only [Option.some.injEq, Node.blk.injEq, List.cons.injEq] at e1'
  obtain ⟨rfl, rfl⟩ := e1'
  refine ⟨ws, vs, ⟨w, e1, e2', el.trans el'⟩, fun i a c ha hc => ?_⟩
  have hi : i < us.length := by
    have := (List.getElem?_eq_some_iff.1 ha).1
    omega
  exact (h i a us[i] ha (List.getElem?_eq_getElem hi)).trans hN (h' i us[i] c (List.getElem?_eq_getElem hi) hc)

/-- every pair in `R` is justified by `S` -/
def Just (H : Heap F) (R S : Nat → Nat → Prop) : Prop := ∀ a b, R a b → a = b ∨ Compat H S a b

theorem eqCompat_trans {S : Nat → Nat → Prop} (hN : Nice H S) {a b c : Nat} (h : a = b ∨ Compat H S a b) (h' : b = c ∨ Compat H S b c) :
    a = c ∨ Compat H S a c := by
  rcases h with h | h
  · rw [h]; exact h'
  · rcases h' with h' | h'
    · rw [← h']; exact .inr h
    · exact .inr (h.trans hN h')

/-- closed table: heap objects given and their components are in it -/
structure Ctx (H : Heap F) (t : Tab) : Prop where
  ok : Heap.Ok H
  inv : Inv t
  closed : ∀ q, Live t q → ∀ y, Edge H y q → H y ≠ none → Live t y

/-- what a successful comparison establishes -/
structure Found (H : Heap F) (t : Tab) (r : Nat → Int) (r' : Nat → Int) : Prop where
  mono : ∀ a b, E t r a b → E t r' a b
  nice : Nice H (E t r) → Nice H (E t r')
  just : ∀ S, Nice H S → (∀ a b, E t r' a b → S a b) → Just H (E t r) S → Just H (E t r') S

theorem Found.refl {r : Nat → Int} : Found H t r r := ⟨fun _ _ h => h, fun h => h, fun _ _ _ h => h⟩

theorem Found.trans {r r' r'' : Nat → Int} (h : Found H t r r') (h' : Found H t r' r'') : Found H t r r'' :=
  ⟨fun a b hab => h'.mono a b (h.mono a b hab), fun hn => h'.nice (h.nice hn),
   fun S hS hs hj => h'.just S hS hs (h.just S hS (fun a b hab => hs a b (h'.mono a b hab)) hj)⟩

/-- main lemma about stabequal -/
theorem stabequal_spec (hC : Ctx H t) : ∀ n x y r k, UInv t r k → Nice H (E t r) → (H x ≠ none → Live t x) → (H y ≠ none → Live t y) →
    k < n → ∃ b r' k', stabequal H t n x y r = some (b, r') ∧ UInv t r' k' ∧ k' ≤ k ∧
      (b = true → Found H t r r' ∧ Rel H (E t r') x y) ∧ (Indist H x y → b = true) := by
  intro n
  induction n with
  | zero => intro x y r k _ _ _ _ h; omega
  | succ n ih =>
    intro x y r k hU hN lx ly hk
    unfold stabequal
    by_cases hxy : x = y
    · rw [if_pos hxy]
      exact ⟨true, r, k, rfl, hU, le_rfl, fun _ => ⟨.refl, .inl hxy⟩, fun _ => rfl⟩
    · rw [if_neg hxy]
      have nodiff : (¬ Leaf H x y) → (∀ ws us, ¬ Blocks H x y ws us) → ∃ b r' k', some (false, r) = some (b, r') ∧ UInv t r' k' ∧ k' ≤ k ∧
          (b = true → Found H t r r' ∧ Rel H (E t r') x y) ∧ (Indist H x y → b = true) :=
        fun h1 h2 => ⟨false, r, k, rfl, hU, le_rfl, by simp, fun h => (not_indist hxy h1 h2 h).elim⟩
      have leaf : Leaf H x y → ∃ b r' k', some (true, r) = some (b, r') ∧ UInv t r' k' ∧ k' ≤ k ∧
          (b = true → Found H t r r' ∧ Rel H (E t r') x y) ∧ (Indist H x y → b = true) :=
        fun h => ⟨true, r, k, rfl, hU, le_rfl, fun _ => ⟨.refl, .inr (.inl h)⟩, fun _ => rfl⟩
      split
      · next a b e1 e2 =>
        cases hf : feq a b with
        | true => exact leaf (.flo e1 e2 hf)
        | false =>
          refine nodiff ?_ ?_
          · rintro (⟨e1', e2', h⟩ | ⟨e1', e2', h⟩ | ⟨e1', e2', h⟩) <;> simp_all
          · rintro ws us ⟨w, e1', _⟩; simp_all
      · next a b e1 e2 =>
        cases hf : seq a b with
        | true => exact leaf (.str e1 e2 hf)
        | false =>
          refine nodiff ?_ ?_
          · rintro (⟨e1', e2', h⟩ | ⟨e1', e2', h⟩ | ⟨e1', e2', h⟩) <;> simp_all
          · rintro ws us ⟨w, e1', _⟩; simp_all
      · next a b e1 e2 =>
        by_cases hf : a = b
        · simp only [hf, decide_true]; exact leaf (.bytes e1 e2 hf)
        · simp only [hf, decide_false]
          refine nodiff ?_ ?_
          · rintro (⟨e1', e2', h⟩ | ⟨e1', e2', h⟩ | ⟨e1', e2', h⟩) <;> simp_all
          · rintro ws us ⟨w, e1', _⟩; simp_all
      · next w ws u us e1 e2 =>
        by_cases hc : ws.length = us.length ∧ w = u
        · rw [if_pos hc]
          have hb : Blocks H x y ws us := ⟨w, e1, by rw [hc.2]; exact e2, hc.1⟩
          have ax : Addr x := hC.ok.addr x (by simp [e1])
          have ay : Addr y := hC.ok.addr y (by simp [e2])
          have Lx := lx (by simp [e1])
          have Ly := ly (by simp [e2])
          obtain ⟨same, r1, eu, hu⟩ := ufind_spec hC.inv hU ax ay Lx Ly
          rw [eu]
          simp only [Option.bind_eq_bind, Option.bind_some]
          rcases hu with ⟨rfl, U1, hE, hiff⟩ | ⟨rfl, ⟨k1, hk1, U1⟩, hiff⟩
          · simp only [if_true]
            refine ⟨true, r1, k, rfl, U1, le_rfl, fun _ => ⟨⟨fun a b h => (hiff a b).2 h, fun h => ?_, fun S _ _ hj a b h => hj a b ((hiff a b).1 h)⟩,
              .inr (.inr ((hiff x y).2 hE))⟩, fun _ => rfl⟩
            exact ⟨fun a b h => h.symm, fun a b c h h' => h.trans hC.inv h', fun a b h' => hN.typed a b ((hiff a b).1 h')⟩
          · simp only [Bool.false_eq_true, if_false]
            have bx : ∀ a, E t r a x → ∃ ws, H a = some (.blk ws) := by
              intro a h
              rcases hN.typed a x h with h | h
              · rw [h]; exact ⟨_, e1⟩
              · exact h.1
            have by' : ∀ a, E t r a y → ∃ ws, H a = some (.blk ws) := by
              intro a h
              rcases hN.typed a y h with h | h
              · rw [h]; exact ⟨_, e2⟩
              · exact h.1
            have N1 : Nice H (E t r1) := by
              refine ⟨fun a b h => h.symm, fun a b c h h' => h.trans hC.inv h', fun a b h' => ?_⟩
              rcases (hiff a b).1 h' with h | ⟨h1, h2⟩ | ⟨h1, h2⟩
              · exact hN.typed a b h
              · exact .inr ⟨bx a h1, by' b h2.symm⟩
              · exact .inr ⟨by' a h1, bx b h2.symm⟩
            have Exy : E t r1 x y := (hiff x y).2 (.inr (.inl ⟨E.refl hU ax Lx, E.refl hU ay Ly⟩))
            have all : ∀ (ws us : List Obj) (r : Nat → Int) (k : Nat), ws.length = us.length → UInv t r k → Nice H (E t r) →
                (∀ w ∈ ws, H w ≠ none → Live t w) → (∀ w ∈ us, H w ≠ none → Live t w) → k < n →
                ∃ b r' k', cmpAllS (stabequal H t n) ws us r = some (b, r') ∧ UInv t r' k' ∧ k' ≤ k ∧
                  (b = true → Found H t r r' ∧ ∀ (i : Nat) (a b : Obj), ws[i]? = some a → us[i]? = some b → Rel H (E t r') a b) ∧
                  ((∀ (i : Nat) (a b : Obj), ws[i]? = some a → us[i]? = some b → Indist H a b) → b = true) := by
              intro ws
              induction ws with
              | nil =>
                intro us r k hl hU hN _ _ hk
                cases us with
                | nil => exact ⟨true, r, k, rfl, hU, le_rfl, fun _ => ⟨.refl, by simp⟩, fun _ => rfl⟩
                | cons u us => simp at hl
              | cons x ws ih2 =>
                intro us r k hl hU hN h1 h2 hk
                cases us with
                | nil => simp at hl
                | cons y us =>
                  obtain ⟨b, r', k', e, U', hk', hs, hcpl⟩ := ih x y r k hU hN (h1 x (by simp)) (h2 y (by simp)) hk
                  unfold cmpAllS
                  rw [e]
                  cases b with
                  | false =>
                    refine ⟨false, r', k', rfl, U', hk', by simp, fun h => ?_⟩
                    exact hcpl (h 0 x y rfl rfl)
                  | true =>
                    obtain ⟨hf, hrel⟩ := hs rfl
                    obtain ⟨b2, r2, k2, e2, U2, hk2, hs2, hc2⟩ := ih2 us r' k' (by simpa using hl) U' (hf.nice hN)
                      (fun w hw => h1 w (by simp [hw])) (fun w hw => h2 w (by simp [hw])) (by omega)
                    refine ⟨b2, r2, k2, e2, U2, by omega, fun hb => ?_, fun h => hc2 fun i a b ha hb => ?_⟩
                    · obtain ⟨hf2, hrel2⟩ := hs2 hb
                      refine ⟨hf.trans hf2, fun i a b ha hb => ?_⟩
                      cases i with
                      | zero =>
                        simp only [List.getElem?_cons_zero, Option.some.injEq] at ha hb
                        subst ha; subst hb
                        rcases hrel with h | h | h
                        · exact .inl h
                        · exact .inr (.inl h)
                        · exact .inr (.inr (hf2.mono _ _ h))
                      | succ i => exact hrel2 i a b (by simpa using ha) (by simpa using hb)
                    · exact h (i + 1) a b (by simpa using ha) (by simpa using hb)
            obtain ⟨b, r2, k2, ea, U2, hk2, hs2, hc2⟩ := all ws us r1 k1 hc.1 U1 N1
              (fun v hv hn => hC.closed x Lx v ⟨_, e1, List.mem_cons_of_mem _ hv⟩ hn)
              (fun v hv hn => hC.closed y Ly v ⟨_, e2, List.mem_cons_of_mem _ hv⟩ hn) (by omega)
            refine ⟨b, r2, k2, ea, U2, by omega, fun hbt => ?_, fun h => hc2 ((blocks_indist hb).1 h)⟩
            obtain ⟨hf, hrel⟩ := hs2 hbt
            have F1 : ∀ a b, E t r a b → E t r1 a b := fun a b h => (hiff a b).2 (.inl h)
            refine ⟨⟨fun a b h => hf.mono a b (F1 a b h), fun _ => hf.nice N1, fun S hS hs hj => ?_⟩, .inr (.inr (hf.mono _ _ Exy))⟩
            refine hf.just S hS hs fun a b h => ?_
            have cxy : x = y ∨ Compat H S x y := .inr ⟨ws, us, hb, fun i a b ha hb => by
              rcases hrel i a b ha hb with h | h | h
              · exact .inl h
              · exact .inr (.inl h)
              · exact .inr (.inr (hs _ _ h))⟩
            have cyx : y = x ∨ Compat H S y x := by
              rcases cxy with h | h
              · exact .inl h.symm
              · exact .inr (h.symm hS)
            rcases (hiff a b).1 h with h | ⟨h1, h2⟩ | ⟨h1, h2⟩
            · exact hj a b h
            · exact eqCompat_trans hS (hj _ _ h1) (eqCompat_trans hS cxy (hj _ _ h2))
            · exact eqCompat_trans hS (hj _ _ h1) (eqCompat_trans hS cyx (hj _ _ h2))
        · rw [if_neg hc]
          refine nodiff ?_ ?_
          · rintro (⟨e1', e2', h⟩ | ⟨e1', e2', h⟩ | ⟨e1', e2', h⟩) <;> simp_all
          · rintro ws' us' ⟨w', e1', e2', hl⟩
            rw [e1] at e1'; rw [e2] at e2'
            simp only [Option.some.injEq, Node.blk.injEq, List.cons.injEq] at e1' e2'
            exact hc ⟨by rw [e1'.2, e2'.2, hl], by rw [e1'.1, e2'.1]⟩
      · next n1 n2 n3 n4 =>
        refine nodiff ?_ ?_
        · rintro (⟨e1', e2', h⟩ | ⟨e1', e2', h⟩ | ⟨e1', e2', h⟩)
          · exact n1 _ _ e1' e2'
          · exact n2 _ _ e1' e2'
          · exact n3 _ _ e1' e2'
        · rintro ws us ⟨w, e1', e2', _⟩
          exact n4 _ _ _ _ e1' e2'

/-- a justified relation is a bisimulation -/
theorem indist_of_just {R : Nat → Nat → Prop} (hJ : Just H R R) {x y : Nat} (h : Rel H R x y) : Indist H x y := by
  intro p
  induction p generalizing x y with
  | nil =>
    simp only [DiffAt, not_not]
    rcases h with h | h | h
    · exact .inl h
    · exact .inr (.inl h)
    · rcases hJ x y h with h | ⟨ws, us, hb, _⟩
      · exact .inl h
      · exact .inr (.inr ⟨ws, us, hb⟩)
  | cons i p ih =>
    rcases h with h | h | h
    · rw [h]; exact indist_refl H y _
    · exact leaf_indist h _
    · rcases hJ x y h with h | ⟨ws, us, hb, hrel⟩
      · rw [h]; exact indist_refl H y _
      · rintro ⟨ws', us', a, b, hb', ha, hb2, hd⟩
        obtain ⟨rfl, rfl⟩ := hb.det hb'
        exact ih (hrel i a b ha hb2) hd

end

/-- C13: on every finite heap graph LibL's equal? terminates and answers true iff no access path distinguishes the objects.
`dom` lists the heap objects reachable from `x` or `y`. -/
theorem c13_equal (H : Heap F) (hok : Heap.Ok H) (x y : Obj) (dom : List Obj)
    (hdom : ∀ z, (Reach H x z ∨ Reach H y z) → H z ≠ none → z ∈ dom) :
    ∃ b, (∀ n > dom.length, isequal H n x y = some b) ∧ (b = true ↔ Indist H x y) := by
  classical
  suffices main : ∀ n > dom.length, ∃ b, isequal H n x y = some b ∧ (b = true ↔ Indist H x y) by
    obtain ⟨b, hb, hiff⟩ := main (dom.length + 1) (by omega)
    refine ⟨b, fun n hn => ?_, hiff⟩
    obtain ⟨b', hb', hiff'⟩ := main n hn
    rw [hb']
    congr 1
    rw [Bool.eq_iff_iff, hiff, hiff']
  intro n hn
  obtain ⟨res, r1, r2, r3, r4⟩ := c13_bound H 500 x y 500 (by omega) (by omega)
  unfold isequal
  simp only [r1, Option.bind_eq_bind, Option.bind_some]
  by_cases h0 : res = 0
  · simp only [ne_eq, h0, not_true_eq_false, if_false]
    let D : Nat → Prop := fun z => Reach H x z ∨ Reach H y z
    let dom' := dom.filter fun q => H q ≠ none
    have hd' : ∀ q ∈ dom', Addr q := fun q hq => hok.addr q (by simpa [dom'] using (List.mem_filter.1 hq).2)
    have hlen : dom'.length ≤ dom.length := List.length_filter_le _ _
    have hcl : ∀ a b, D a → Edge H b a → D b := by
      rintro a b (h | h) hb
      · exact .inl (Relation.ReflTransGen.head hb h)
      · exact .inr (Relation.ReflTransGen.head hb h)
    have hDd : ∀ q, D q → H q ≠ none → q ∈ dom' := fun q hq hn => List.mem_filter.2 ⟨hdom q hq hn, by simpa using hn⟩
    have hmis : ∀ t, missing dom' t < n := fun t => by
      have : missing dom' t ≤ dom'.length := List.length_filter_le _ _
      omega
    obtain ⟨t1, e1, p1⟩ := shared_spec (dom := dom') hok hcl hd' hDd n x newTab inv_new (.inl .refl) (hmis _)
    obtain ⟨t2, e2, p2⟩ := shared_spec (dom := dom') hok hcl hd' hDd n y t1 p1.inv (.inr .refl) (hmis _)
    simp only [e1, e2, Option.bind_some]
    have live0 : ∀ q, Addr q → ¬ Live newTab q := fun q hq ⟨m, h⟩ => has_new q hq m h
    have hlive : ∀ q, Live t2 q → ∀ z, Edge H z q → H z ≠ none → Live t2 z := by
      intro q hq z hz hn
      have haq : Addr q := hok.addr q (by obtain ⟨ws, e, _⟩ := hz; simp [e])
      by_cases h1 : Live t1 q
      · exact p2.keep z (hok.addr z hn) (p1.closed q haq h1 (live0 q haq) z hz hn)
      · exact p2.closed q haq hq h1 z hz hn
    have hC : Ctx H t2 := ⟨hok, p2.inv, hlive⟩
    have honly : ∀ q, Addr q → Live t2 q → q ∈ dom' := by
      intro q hq h
      rcases p2.only q hq h with h | h
      · rcases p1.only q hq h with h | h
        · exact (live0 q hq h).elim
        · exact hDd q h.1 h.2
      · exact hDd q h.1 h.2
    -- the initial parent array
    let r0 : Nat → Int := fun i => if i < t2.sz ∧ key (t2.v i) ≠ 0 then -1 else 0
    have hr0 : ∀ i, Slot t2 i → r0 i = -1 := fun i hi => by simp only [r0]; rw [if_pos ⟨hi.1, hi.2⟩]
    let l := (List.range t2.sz).filter fun i => liveW (t2.v i)
    have hlcnt : l.length < t2.sz := by
      refine lt_of_le_of_lt ?_ p2.inv.room
      refine List.Sublist.length_le (List.monotone_filter_right _ ?_)
      intro i hi
      simp only [liveW, decide_eq_true_eq] at hi ⊢
      intro h0
      rw [h0] at hi
      simp [key] at hi
    have hldom : l.length ≤ dom'.length := by
      have hnd : (l.map fun i => key (t2.v i)).Nodup := by
        refine List.Nodup.map_on ?_ (List.Nodup.filter _ List.nodup_range)
        intro a ha b hb hab
        simp only [l, List.mem_filter, List.mem_range, liveW, decide_eq_true_eq] at ha hb
        exact p2.inv.idx.inj a ha.1 b hb.1 hab ha.2
      have hsub : (l.map fun i => key (t2.v i)) ⊆ dom' := by
        intro q hq
        obtain ⟨i, hi, rfl⟩ := List.mem_map.1 hq
        simp only [l, List.mem_filter, List.mem_range, liveW, decide_eq_true_eq] at hi
        refine honly _ ⟨hi.2, by unfold key; omega⟩ ?_
        obtain ⟨m, hm⟩ := of_key (w := t2.v i) rfl
        exact ⟨m, i, hi.1, hm⟩
      have := (List.subperm_of_subset hnd hsub).length_le
      simpa using this
    have hU : UInv t2 r0 l.length := by
      refine ⟨fun i hi h => ?_, ⟨fun _ => 0, fun i hi h => ?_, fun i _ => by simp only; omega⟩, ⟨l, rfl, fun i hi _ => ?_⟩⟩
      · rw [hr0 i hi] at h; omega
      · rw [hr0 i hi] at h; omega
      · simp only [l, List.mem_filter, List.mem_range, liveW, decide_eq_true_eq]
        exact hi
    have hEid : ∀ a b, E t2 r0 a b → a = b := by
      rintro a b ⟨h1, h2, i, j, c, h3, h4, h5, h6⟩
      have hi := root_inv h5
      have hj := root_inv h6
      rw [hr0 i (h3.slot h1)] at hi
      rw [hr0 j (h4.slot h2)] at hj
      rcases hi with hi | hi
      · rcases hj with hj | hj
        · rw [← h3.2, ← h4.2, hi.2, hj.2]
        · omega
      · omega
    have hN : Nice H (E t2 r0) := ⟨fun a b h => h.symm, fun a b c h h' => h.trans p2.inv h', fun a b h => .inl (hEid a b h)⟩
    obtain ⟨b, r', k', eb, U', _, hs, hcpl⟩ := stabequal_spec hC n x y r0 l.length hU hN
      (fun h => p2.keep x (hok.addr x h) (p1.got h)) p2.got (by omega)
    refine ⟨b, by simp only [r0] at eb; rw [eb]; rfl, fun hb => ?_, hcpl⟩
    obtain ⟨hf, hrel⟩ := hs hb
    exact indist_of_just (hf.just _ (hf.nice hN) (fun _ _ h => h) fun a b h => .inl (hEid a b h)) hrel
  · simp only [ne_eq, h0, not_false_eq_true, if_true]
    refine ⟨decide (res > 0), rfl, ?_⟩
    simp only [gt_iff_lt, decide_eq_true_eq]
    constructor
    · exact r3
    · intro h
      by_contra hno
      exact r4 (by omega) h

/-- two one-element circular lists, and one of period two -/
def rings : Heap Nat := fun o => if o = 8 then some (.blk [5, 3, 8]) else if o = 16 then some (.blk [5, 3, 24]) else
  if o = 24 then some (.blk [5, 3, 16]) else none

theorem rings_ok : Heap.Ok rings := by
  constructor
  · intro o h; unfold rings at h
    split at h
    · next e => subst e; exact ⟨by decide, by decide⟩
    · split at h
      · next e => subst e; exact ⟨by decide, by decide⟩
      · split at h
        · next e => subst e; exact ⟨by decide, by decide⟩
        · simp at h
  · intro o h; unfold rings at h; split at h <;> first | simp at h | (split at h <;> first | simp at h | (split at h <;> simp at h))

example : isequal rings 4 8 16 = some true := by decide +kernel
example : ∀ z, (Reach rings 8 z ∨ Reach rings 16 z) → rings z ≠ none → z ∈ [8, 16, 24] := by
  intro z _ h; unfold rings at h; simp only [List.mem_cons, List.not_mem_nil, or_false]; by_contra hc; simp only [not_or] at hc
  simp [hc] at h

end Verif.Stab

import Mathlib.Tactic.Common
import Mathlib.Data.List.Perm.Subperm
import Mathlib.Algebra.Order.BigOperators.Group.List
import Mathlib.Algebra.Order.Ring.Nat
import Verif.Gc.Spec
/-
The invariant of the copying collector and its preservation by `toheap2`.
-/
namespace Verif.Gc

theorem inSp_iff {S : Space} {o : Nat} :
    inSp S o = true ↔ 8 * S.base ≤ o ∧ o < 8 * S.lim ∧ o % 2 = 0 := by
  simp [inSp]

theorem inSp_ptr {S : Space} {a : Nat} : inSp S (8 * a) = true ↔ S.Has a := by
  rw [inSp_iff, Space.Has]; omega

/-! ### copyLoop -/

theorem copyLoop_spec (op : Nat) : ∀ (n fop hp : Nat) (m : Mem), 0 < op → fop + 1 = op + n →
    n ≤ hp → (hp ≤ op - 1 ∨ fop ≤ hp - n) →
    copyLoop op fop hp m =
      (fun c => if hp - n ≤ c ∧ c < hp then m (c - (hp - n) + (op - 1)) else m c, hp - n, op - 1) := by
  intro n
  induction n with
  | zero =>
    intro fop hp m h0 h1 h2 h3
    rw [copyLoop, if_neg (by omega)]
    have : fop = op - 1 := by omega
    simp only [Nat.sub_zero, this, Prod.mk.injEq, and_true]
    funext c
    rw [if_neg (by omega)]
  | succ n ih =>
    intro fop hp m h0 h1 h2 h3
    rw [copyLoop, if_pos (by omega), ih (fop - 1) (hp - 1) _ h0 (by omega) (by omega) (by omega)]
    simp only [Prod.mk.injEq, and_true]
    refine ⟨?_, by omega⟩
    funext c
    by_cases hc : hp - (n + 1) ≤ c ∧ c < hp
    · rw [if_pos hc]
      by_cases hc1 : c = hp - 1
      · rw [if_neg (by omega), upd, if_pos hc1]
        congr 1; omega
      · rw [if_pos (by omega), upd, if_neg (by omega)]
        congr 1; omega
    · rw [if_neg hc, if_neg (by omega), upd, if_neg (by omega)]

/-- Memory after copying the block at `a` to just below `hp`, and updating cell
`p` and the old header. -/
def copied (m : Mem) (a p hp n : Nat) : Mem := fun c =>
  if c = p then 8 * (hp - (n + 1) + 1)
  else if c = a - 1 then 8 * (hp - (n + 1) + 1)
  else if hp - (n + 1) ≤ c ∧ c < hp then m (c - (hp - (n + 1)) + (a - 1)) else m c

theorem toheap2_copy {S1 S2 : Space} {p hp a : Nat} {m : Mem} (hp8 : m p = 8 * a)
    (hin : inSp S1 (8 * a) = true) (ha : 0 < a) (h0 : m (a - 1) ≠ 0)
    (hk : m (a - 1) % 2 = 0 → inSp S2 (m (a - 1)) = false) (hfit : len m a + 1 ≤ hp)
    (hdisj : hp ≤ a - 1 ∨ a + len m a ≤ hp - (len m a + 1)) :
    toheap2 S1 S2 p hp m = some (copied m a p hp (len m a), hp - (len m a + 1)) := by
  unfold toheap2
  simp only [hp8, hin, Bool.not_true, Bool.false_eq_true, if_false]
  rw [show 8 * a / 8 = a by omega, if_neg h0]
  by_cases hodd : m (a - 1) % 2 = 1
  · have hl : len m a = m (a - 1) / 2 := by simp [len, hodd]
    rw [if_pos hodd, ← hl, copyLoop_spec a (len m a + 1) _ _ _ ha (by omega) hfit (by omega)]
    simp only [Option.some.injEq, Prod.mk.injEq, and_true]
    funext c
    simp only [upd, copied]
  · have he : m (a - 1) % 2 = 0 := by omega
    have hl : len m a = 1 := by simp [len, he]
    rw [if_neg hodd, hk he]
    simp only [Bool.not_false, if_true, Option.some.injEq, Prod.mk.injEq, hl, and_true]
    rw [hl] at hfit hdisj
    funext c
    simp only [upd, copied, Nat.reduceAdd]
    by_cases h1 : c = p
    · simp [h1]
    rw [if_neg h1, if_neg h1]
    by_cases h2 : c = a - 1
    · simp [h2]
    rw [if_neg h2, if_neg h2]
    by_cases h3 : c = hp - 2
    · have e1 : ¬ a - 1 = hp - 1 := by omega
      have e2 : hp - 2 ≤ c ∧ c < hp := by omega
      have e3 : c - (hp - 2) + (a - 1) = a - 1 := by omega
      rw [if_pos h3, if_neg e1, if_pos e2, e3]
    rw [if_neg h3]
    by_cases h4 : c = hp - 1
    · have e2 : hp - 2 ≤ c ∧ c < hp := by omega
      have e3 : c - (hp - 2) + (a - 1) = a := by omega
      rw [if_pos h4, if_pos e2, e3]
    · have e2 : ¬ (hp - 2 ≤ c ∧ c < hp) := by omega
      rw [if_neg h4, if_neg e2]

theorem toheap2_skip {S1 S2 : Space} {p hp : Nat} {m : Mem} (h : inSp S1 (m p) = false) :
    toheap2 S1 S2 p hp m = some (m, hp) := by
  simp [toheap2, h]

theorem toheap2_fwd {S1 S2 : Space} {p hp a b : Nat} {m : Mem} (hp8 : m p = 8 * a)
    (hin : inSp S1 (8 * a) = true) (hb : m (a - 1) = 8 * b) (hb0 : 0 < b)
    (hb2 : inSp S2 (8 * b) = true) :
    toheap2 S1 S2 p hp m = some (upd m p (8 * b), hp) := by
  unfold toheap2
  simp only [hp8, hin, Bool.not_true, Bool.false_eq_true, if_false]
  rw [show 8 * a / 8 = a by omega, hb, if_neg (by omega), if_neg (by omega), hb2]
  simp

/-! ### Tilings -/

theorem Tiles.le {m : Mem} : ∀ {as : List Nat} {lo hi : Nat}, Tiles m lo hi as → lo ≤ hi := by
  intro as
  induction as with
  | nil => intro lo hi h; exact Nat.le_of_eq h
  | cons a as ih => intro lo hi h; obtain ⟨h1, _, h3⟩ := h; have := ih h3; omega

theorem Tiles.bounds {m : Mem} : ∀ {as : List Nat} {lo hi : Nat}, Tiles m lo hi as →
    ∀ a ∈ as, lo + 1 ≤ a ∧ a + len m a ≤ hi ∧ 1 ≤ len m a := by
  intro as
  induction as with
  | nil => intro lo hi _ a ha; simp at ha
  | cons x as ih =>
    intro lo hi h a ha
    obtain ⟨h1, h2, h3⟩ := h
    rcases List.mem_cons.1 ha with rfl | ha
    · have := h3.le; omega
    · have := ih h3 a ha; omega

/-- Blocks do not overlap. -/
theorem Tiles.disj {m : Mem} : ∀ {as : List Nat} {lo hi : Nat}, Tiles m lo hi as →
    ∀ a ∈ as, ∀ b ∈ as, a ≠ b → a + len m a < b ∨ b + len m b < a := by
  intro as
  induction as with
  | nil => intro lo hi _ a ha; simp at ha
  | cons x as ih =>
    intro lo hi h a ha b hb hne
    obtain ⟨h1, h2, h3⟩ := h
    rcases List.mem_cons.1 ha with e1 | ha'
    · rcases List.mem_cons.1 hb with e2 | hb'
      · exact absurd (e1.trans e2.symm) hne
      · have := h3.bounds b hb'; rw [← e1] at this; omega
    · rcases List.mem_cons.1 hb with e2 | hb'
      · have := h3.bounds a ha'; rw [← e2] at this; omega
      · exact ih h3 a ha' b hb' hne

theorem Tiles.nodup {m : Mem} : ∀ {as : List Nat} {lo hi : Nat}, Tiles m lo hi as → as.Nodup := by
  intro as
  induction as with
  | nil => intro _ _ _; simp
  | cons x as ih =>
    intro lo hi h
    obtain ⟨h1, h2, h3⟩ := h
    refine List.nodup_cons.2 ⟨fun hx => ?_, ih h3⟩
    have := h3.bounds x hx; omega

theorem Tiles.total {m : Mem} : ∀ {as : List Nat} {lo hi : Nat}, Tiles m lo hi as →
    lo + (as.map fun a => len m a + 1).sum = hi := by
  intro as
  induction as with
  | nil => intro lo hi h; simpa [Tiles] using h
  | cons x as ih =>
    intro lo hi h
    obtain ⟨h1, h2, h3⟩ := h
    have := ih h3
    simp only [List.map_cons, List.sum_cons]; omega

/-- The copies: `(a, b) ∈ cs` if block `a` was copied to `b`; the copies fill the
memory from `lo` to `hi`, the latest first. -/
def CTile (m0 : Mem) : Nat → Nat → List (Nat × Nat) → Prop
  | lo, hi, [] => lo = hi
  | lo, hi, x :: cs => x.2 = lo + 1 ∧ CTile m0 (x.2 + len m0 x.1) hi cs

theorem CTile.le {m : Mem} : ∀ {cs : List (Nat × Nat)} {lo hi : Nat}, CTile m lo hi cs → lo ≤ hi := by
  intro as
  induction as with
  | nil => intro lo hi h; exact Nat.le_of_eq h
  | cons a as ih => intro lo hi h; obtain ⟨h1, h3⟩ := h; have := ih h3; omega

theorem CTile.bounds {m : Mem} : ∀ {cs : List (Nat × Nat)} {lo hi : Nat}, CTile m lo hi cs →
    ∀ x ∈ cs, lo + 1 ≤ x.2 ∧ x.2 + len m x.1 ≤ hi := by
  intro as
  induction as with
  | nil => intro lo hi _ a ha; simp at ha
  | cons x as ih =>
    intro lo hi h a ha
    obtain ⟨h1, h3⟩ := h
    rcases List.mem_cons.1 ha with rfl | ha
    · have := h3.le; omega
    · have := ih h3 a ha; omega

theorem CTile.total {m : Mem} : ∀ {cs : List (Nat × Nat)} {lo hi : Nat}, CTile m lo hi cs →
    lo + (cs.map fun x => len m x.1 + 1).sum = hi := by
  intro as
  induction as with
  | nil => intro lo hi h; simpa [CTile] using h
  | cons x as ih =>
    intro lo hi h
    obtain ⟨h1, h3⟩ := h
    have := ih h3
    simp only [List.map_cons, List.sum_cons]; omega

/-- Every cell of the copies is a header or a word of contents. -/
theorem CTile.cell {m : Mem} : ∀ {cs : List (Nat × Nat)} {lo hi : Nat}, CTile m lo hi cs →
    ∀ c, lo ≤ c → c < hi → ∃ x ∈ cs, c = x.2 - 1 ∨ ∃ i < len m x.1, c = x.2 + i := by
  intro as
  induction as with
  | nil => intro lo hi h c h1 h2; simp only [CTile] at h; omega
  | cons x as ih =>
    intro lo hi h c hc1 hc2
    obtain ⟨h1, h3⟩ := h
    by_cases hh : c = lo
    · exact ⟨x, List.mem_cons_self .., Or.inl (by omega)⟩
    · by_cases hw : c < x.2 + len m x.1
      · exact ⟨x, List.mem_cons_self .., Or.inr ⟨c - x.2, by omega, by omega⟩⟩
      · obtain ⟨y, hy, h⟩ := ih h3 c (by omega) hc2
        exact ⟨y, List.mem_cons_of_mem _ hy, h⟩

/-- The copies do not overlap. -/
theorem CTile.inj {m : Mem} : ∀ {cs : List (Nat × Nat)} {lo hi : Nat}, CTile m lo hi cs →
    ∀ x ∈ cs, ∀ y ∈ cs, x.2 = y.2 → x = y := by
  intro as
  induction as with
  | nil => intro lo hi _ a ha; simp at ha
  | cons z as ih =>
    intro lo hi h x hx y hy hxy
    obtain ⟨h1, h3⟩ := h
    rcases List.mem_cons.1 hx with e1 | hx'
    · rcases List.mem_cons.1 hy with e2 | hy'
      · exact e1.trans e2.symm
      · have := h3.bounds y hy'; rw [← e1] at this; omega
    · rcases List.mem_cons.1 hy with e2 | hy'
      · have := h3.bounds x hx'; rw [← e2] at this; omega
      · exact ih h3 x hx' y hy' hxy

/-! ### The invariant -/

/-- The setting of one relocation. -/
structure Env where
  ext : Nat → Prop
  R : Roots
  S1 : Space
  S2 : Space
  m0 : Mem
  hp1 : Nat
  as : List Nat

structure Env.Ok (E : Env) : Prop where
  wf : Wf E.ext E.R E.S1 E.m0 E.hp1 E.as
  disj : E.S1.Disj E.S2
  apart1 : Apart E.ext E.R E.S1
  apart2 : Apart E.ext E.R E.S2
  room : E.S1.lim - E.hp1 ≤ E.S2.size

/-- The word `w` is what `v` becomes. -/
def Corr (E : Env) (cs : List (Nat × Nat)) (v w : Nat) : Prop :=
  (E.ext v ∧ w = v) ∨ ∃ a b, (a, b) ∈ cs ∧ v = 8 * a ∧ w = 8 * b

/-- Cell `c` is to hold the value for the old word `v`. -/
def Cell (E : Env) (cs : List (Nat × Nat)) (c v : Nat) : Prop :=
  (c ∈ E.R.cells ∧ v = E.m0 c) ∨ ∃ a b i, (a, b) ∈ cs ∧ i < len E.m0 a ∧ c = b + i ∧ v = E.m0 (a + i)

structure Inv (E : Env) (cs : List (Nat × Nat)) (m : Mem) (hp : Nat) (P : Nat → Prop) : Prop where
  nodup : (cs.map Prod.fst).Nodup
  keys : ∀ x ∈ cs, x.1 ∈ E.as ∧ Reach E.m0 E.R E.as x.1
  tile : CTile E.m0 hp E.S2.lim cs
  lo : E.S2.base ≤ hp
  fwd : ∀ x ∈ cs, m (x.1 - 1) = 8 * x.2
  hdr : ∀ a ∈ E.as, a ∉ cs.map Prod.fst → m (a - 1) = E.m0 (a - 1)
  pay : ∀ a ∈ E.as, ∀ i < len E.m0 a, m (a + i) = E.m0 (a + i)
  nhdr : ∀ x ∈ cs, m (x.2 - 1) = E.m0 (x.1 - 1)
  done : ∀ c v, Cell E cs c v → P c → Corr E cs v (m c)
  todo : ∀ c v, Cell E cs c v → ¬ P c → m c = v
  frame : ∀ c, ¬ E.S1.Has c → ¬ E.S2.Has c → c ∉ E.R.cells → m c = E.m0 c
  old : ∀ c, P c → ¬ (E.S2.base ≤ c ∧ c < hp)

theorem Env.Ok.block {E : Env} (ok : E.Ok) {a : Nat} (ha : a ∈ E.as) :
    E.S1.base + 1 ≤ a ∧ a + len E.m0 a ≤ E.S1.lim ∧ 1 ≤ len E.m0 a := by
  have h1 := ok.wf.tiles.bounds a ha
  have h2 := ok.wf.lo
  omega

theorem Env.Ok.inS1 {E : Env} (ok : E.Ok) {a : Nat} (ha : a ∈ E.as) : inSp E.S1 (8 * a) = true := by
  have := ok.block ha
  rw [inSp_ptr, Space.Has]
  omega

theorem Env.Ok.hdr_ne {E : Env} (ok : E.Ok) {a : Nat} (ha : a ∈ E.as) : E.m0 (a - 1) ≠ 0 := by
  by_cases h : E.m0 (a - 1) % 2 = 0
  · exact (ok.wf.native a ha h).2.1
  · omega

theorem Env.Ok.hdr_out {E : Env} (ok : E.Ok) {a : Nat} (ha : a ∈ E.as) :
    inSp E.S1 (E.m0 (a - 1)) = false ∧ inSp E.S2 (E.m0 (a - 1)) = false := by
  by_cases h : E.m0 (a - 1) % 2 = 0
  · have := (ok.wf.native a ha h).1
    exact ⟨ok.apart1.ext _ this, ok.apart2.ext _ this⟩
  · constructor <;>
    · rw [← Bool.not_eq_true, inSp_iff]; omega

theorem Inv.cell_val {E : Env} (ok : E.Ok) {cs m hp P} (I : Inv E cs m hp P) {c v : Nat}
    (hc : Cell E cs c v) : Val E.ext E.as v := by
  rcases hc with ⟨h1, rfl⟩ | ⟨a, b, i, h1, h2, rfl, rfl⟩
  · exact ok.wf.roots c h1
  · have ha := (I.keys _ h1).1
    by_cases h : E.m0 (a - 1) % 2 = 1
    · exact ok.wf.words a ha h i h2
    · have hn := ok.wf.native a ha (by omega)
      have : len E.m0 a = 1 := by simp [len, h]
      have : i = 0 := by omega
      subst this
      exact Or.inl hn.2.2

theorem Inv.cell_reach {E : Env} (ok : E.Ok) {cs m hp P} (I : Inv E cs m hp P) {c a : Nat}
    (hc : Cell E cs c (8 * a)) (ha : a ∈ E.as) : Reach E.m0 E.R E.as a := by
  rcases hc with ⟨h1, h2⟩ | ⟨a', b, i, h1, h2, rfl, h4⟩
  · exact Reach.root h1 ha h2.symm
  · have hk := I.keys _ h1
    by_cases h : E.m0 (a' - 1) % 2 = 1
    · exact Reach.step hk.2 h h2 ha h4.symm
    · have hn := ok.wf.native a' hk.1 (by omega)
      have : len E.m0 a' = 1 := by simp [len, h]
      have : i = 0 := by omega
      subst this
      have := ok.apart1.ext _ hn.2.2
      rw [← Nat.add_zero a', ← h4, ok.inS1 ha] at this
      exact absurd this (by simp)

/-- Cells to be filled are outside the old space and not in the free part of the new one. -/
theorem Inv.cell_pos {E : Env} (ok : E.Ok) {cs m hp P} (I : Inv E cs m hp P) {c v : Nat}
    (hc : Cell E cs c v) : ¬ E.S1.Has c ∧ ¬ (E.S2.base ≤ c ∧ c < hp) ∧
      (c ∈ E.R.cells ∨ E.S2.Has c) := by
  rcases hc with ⟨h1, rfl⟩ | ⟨a, b, i, h1, h2, rfl, rfl⟩
  · have h3 := ok.apart2.cells c h1
    refine ⟨ok.apart1.cells c h1, fun h => h3 ⟨h.1, ?_⟩, Or.inl h1⟩
    have := I.tile.le; omega
  · have hb := I.tile.bounds _ h1
    have hd := ok.disj
    have hl := I.lo
    simp only at hb
    simp only [Space.Has, Space.Disj] at *
    omega

theorem Corr.mono {E : Env} {cs cs' : List (Nat × Nat)} {v w : Nat} (h : Corr E cs v w)
    (hs : ∀ x ∈ cs, x ∈ cs') : Corr E cs' v w := by
  rcases h with h | ⟨a, b, h1, h2⟩
  · exact Or.inl h
  · exact Or.inr ⟨a, b, hs _ h1, h2⟩

theorem Inv.new_in {E : Env} {cs m hp P} (ok : E.Ok) (I : Inv E cs m hp P) {x : Nat × Nat}
    (hx : x ∈ cs) : inSp E.S2 (8 * x.2) = true ∧ inSp E.S1 (8 * x.2) = false ∧ 0 < x.2 := by
  have h1 := I.tile.bounds x hx
  have h2 := ok.block (I.keys x hx).1
  have h3 := I.lo
  have h4 := ok.disj
  rw [← Bool.not_eq_true, inSp_ptr, inSp_ptr]
  simp only [Space.Has, Space.Disj] at *
  omega

/-- A cell whose word is not in the old space needs no work. -/
theorem Inv.skip {E : Env} (ok : E.Ok) {cs m hp P} (I : Inv E cs m hp P) (c : Nat)
    (hin : inSp E.S1 (m c) = false) (hc : ¬ (E.S2.base ≤ c ∧ c < hp)) :
    Inv E cs m hp (fun x => P x ∨ x = c) := by
  refine { I with done := ?_, todo := ?_, old := ?_ }
  · intro c' v hcell hP
    by_cases h : P c'
    · exact I.done c' v hcell h
    · have hm := I.todo c' v hcell h
      have hcc : c' = c := by tauto
      subst hcc
      rcases I.cell_val ok hcell with hv | ⟨a, ha, hv⟩
      · exact Or.inl ⟨hv, hm⟩
      · rw [hm, hv, ok.inS1 ha] at hin; exact absurd hin (by simp)
  · intro c' v hcell hP
    exact I.todo c' v hcell (fun h => hP (Or.inl h))
  · intro c' hP
    rcases hP with h | rfl
    · exact I.old c' h
    · exact hc

/-- A cell pointing to a block already copied. -/
theorem Inv.forward {E : Env} (ok : E.Ok) {cs m hp P} (I : Inv E cs m hp P) {c a b : Nat}
    (hcell : Cell E cs c (8 * a)) (hP : ¬ P c) (hx : (a, b) ∈ cs) :
    Inv E cs (upd m c (8 * b)) hp (fun x => P x ∨ x = c) := by
  have hpos := I.cell_pos ok hcell
  have hcm := I.todo c _ hcell hP
  have hold : ∀ d, E.S1.Has d → upd m c (8 * b) d = m d := by
    intro d hd
    have : d ≠ c := fun h => hpos.1 (h ▸ hd)
    simp [upd, this]
  refine { I with fwd := ?_, hdr := ?_, pay := ?_, nhdr := ?_, done := ?_, todo := ?_, frame := ?_, old := ?_ }
  · intro x hx
    have hb := ok.block (I.keys x hx).1
    rw [hold _ (by simp only [Space.Has]; omega)]
    exact I.fwd x hx
  · intro a ha hn
    have hb := ok.block ha
    rw [hold _ (by simp only [Space.Has]; omega)]
    exact I.hdr a ha hn
  · intro a ha i hi
    have hb := ok.block ha
    rw [hold _ (by simp only [Space.Has]; omega)]
    exact I.pay a ha i hi
  · intro x hx
    rw [upd, if_neg]
    · exact I.nhdr x hx
    · -- a header cell is not a cell to fill, because of what it holds
      intro h
      have h1 := I.nhdr x hx
      have h2 := (ok.hdr_out (I.keys x hx).1).1
      rw [h, hcm] at h1
      rw [← h1, ok.inS1 (I.keys _ ‹(a, b) ∈ cs›).1] at h2
      exact absurd h2 (by simp)
  · intro c' v hc' hP'
    by_cases hcc : c' = c
    · subst hcc
      have : v = 8 * a := by rw [← I.todo c' v hc' hP, hcm]
      exact Or.inr ⟨a, b, hx, this, by simp [upd]⟩
    · rw [upd, if_neg hcc]
      exact I.done c' v hc' (by tauto)
  · intro c' v hc' hP'
    have hcc : c' ≠ c := by tauto
    rw [upd, if_neg hcc]
    exact I.todo c' v hc' (by tauto)
  · intro d h1 h2 h3
    have : d ≠ c := by
      rintro rfl
      rcases hpos.2.2 with h | h
      · exact h3 h
      · exact h2 h
    rw [upd, if_neg this]
    exact I.frame d h1 h2 h3
  · intro c' h
    rcases h with h | rfl
    · exact I.old c' h
    · exact hpos.2.1

/-- There is room for one more block. -/
theorem Inv.room {E : Env} (ok : E.Ok) {cs m hp P} (I : Inv E cs m hp P) {a : Nat}
    (ha : a ∈ E.as) (hn : a ∉ cs.map Prod.fst) : E.S2.base + (len E.m0 a + 1) ≤ hp := by
  have hsub : (a :: cs.map Prod.fst).Subperm E.as := by
    apply List.subperm_of_subset (List.nodup_cons.2 ⟨hn, I.nodup⟩)
    intro x hx
    rcases List.mem_cons.1 hx with rfl | hx
    · exact ha
    · obtain ⟨y, hy, rfl⟩ := List.mem_map.1 hx
      exact (I.keys y hy).1
  obtain ⟨l, hl1, hl2⟩ := hsub
  have h1 : ((a :: cs.map Prod.fst).map fun a => len E.m0 a + 1).sum =
      (l.map fun a => len E.m0 a + 1).sum := (hl1.map _).sum_eq.symm
  have h2 : (l.map fun a => len E.m0 a + 1).sum ≤ (E.as.map fun a => len E.m0 a + 1).sum :=
    (hl2.map _).sum_le_sum (fun _ _ => Nat.zero_le _)
  have h3 := ok.wf.tiles.total
  have h4 := I.tile.total
  have h5 : ((cs.map Prod.fst).map fun a => len E.m0 a + 1).sum =
      (cs.map fun x => len E.m0 x.1 + 1).sum := by rw [List.map_map]; rfl
  have h6 := ok.room
  simp only [List.map_cons, List.sum_cons] at h1
  simp only [Space.lim] at *
  omega

/-- A cell pointing to a block not yet copied. -/
theorem Inv.copy {E : Env} (ok : E.Ok) {cs m hp P} (I : Inv E cs m hp P) {c a : Nat}
    (hcell : Cell E cs c (8 * a)) (hP : ¬ P c) (ha : a ∈ E.as) (hn : a ∉ cs.map Prod.fst) :
    Inv E ((a, hp - (len E.m0 a + 1) + 1) :: cs) (copied m a c hp (len E.m0 a))
      (hp - (len E.m0 a + 1)) (fun x => P x ∨ x = c) := by
  have hpos := I.cell_pos ok hcell
  have hcm := I.todo c _ hcell hP
  have hroom := I.room ok ha hn
  have hba := ok.block ha
  have hle := I.tile.le
  have hd := ok.disj
  have hlo := I.lo
  -- what the new memory holds
  have hold : ∀ d, E.S1.Has d → d ≠ a - 1 → copied m a c hp (len E.m0 a) d = m d := by
    intro d hd1 hd2
    have h1 : d ≠ c := fun h => hpos.1 (h ▸ hd1)
    rw [copied, if_neg h1, if_neg hd2, if_neg]
    simp only [Space.Has, Space.Disj, Space.lim] at *
    omega
  have hfw : copied m a c hp (len E.m0 a) (a - 1) = 8 * (hp - (len E.m0 a + 1) + 1) := by
    rw [copied]
    by_cases h : a - 1 = c
    · rw [if_pos h]
    · rw [if_neg h, if_pos rfl]
  have hc' : copied m a c hp (len E.m0 a) c = 8 * (hp - (len E.m0 a + 1) + 1) := by
    rw [copied, if_pos rfl]
  have hnew : ∀ d, hp - (len E.m0 a + 1) ≤ d → d < hp →
      copied m a c hp (len E.m0 a) d = m (d - (hp - (len E.m0 a + 1)) + (a - 1)) := by
    intro d h1 h2
    rw [copied, if_neg (by intro h; apply hpos.2.1; omega), if_neg, if_pos ⟨h1, h2⟩]
    simp only [Space.Disj, Space.lim] at *
    omega
  have hrest : ∀ d, ¬ E.S1.Has d → ¬ (E.S2.base ≤ d ∧ d < hp) → d ≠ c →
      copied m a c hp (len E.m0 a) d = m d := by
    intro d h1 h2 h3
    rw [copied, if_neg h3, if_neg, if_neg]
    · omega
    · intro h; apply h1; simp only [Space.Has]; omega
  -- cells of the extended copies
  have hcells : ∀ d v, Cell E ((a, hp - (len E.m0 a + 1) + 1) :: cs) d v → Cell E cs d v ∨
      ∃ i < len E.m0 a, d = hp - (len E.m0 a + 1) + 1 + i ∧ v = E.m0 (a + i) := by
    rintro d v (h | ⟨a', b', i, h1, h2, h3, h4⟩)
    · exact Or.inl (Or.inl h)
    · rcases List.mem_cons.1 h1 with h | h
      · simp only [Prod.mk.injEq] at h
        obtain ⟨rfl, rfl⟩ := h
        exact Or.inr ⟨i, h2, h3, h4⟩
      · exact Or.inl (Or.inr ⟨a', b', i, h, h2, h3, h4⟩)
  refine ⟨?_, ?_, ?_, by omega, ?_, ?_, ?_, ?_, ?_, ?_, ?_, ?_⟩
  · exact List.nodup_cons.2 ⟨hn, I.nodup⟩
  · intro x hx
    rcases List.mem_cons.1 hx with rfl | hx
    · exact ⟨ha, I.cell_reach ok hcell ha⟩
    · exact I.keys x hx
  · refine ⟨rfl, ?_⟩
    simp only
    rw [show hp - (len E.m0 a + 1) + 1 + len E.m0 a = hp by omega]
    exact I.tile
  · -- fwd
    intro x hx
    rcases List.mem_cons.1 hx with rfl | hx'
    · exact hfw
    · have hb := ok.block (I.keys x hx').1
      have hne : x.1 ≠ a := by
        intro h; exact hn (h ▸ List.mem_map_of_mem hx')
      rw [hold _ (by simp only [Space.Has]; omega) (by omega)]
      exact I.fwd x hx'
  · -- hdr
    intro a' ha' hn'
    have hb := ok.block ha'
    simp only [List.map_cons, List.mem_cons, not_or] at hn'
    rw [hold _ (by simp only [Space.Has]; omega) (by omega)]
    exact I.hdr a' ha' hn'.2
  · -- pay
    intro a' ha' i hi
    have hb := ok.block ha'
    have hne : a' + i ≠ a - 1 := by
      by_cases h : a' = a
      · omega
      · have := ok.wf.tiles.disj a' ha' a ha h; omega
    rw [hold _ (by simp only [Space.Has]; omega) hne]
    exact I.pay a' ha' i hi
  · -- nhdr
    intro x hx
    rcases List.mem_cons.1 hx with rfl | hx
    · simp only
      rw [hnew _ (by omega) (by omega)]
      rw [show hp - (len E.m0 a + 1) + 1 - 1 - (hp - (len E.m0 a + 1)) + (a - 1) = a - 1 by omega]
      exact I.hdr a ha hn
    · have hb := I.tile.bounds x hx
      have hh := I.nhdr x hx
      rw [hrest]
      · exact hh
      · simp only [Space.Has, Space.Disj, Space.lim] at *; omega
      · omega
      · intro h
        have h2 := (ok.hdr_out (I.keys x hx).1).1
        rw [← hh, h, hcm, ok.inS1 ha] at h2
        exact absurd h2 (by simp)
  · -- done
    intro d v hcd hPd
    rcases hcells d v hcd with h | ⟨i, hi, rfl, rfl⟩
    · by_cases hdc : d = c
      · subst hdc
        have : v = 8 * a := by rw [← I.todo d v h hP, hcm]
        exact Or.inr ⟨a, _, List.mem_cons_self .., this, hc'⟩
      · have hp' := I.cell_pos ok h
        rw [hrest d hp'.1 hp'.2.1 hdc]
        exact (I.done d v h (by tauto)).mono (fun x hx => List.mem_cons_of_mem _ hx)
    · exfalso
      rcases hPd with h | h
      · exact I.old _ h (by omega)
      · exact hpos.2.1 (by omega)
  · -- todo
    intro d v hcd hPd
    rcases hcells d v hcd with h | ⟨i, hi, rfl, rfl⟩
    · have hp' := I.cell_pos ok h
      rw [hrest d hp'.1 hp'.2.1 (by tauto)]
      exact I.todo d v h (by tauto)
    · rw [hnew _ (by omega) (by omega)]
      rw [show hp - (len E.m0 a + 1) + 1 + i - (hp - (len E.m0 a + 1)) + (a - 1) = a + i by omega]
      exact I.pay a ha i hi
  · -- frame
    intro d h1 h2 h3
    rw [hrest d h1]
    · exact I.frame d h1 h2 h3
    · intro h; apply h2; simp only [Space.Has]; omega
    · rintro rfl
      rcases hpos.2.2 with h | h
      · exact h3 h
      · exact h2 h
  · intro d h
    rcases h with h | rfl
    · have := I.old d h; omega
    · have := hpos.2.1; omega

/-- One call of `toheap2`. -/
theorem Inv.step {E : Env} (ok : E.Ok) {cs m hp P} (I : Inv E cs m hp P) (c : Nat)
    (hc : inSp E.S1 (m c) = false ∧ ¬ (E.S2.base ≤ c ∧ c < hp) ∨ ∃ v, Cell E cs c v) :
    ∃ cs' m' hp', toheap2 E.S1 E.S2 c hp m = some (m', hp') ∧
      Inv E cs' m' hp' (fun x => P x ∨ x = c) ∧ hp' ≤ hp := by
  by_cases hin : inSp E.S1 (m c) = false
  · refine ⟨cs, m, hp, toheap2_skip hin, I.skip ok c hin ?_, Nat.le_refl _⟩
    rcases hc with h | ⟨v, hv⟩
    · exact h.2
    · exact (I.cell_pos ok hv).2.1
  · have hin' : inSp E.S1 (m c) = true := by simpa using hin
    rcases hc with h | ⟨v, hv⟩
    · exact absurd h.1 hin
    have hP : ¬ P c := by
      intro hP
      rcases I.done c v hv hP with ⟨h1, h2⟩ | ⟨a, b, h1, h2, h3⟩
      · rw [h2, ok.apart1.ext v h1] at hin'; exact absurd hin' (by simp)
      · rw [h3] at hin'
        have := (I.new_in ok h1).2.1
        simp only at this
        rw [this] at hin'; exact absurd hin' (by simp)
    have hm := I.todo c v hv hP
    rcases I.cell_val ok hv with h | ⟨a, ha, rfl⟩
    · rw [hm, ok.apart1.ext v h] at hin'; exact absurd hin' (by simp)
    by_cases hk : a ∈ cs.map Prod.fst
    · obtain ⟨⟨a', b⟩, hx, rfl⟩ := List.mem_map.1 hk
      have hn := I.new_in ok hx
      exact ⟨cs, _, hp, toheap2_fwd hm (ok.inS1 ha) (I.fwd _ hx) hn.2.2 hn.1,
        I.forward ok hv hP hx, Nat.le_refl _⟩
    · have hh := I.hdr a ha hk
      have hl : len m a = len E.m0 a := by simp only [len, hh]
      have hroom := I.room ok ha hk
      have hb := ok.block ha
      have hle := I.tile.le
      have hd := ok.disj
      have hcopy := toheap2_copy (S1 := E.S1) (S2 := E.S2) (hp := hp) hm (ok.inS1 ha) (by omega)
        (by rw [hh]; exact ok.hdr_ne ha) (fun _ => by rw [hh]; exact (ok.hdr_out ha).2)
        (by omega) (by simp only [Space.Disj, Space.lim] at *; omega)
      rw [hl] at hcopy
      exact ⟨_, _, _, hcopy, I.copy ok hv hP ha hk, by omega⟩

end Verif.Gc

import Verif.Lists.Lemmas
import Mathlib.Data.List.Perm.Subperm
/-
Helper lemmas for `list?` (0.sf:1184-1196): the positions visited by following cdr.
-/
namespace Verif.Lists

/-- one cdr step; non-pairs stay put -/
def step (h : Heap) : Obj → Obj
  | .ptr p => h.cdr p
  | o => o

/-- position after `k` cdr steps -/
def pos (h : Heap) (o : Obj) : Nat → Obj
  | 0 => o
  | k + 1 => step h (pos h o k)

theorem pos_add (h : Heap) (o : Obj) (a : Nat) : ∀ b, pos h o (a + b) = pos h (pos h o a) b
  | 0 => rfl
  | b + 1 => by rw [Nat.add_succ, pos, pos_add h o a b, pos]

theorem pos_shift {h : Heap} {o : Obj} {a b : Nat} (e : pos h o a = pos h o b) (m : Nat) :
    pos h o (a + m) = pos h o (b + m) := by rw [pos_add, pos_add, e]

theorem pos_cdr {h : Heap} {o : Obj} {k p : Nat} (e : pos h o k = .ptr p) : h.cdr p = pos h o (k + 1) := by
  rw [pos, e]; rfl

theorem seg_pos {h : Heap} : ∀ {k : Nat} {o : Obj}, (∀ j < k, isPair (pos h o j) = true) → ∃ ps, Seg h o ps (pos h o k) ∧ ps.length = k
  | 0, o, _ => ⟨[], rfl, rfl⟩
  | k + 1, o, hp => by
    have h0 := hp 0 (by omega)
    match o, h0 with
    | .ptr p, _ =>
      have e : ∀ j, pos h (.ptr p) (j + 1) = pos h (h.cdr p) j := by
        intro j; rw [Nat.add_comm, pos_add]; rfl
      obtain ⟨ps, h1, h2⟩ := seg_pos (h := h) (k := k) (o := h.cdr p) (fun j hj => by rw [← e]; exact hp (j + 1) (by omega))
      exact ⟨p :: ps, ⟨rfl, by rw [e]; exact h1⟩, by simp [h2]⟩

theorem pos_seg {h : Heap} : ∀ {ps : List Nat} {o t : Obj}, Seg h o ps t → pos h o ps.length = t ∧ ∀ j < ps.length, isPair (pos h o j) = true
  | [], o, t, hs => ⟨hs, by simp⟩
  | p :: ps, o, t, ⟨hp, hs⟩ => by
    subst hp
    have e : ∀ j, pos h (.ptr p) (j + 1) = pos h (h.cdr p) j := by
      intro j; rw [Nat.add_comm, pos_add]; rfl
    obtain ⟨h1, h2⟩ := pos_seg hs
    refine ⟨by rw [List.length_cons, e]; exact h1, ?_⟩
    intro j hj
    cases j with
    | zero => rfl
    | succ j => rw [e]; exact h2 j (by simpa using hj)

theorem islistLoop_gen (h : Heap) (n : Nat) (l s : Obj) (hs : isPair l = true → isPair s = true) :
    islistLoop h (n + 1) l s =
      if l = .nil then some true
      else if isPair l = false then some false
      else if step h l = s then some false
      else if step h l = .nil then some true
      else if isPair (step h l) = false then some false
      else if step h (step h l) = s then some false
      else islistLoop h n (step h (step h l)) (step h s) := by
  cases l with
  | nil => simp [islistLoop]
  | ff => simp [islistLoop, isPair]
  | imm k => simp [islistLoop, isPair]
  | ptr p =>
    have hs' := hs rfl
    cases s with
    | nil => simp [isPair] at hs'
    | ff => simp [isPair] at hs'
    | imm k => simp [isPair] at hs'
    | ptr r =>
      cases e : h.cdr p with
      | nil => simp [islistLoop, step, isPair, e]
      | ff => simp [islistLoop, step, isPair, e]
      | imm k => simp [islistLoop, step, isPair, e]
      | ptr q => simp [islistLoop, step, isPair, e]

/-- one iteration of the loop in terms of positions -/
theorem islistLoop_step (h : Heap) (o : Obj) (n i : Nat) (hp : ∀ j < 2 * i, isPair (pos h o j) = true) :
    islistLoop h (n + 1) (pos h o (2 * i)) (pos h o i) =
      if pos h o (2 * i) = .nil then some true
      else if isPair (pos h o (2 * i)) = false then some false
      else if pos h o (2 * i + 1) = pos h o i then some false
      else if pos h o (2 * i + 1) = .nil then some true
      else if isPair (pos h o (2 * i + 1)) = false then some false
      else if pos h o (2 * i + 2) = pos h o i then some false
      else islistLoop h n (pos h o (2 * (i + 1))) (pos h o (i + 1)) := by
  rw [islistLoop_gen]
  · rfl
  · intro h0
    cases i with
    | zero => exact h0
    | succ i => exact hp _ (by omega)

theorem islist_finite {h : Heap} {o : Obj} {n : Nat} (hp : ∀ j < n, isPair (pos h o j) = true)
    (hn : isPair (pos h o n) = false) : ∀ {f i : Nat}, 2 * i ≤ n → n < 2 * (i + f) →
      islistLoop h f (pos h o (2 * i)) (pos h o i) = some (decide (pos h o n = .nil)) := by
  have hne : ∀ i j, i < j → j ≤ n → pos h o j ≠ pos h o i := by
    intro i j hij hj e
    have e1 := pos_shift e (n - j)
    rw [show j + (n - j) = n by omega] at e1
    rw [e1] at hn
    rw [hp _ (by omega)] at hn
    exact absurd hn (by simp)
  intro f
  induction f with
  | zero => intro i h1 h2; omega
  | succ f ih =>
    intro i h1 h2
    rw [islistLoop_step h o f i (fun j hj => hp j (by omega))]
    by_cases c0 : n = 2 * i
    · rw [← c0]
      by_cases c1 : pos h o n = .nil
      · rw [if_pos c1]; simp [c1]
      · rw [if_neg c1, if_pos hn]; simp [c1]
    have p0 : isPair (pos h o (2 * i)) = true := hp _ (by omega)
    rw [if_neg (by intro e; rw [e] at p0; simp [isPair] at p0), if_neg (by simp [p0]), if_neg (hne _ _ (by omega) (by omega))]
    by_cases c1 : n = 2 * i + 1
    · rw [← c1]
      by_cases c2 : pos h o n = .nil
      · rw [if_pos c2]; simp [c2]
      · rw [if_neg c2, if_pos hn]; simp [c2]
    have p1 : isPair (pos h o (2 * i + 1)) = true := hp _ (by omega)
    rw [if_neg (by intro e; rw [e] at p1; simp [isPair] at p1), if_neg (by simp [p1]), if_neg (hne _ _ (by omega) (by omega))]
    exact ih (by omega) (by omega)

theorem islist_infinite {h : Heap} {o : Obj} (hp : ∀ j, isPair (pos h o j) = true) : ∀ {d i f : Nat},
    pos h o (2 * (i + d) + 1) = pos h o (i + d) → d < f → islistLoop h f (pos h o (2 * i)) (pos h o i) = some false := by
  have hnn : ∀ j, pos h o j ≠ .nil := by
    intro j e; have := hp j; rw [e] at this; simp [isPair] at this
  intro d
  induction d with
  | zero =>
    intro i f he hf
    obtain ⟨f, rfl⟩ : ∃ k, f = k + 1 := ⟨f - 1, by omega⟩
    rw [islistLoop_step h o f i (fun j _ => hp j), if_neg (hnn _), if_neg (by simp [hp]), if_pos (by simpa using he)]
  | succ d ih =>
    intro i f he hf
    obtain ⟨f, rfl⟩ : ∃ k, f = k + 1 := ⟨f - 1, by omega⟩
    rw [islistLoop_step h o f i (fun j _ => hp j), if_neg (hnn _), if_neg (by simp [hp])]
    split
    · rfl
    rw [if_neg (hnn _), if_neg (by simp [hp])]
    split
    · rfl
    exact ih (by rw [show i + 1 + d = i + (d + 1) by omega]; exact he) (by omega)

/-- pigeonhole: an infinite walk in a finite heap repeats -/
theorem pos_repeats {h : Heap} {o : Obj} {N : Nat} (hb : ∀ j, ∃ p < N, pos h o j = .ptr p) :
    ∃ a b, a < b ∧ pos h o a = pos h o b := by
  by_contra hc
  push Not at hc
  let f : Nat → Nat := fun j => (hb j).choose
  have hf : ∀ j, f j < N ∧ pos h o j = .ptr (f j) := fun j => (hb j).choose_spec
  have hinj : Function.Injective f := by
    intro a b hab
    rcases Nat.lt_trichotomy a b with hl | hl | hl
    · exact absurd (by rw [(hf a).2, (hf b).2, hab]) (hc a b hl)
    · exact hl
    · exact absurd (by rw [(hf a).2, (hf b).2, hab]) (hc b a hl)
  have hnd : ((List.range (N + 1)).map f).Nodup := List.nodup_range.map hinj
  have hsub : (List.range (N + 1)).map f ⊆ List.range N := by
    intro x hx
    obtain ⟨j, _, rfl⟩ := List.mem_map.1 hx
    exact List.mem_range.2 (hf j).1
  have := (List.subperm_of_subset hnd hsub).length_le
  simp at this

theorem periodic {h : Heap} {o : Obj} {a lam : Nat} (e : pos h o a = pos h o (a + lam)) {i : Nat} (hi : a ≤ i) :
    ∀ k, pos h o (i + k * lam) = pos h o i
  | 0 => by simp
  | k + 1 => by
    have h1 := pos_shift e (i - a + k * lam)
    rw [show a + (i - a + k * lam) = i + k * lam by omega,
      show a + lam + (i - a + k * lam) = i + (k + 1) * lam by rw [Nat.add_mul]; omega] at h1
    rw [← h1, periodic e hi k]

end Verif.Lists

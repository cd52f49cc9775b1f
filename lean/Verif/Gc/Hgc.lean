import Verif.Gc.Reloc
/-
`cxm_hgc`: one or two relocations.
-/
namespace Verif.Gc

theorem Reach.mem {m : Mem} {R : Roots} {as : List Nat} {a : Nat} (h : Reach m R as a) : a ∈ as := by
  cases h <;> assumption

theorem Wf.val {ext R S m hp as} (w : Wf ext R S m hp as) {a i : Nat} (ha : a ∈ as)
    (hi : i < len m a) : Val ext as (m (a + i)) := by
  by_cases h : m (a - 1) % 2 = 1
  · exact w.words a ha h i hi
  · have hn := w.native a ha (by omega)
    have : len m a = 1 := by simp [len, h]
    have : i = 0 := by omega
    subst this
    exact Or.inl hn.2.2

/-! ### Changing memory elsewhere -/

theorem Tiles.congr {m m' : Mem} : ∀ {as : List Nat} {lo hi : Nat}, Tiles m lo hi as →
    (∀ c, lo ≤ c → c < hi → m' c = m c) → Tiles m' lo hi as := by
  intro as
  induction as with
  | nil => intro lo hi h _; exact h
  | cons a as ih =>
    intro lo hi h hc
    obtain ⟨h1, h2, h3⟩ := h
    have hle := h3.le
    have hl : len m' a = len m a := by
      simp only [len]; rw [hc (a - 1) (by omega) (by omega)]
    refine ⟨h1, by omega, ?_⟩
    rw [hl]
    exact ih h3 (fun c h4 h5 => hc c (by omega) h5)

theorem Wf.congr {ext R S m m' hp as} (w : Wf ext R S m hp as)
    (hr : ∀ p ∈ R.cells, m' p = m p) (hs : ∀ c, S.Has c → m' c = m c) : Wf ext R S m' hp as := by
  have hlo := w.lo
  have hb := fun a ha => w.tiles.bounds a ha
  have hh : ∀ a ∈ as, m' (a - 1) = m (a - 1) := fun a ha => by
    have := hb a ha
    exact hs _ (by simp only [Space.Has]; omega)
  have hl : ∀ a ∈ as, len m' a = len m a := fun a ha => by simp only [len, hh a ha]
  have hw : ∀ a ∈ as, ∀ i < len m a, m' (a + i) = m (a + i) := fun a ha i hi => by
    have := hb a ha
    exact hs _ (by simp only [Space.Has]; omega)
  refine ⟨hlo, w.tiles.congr (fun c h1 h2 => hs c ⟨by omega, h2⟩), ?_, ?_, ?_⟩
  · intro p hp; rw [hr p hp]; exact w.roots p hp
  · intro a ha ho i hi
    rw [hl a ha] at hi
    rw [hh a ha] at ho
    rw [hw a ha i hi]
    exact w.words a ha ho i hi
  · intro a ha ho
    have h1 := hw a ha 0 (by have := hb a ha; omega)
    rw [Nat.add_zero] at h1
    rw [hh a ha] at ho ⊢
    rw [h1]
    exact w.native a ha ho

theorem Iso.congr {R : Roots} {m as m1 as1 f} {m1' : Mem} {S : Space} {ext hp}
    (I : Iso R m as m1 as1 f) (w : Wf ext R S m1 hp as1)
    (hr : ∀ p ∈ R.cells, m1' p = m1 p) (hs : ∀ c, S.Has c → m1' c = m1 c) :
    Iso R m as m1' as1 f := by
  have hlo := w.lo
  refine ⟨I.onto, I.inj, ?_, ?_, ?_⟩
  · intro p hp; rw [hr p hp]; exact I.roots p hp
  · intro a ha
    have hb := w.tiles.bounds (f a) ((I.onto _).2 ⟨a, ha, rfl⟩)
    rw [hs _ (by simp only [Space.Has]; omega)]
    exact I.headers a ha
  · intro a ha i hi
    have hb := w.tiles.bounds (f a) ((I.onto _).2 ⟨a, ha, rfl⟩)
    have hl : len m1 (f a) = len m a := by simp only [len, I.headers a ha]
    rw [hs _ (by simp only [Space.Has]; omega)]
    exact I.words a ha i hi

/-! ### Composition -/

theorem Iso.reach {R : Roots} {m as m1 as1 f} (I : Iso R m as m1 as1 f) {a : Nat}
    (h : Reach m R as a) : Reach m1 R as1 (f a) := by
  induction h with
  | @root p a h1 h2 h3 =>
    exact Reach.root h1 ((I.onto _).2 ⟨a, Reach.root h1 h2 h3, rfl⟩) ((I.roots p h1).1 a h2 h3)
  | @step a b i h1 h2 h3 h4 h5 ih =>
    have hl : len m1 (f a) = len m a := by simp only [len, I.headers a h1]
    refine Reach.step ih (by rw [I.headers a h1]; exact h2) (by omega)
      ((I.onto _).2 ⟨b, Reach.step h1 h2 h3 h4 h5, rfl⟩) ((I.words a h1 i h3).1 b h4 h5)

theorem Iso.trans {R : Roots} {m as m1 as1 f m2 as2 g} {ext S hp} (w : Wf ext R S m hp as)
    (hext0 : ∀ v, ext v → ∀ a ∈ as, v ≠ 8 * a) (hext : ∀ v, ext v → ∀ b ∈ as1, v ≠ 8 * b)
    (I : Iso R m as m1 as1 f) (J : Iso R m1 as1 m2 as2 g) :
    Iso R m as m2 as2 (fun a => g (f a)) := by
  have hsame : ∀ v w' u, Val ext as v → (∀ a ∈ as, v = 8 * a → Reach m R as a) →
      Same as f v w' → Same as1 g w' u → Same as (fun a => g (f a)) v u := by
    intro v w' u hv hre h1 h2
    constructor
    · intro a ha hva
      exact h2.1 (f a) ((I.onto _).2 ⟨a, hre a ha hva, rfl⟩) (h1.1 a ha hva)
    · intro hna
      have hw : w' = v := h1.2 hna
      rcases hv with hv | ⟨a, ha, hva⟩
      · rw [hw] at h2
        exact h2.2 (hext v hv)
      · exact absurd hva (hna a ha)
  refine ⟨?_, ?_, ?_, ?_, ?_⟩
  · intro c
    rw [J.onto]
    constructor
    · rintro ⟨b, hb, rfl⟩
      obtain ⟨a, ha, rfl⟩ := (I.onto b).1 hb.mem
      exact ⟨a, ha, rfl⟩
    · rintro ⟨a, ha, rfl⟩
      exact ⟨f a, I.reach ha, rfl⟩
  · intro a a' ha ha' h
    exact I.inj a a' ha ha' (J.inj _ _ (I.reach ha) (I.reach ha') h)
  · intro p hp
    exact hsame _ _ _ (w.roots p hp) (fun a ha h => Reach.root hp ha h) (I.roots p hp) (J.roots p hp)
  · intro a ha
    rw [J.headers _ (I.reach ha), I.headers a ha]
  · intro a ha i hi
    have hl : len m1 (f a) = len m a := by simp only [len, I.headers a ha]
    refine hsame _ _ _ (w.val ha.mem hi) ?_ (I.words a ha i hi) (J.words _ (I.reach ha) i (by omega))
    intro b hb h
    by_cases ho : m (a - 1) % 2 = 1
    · exact Reach.step ha ho hi hb h
    · exfalso
      have hn := w.native a ha.mem (by omega)
      have : len m a = 1 := by simp [len, ho]
      have : i = 0 := by omega
      subst this
      rw [Nat.add_zero] at h
      exact hext0 _ hn.2.2 b hb h

/-! ### The collector -/

/-- The state of the program between collections: either no collection has
happened yet (no heap has been allocated) or there are two disjoint spaces; the
heap in the first is well-formed; roots and foreign words are elsewhere. -/
structure Good (ext : Nat → Prop) (R : Roots) (v : Vars) (m : Mem) (hp : Nat) (as : List Nat) :
    Prop where
  wf : Wf ext R ⟨v.heap, v.hsize⟩ m hp as
  disj : Space.Disj ⟨v.heap, v.hsize⟩ ⟨v.heap2, v.hsize⟩
  apart1 : Apart ext R ⟨v.heap, v.hsize⟩
  apart2 : Apart ext R ⟨v.heap2, v.hsize⟩
  vars : (v.heap ≠ 0 ∧ v.heap2 ≠ 0) ∨ v = ⟨0, 0, 0⟩

/-- `realloc` returns memory that is not in use: the first call avoids the second
space, the second call avoids the first result, and both avoid roots and what
foreign words point to.  Memory released by the call itself may be reused. -/
structure Fresh (ext : Nat → Prop) (R : Roots) (v : Vars) (A1 A2 : Nat → Alloc) : Prop where
  nz1 : ∀ s, (A1 s).base ≠ 0
  nz2 : ∀ s, (A2 s).base ≠ 0
  apart1 : ∀ s, Apart ext R ⟨(A1 s).base, s⟩
  apart2 : ∀ s, Apart ext R ⟨(A2 s).base, s⟩
  disj1 : ∀ s, Space.Disj ⟨v.heap2, v.hsize⟩ ⟨(A1 s).base, s⟩
  disj2 : ∀ s, Space.Disj ⟨(A1 s).base, s⟩ ⟨(A2 s).base, s⟩

theorem findSize_spec : ∀ (n s needs : Nat), needs - s = n → 0 < s →
    ∃ k, findSize s needs = s * 2 ^ k ∧ needs ≤ findSize s needs := by
  intro n
  induction n using Nat.strongRecOn with
  | ind n ih =>
    intro s needs hn hs
    rw [findSize]
    by_cases h : s < needs
    · rw [if_pos ⟨h, hs⟩]
      obtain ⟨k, h1, h2⟩ := ih (needs - s * 2) (by omega) (s * 2) needs rfl (by omega)
      refine ⟨k + 1, ?_, h2⟩
      rw [h1, Nat.pow_succ, Nat.mul_assoc, Nat.mul_comm 2]
    · rw [if_neg (by omega)]
      exact ⟨0, by simp, by omega⟩

/-- One relocation. -/
theorem relocate_spec {E : Env} (ok : E.Ok) (fin : Bool) :
    ∃ m hp as' f, relocate E.R fin E.S2.lim (if fin then E.S1.lim else 0) E.hp1 E.S1 E.S2 E.m0 =
        some (m, hp, if fin then garbage E.m0 E.R E.as E.as else []) ∧
      Wf E.ext E.R E.S2 m hp as' ∧ Iso E.R E.m0 E.as m as' f ∧
      E.S2.lim - hp ≤ E.S1.lim - E.hp1 ∧
      (∀ c, ¬ E.S1.Has c → ¬ E.S2.Has c → c ∉ E.R.cells → m c = E.m0 c) := by
  obtain ⟨cs, m, hp, F, h⟩ := relocate_final ok fin (if fin then E.S1.lim else 0)
  refine ⟨m, hp, cs.map Prod.snd, rename cs, ?_, F.wf ok, F.iso ok, F.size ok, ?_⟩
  · rw [h]
    cases fin with
    | false => rfl
    | true =>
      simp only [if_true]
      rw [F.finalize ok E.as E.hp1 ok.wf.tiles (fun _ h => h)]
      rfl
  · obtain ⟨P, I, _⟩ := F.inv
    exact I.frame

theorem ext_not_ptr {ext : Nat → Prop} {R : Roots} {S : Space} {m hp as} (w : Wf ext R S m hp as)
    (ap : Apart ext R S) : ∀ v, ext v → ∀ a ∈ as, v ≠ 8 * a := by
  rintro v hv a ha rfl
  have h1 := ap.ext _ hv
  have h2 := w.tiles.bounds a ha
  have h3 := w.lo
  rw [← Bool.not_eq_true, inSp_ptr, Space.Has] at h1
  omega

theorem realloc_else {A : Alloc} {old : Space} {s c : Nat} {m : Mem} (h1 : ¬ old.Has c)
    (h2 : ¬ Space.Has ⟨A.base, s⟩ c) : realloc A old s m c = m c := by
  simp only [realloc]
  rw [if_neg]
  simp only [Space.Has, Space.lim] at *
  tauto

/-- Everything about a collection. -/
theorem hgc_spec {ext R v m hp as A1 A2} (G : Good ext R v m hp as) (fr : Fresh ext R v A1 A2)
    (needs : Nat) :
    ∃ v' m' hp' as' f, hgc R A1 A2 v hp needs m = some (v', m', hp', garbage m R as as) ∧
      Good ext R v' m' hp' as' ∧ Iso R m as m' as' f ∧ v'.heap + needs ≤ hp' ∧
      (v'.hsize = v.hsize ∨ ∃ k, v'.hsize = 131072 * 2 ^ k) ∧
      (∀ c, ¬ Space.Has ⟨v.heap, v.hsize⟩ c → ¬ Space.Has ⟨v.heap2, v.hsize⟩ c →
        ¬ Space.Has ⟨v'.heap, v'.hsize⟩ c → ¬ Space.Has ⟨v'.heap2, v'.hsize⟩ c → c ∉ R.cells →
        m' c = m c) := by
  have hlo := G.wf.lo
  have hle := G.wf.tiles.le
  simp only [Space.lim] at hlo hle
  -- the first phase
  have first : ∃ m1 hp1 as1 f live,
      (if v.heap ≠ 0 then do
        let (m, hp, fr) ← relocate R true (v.heap2 + v.hsize) (v.heap + v.hsize) hp
          ⟨v.heap, v.hsize⟩ ⟨v.heap2, v.hsize⟩ m
        some (m, hp, fr, needs + (v.heap2 + v.hsize - hp) * 2)
      else some (m, v.heap2 + v.hsize, [], needs) : Option (Mem × Nat × List (Nat × Nat) × Nat)) =
        some (m1, hp1, garbage m R as as, needs + live * 2) ∧
      live = v.heap2 + v.hsize - hp1 ∧
      Wf ext R ⟨v.heap2, v.hsize⟩ m1 hp1 as1 ∧ Iso R m as m1 as1 f ∧
      (∀ c, ¬ Space.Has ⟨v.heap, v.hsize⟩ c → ¬ Space.Has ⟨v.heap2, v.hsize⟩ c → c ∉ R.cells →
        m1 c = m c) := by
    rcases G.vars with ⟨hz, _⟩ | hz
    · rw [if_pos hz]
      obtain ⟨m1, hp1, as1, f, h1, h2, h3, h4, h5⟩ := relocate_spec
        (E := ⟨ext, R, ⟨v.heap, v.hsize⟩, ⟨v.heap2, v.hsize⟩, m, hp, as⟩)
        ⟨G.wf, G.disj, G.apart1, G.apart2, by simp only [Space.lim]; omega⟩ true
      simp only [if_true] at h1
      refine ⟨m1, hp1, as1, f, v.heap2 + v.hsize - hp1, ?_, rfl, h2, h3, h5⟩
      rw [show v.heap2 + v.hsize = (Space.mk v.heap2 v.hsize).lim from rfl,
        show v.heap + v.hsize = (Space.mk v.heap v.hsize).lim from rfl, h1]
      rfl
    · subst hz
      rw [if_neg (by simp)]
      have has : as = [] := by
        cases as with
        | nil => rfl
        | cons a as =>
          have := G.wf.tiles.bounds a (List.mem_cons_self ..)
          simp only [Space.lim] at this
          omega
      subst has
      have hhp : hp = 0 := by
        simp only [Space.lim] at hle; omega
      subst hhp
      refine ⟨m, 0, [], id, 0, by simp [garbage], rfl, G.wf, ?_, fun _ _ _ _ => rfl⟩
      refine ⟨?_, ?_, ?_, ?_, ?_⟩
      · intro b
        simp only [List.not_mem_nil, false_iff]
        rintro ⟨a, ha, _⟩
        exact absurd ha.mem (by simp)
      · intro a _ ha; exact absurd ha.mem (by simp)
      · intro p _; exact ⟨by simp, fun _ => rfl⟩
      · intro a ha; exact absurd ha.mem (by simp)
      · intro a ha; exact absurd ha.mem (by simp)
  obtain ⟨m1, hp1, as1, f, live, e1, hlive, w1, I1, fr1⟩ := first
  have hlo1 := w1.lo
  have hle1 := w1.tiles.le
  simp only [Space.lim] at hlo1 hle1
  unfold hgc
  simp only
  rw [e1]
  simp only [Option.bind_eq_bind, Option.bind_some]
  by_cases hbig : v.hsize < needs + live * 2
  · rw [if_pos hbig]
    obtain ⟨k, hk1, hk2⟩ := findSize_spec _ heapSize (needs + live * 2) rfl (by decide)
    generalize hs : findSize heapSize (needs + live * 2) = s at hk1 hk2
    have hkk : s = 131072 * 2 ^ k := hk1
    -- memory after the first realloc
    generalize hm2 : realloc (A1 s) ⟨v.heap, v.hsize⟩ s m1 = m2
    have r2 : ∀ p ∈ R.cells, m2 p = m1 p := fun p hp => by
      rw [← hm2]; exact realloc_else (G.apart1.cells p hp) ((fr.apart1 s).cells p hp)
    have s2 : ∀ c, Space.Has ⟨v.heap2, v.hsize⟩ c → m2 c = m1 c := fun c hc => by
      have d1 := G.disj
      have d2 := fr.disj1 s
      rw [← hm2]
      apply realloc_else <;>
      · simp only [Space.Has, Space.Disj, Space.lim] at *; omega
    have w2 := w1.congr r2 s2
    have I2 := I1.congr w1 r2 s2
    have fr2 : ∀ c, ¬ Space.Has ⟨v.heap, v.hsize⟩ c → ¬ Space.Has ⟨v.heap2, v.hsize⟩ c →
        ¬ Space.Has ⟨(A1 s).base, s⟩ c → c ∉ R.cells → m2 c = m c := fun c h1 h2 h3 h4 => by
      rw [← hm2, realloc_else h1 h3]; exact fr1 c h1 h2 h4
    -- the second relocation
    have second : ∃ m3 hp3 as3 g,
        (if v.heap2 ≠ 0 then do
          let (m, hp, _) ← relocate R false ((A1 s).base + s) 0 hp1 ⟨v.heap2, v.hsize⟩
            ⟨(A1 s).base, s⟩ m2
          some (m, hp)
        else some (m2, (A1 s).base + s) : Option (Mem × Nat)) = some (m3, hp3) ∧
        Wf ext R ⟨(A1 s).base, s⟩ m3 hp3 as3 ∧ Iso R m2 as1 m3 as3 g ∧
        (A1 s).base + s - hp3 ≤ live ∧
        (∀ c, ¬ Space.Has ⟨v.heap2, v.hsize⟩ c → ¬ Space.Has ⟨(A1 s).base, s⟩ c → c ∉ R.cells →
          m3 c = m2 c) := by
      rcases G.vars with ⟨_, hz⟩ | hz
      · rw [if_pos hz]
        obtain ⟨m3, hp3, as3, g, h1, h2, h3, h4, h5⟩ := relocate_spec
          (E := ⟨ext, R, ⟨v.heap2, v.hsize⟩, ⟨(A1 s).base, s⟩, m2, hp1, as1⟩)
          ⟨w2, fr.disj1 s, G.apart2, fr.apart1 s, by simp only [Space.lim]; omega⟩ false
        simp only [Bool.false_eq_true, if_false] at h1
        refine ⟨m3, hp3, as3, g, ?_, h2, h3, by simp only [Space.lim] at h4 hle1; omega, h5⟩
        rw [show (A1 s).base + s = (Space.mk (A1 s).base s).lim from rfl, h1]
        rfl
      · subst hz
        rw [if_neg (by simp)]
        have has : as1 = [] := by
          cases as1 with
          | nil => rfl
          | cons a as =>
            have := w1.tiles.bounds a (List.mem_cons_self ..)
            simp only [Space.lim] at this
            omega
        subst has
        refine ⟨m2, (A1 s).base + s, [], id, rfl, ?_, ?_, by omega, fun _ _ _ _ => rfl⟩
        · refine ⟨by simp, rfl, ?_, by simp, by simp⟩
          intro p hp
          exact w2.roots p hp
        · refine ⟨?_, ?_, ?_, ?_, ?_⟩
          · intro b
            simp only [List.not_mem_nil, false_iff]
            rintro ⟨a, ha, _⟩
            exact absurd ha.mem (by simp)
          · intro a _ ha; exact absurd ha.mem (by simp)
          · intro p _; exact ⟨by simp, fun _ => rfl⟩
          · intro a ha; exact absurd ha.mem (by simp)
          · intro a ha; exact absurd ha.mem (by simp)
    obtain ⟨m3, hp3, as3, g, e3, w3, I3, hsz, fr3⟩ := second
    have hlo3 := w3.lo
    have hle3 := w3.tiles.le
    simp only [Space.lim] at hlo3 hle3
    simp only [Option.bind_eq_bind] at e3
    rw [e3]
    simp only [Option.bind_some]
    -- memory after the second realloc
    have r4 : ∀ p ∈ R.cells, realloc (A2 s) ⟨v.heap2, v.hsize⟩ s m3 p = m3 p := fun p hp =>
      realloc_else (G.apart2.cells p hp) ((fr.apart2 s).cells p hp)
    have s4 : ∀ c, Space.Has ⟨(A1 s).base, s⟩ c →
        realloc (A2 s) ⟨v.heap2, v.hsize⟩ s m3 c = m3 c := fun c hc => by
      have d1 := fr.disj1 s
      have d2 := fr.disj2 s
      apply realloc_else <;>
      · simp only [Space.Has, Space.Disj, Space.lim] at *; omega
    have I4 := I3.congr w3 r4 s4
    refine ⟨_, _, hp3, as3, _, rfl, ⟨w3.congr r4 s4, fr.disj2 s, fr.apart1 s, fr.apart2 s,
      Or.inl ⟨fr.nz1 s, fr.nz2 s⟩⟩,
      Iso.trans G.wf (ext_not_ptr G.wf G.apart1) (ext_not_ptr w1 G.apart2) I2 I4, ?_,
      Or.inr ⟨k, hkk⟩, ?_⟩
    · simp only; omega
    · intro c h1 h2 h3 h4 h5
      simp only at h3 h4
      rw [realloc_else h2 h4, fr3 c h2 h3 h5, fr2 c h1 h2 h3 h5]
  · rw [if_neg hbig]
    refine ⟨_, _, hp1, as1, f, rfl, ⟨w1, ?_, G.apart2, G.apart1, ?_⟩, I1, ?_, Or.inl rfl, ?_⟩
    · have := G.disj
      simp only [Space.Disj] at *
      tauto
    · rcases G.vars with h | h
      · exact Or.inl ⟨h.2, h.1⟩
      · right; subst h; rfl
    · simp only; omega
    · intro c h1 h2 _ _ h5
      exact fr1 c h1 h2 h5

end Verif.Gc

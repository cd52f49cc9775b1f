import Verif.Gc.Lemmas
/-
`relocate`: the loops, the resulting isomorphism and the deallocator calls.
-/
namespace Verif.Gc

/-! ### The loops -/

theorem relocTable_append (S1 S2 : Space) : ∀ (xs ys : List Nat) (hp : Nat) (m : Mem),
    relocTable S1 S2 (xs ++ ys) hp m =
      match relocTable S1 S2 xs hp m with
      | none => none
      | some (m, hp) => relocTable S1 S2 ys hp m := by
  intro xs
  induction xs with
  | nil => intro ys hp m; rfl
  | cons x xs ih =>
    intro ys hp m
    simp only [List.cons_append, relocTable]
    cases toheap2 S1 S2 x hp m with
    | none => rfl
    | some r => exact ih ys r.2 r.1

theorem relocTables_eq (S1 S2 : Space) : ∀ (ts : List (List Nat)) (hp : Nat) (m : Mem),
    relocTables S1 S2 ts hp m = relocTable S1 S2 ts.flatten hp m := by
  intro ts
  induction ts with
  | nil => intro hp m; rfl
  | cons t ts ih =>
    intro hp m
    simp only [relocTables, List.flatten_cons, relocTable_append]
    cases relocTable S1 S2 t hp m with
    | none => rfl
    | some r => exact ih r.2 r.1

theorem relocRegs_eq (S1 S2 : Space) : ∀ (n p regp hp : Nat) (m : Mem), regp - p = n →
    relocRegs S1 S2 p regp hp m = relocTable S1 S2 (List.range' p n) hp m := by
  intro n
  induction n with
  | zero =>
    intro p regp hp m h
    rw [relocRegs, if_neg (by omega)]; rfl
  | succ n ih =>
    intro p regp hp m h
    rw [relocRegs, if_pos (by omega), List.range'_succ, relocTable]
    cases toheap2 S1 S2 p hp m with
    | none => rfl
    | some r => exact ih (p + 1) regp r.2 r.1 (by omega)

theorem table_inv {E : Env} (ok : E.Ok) : ∀ (ps : List Nat) {cs m hp P}, Inv E cs m hp P →
    (∀ p ∈ ps, p ∈ E.R.cells) →
    ∃ cs' m' hp', relocTable E.S1 E.S2 ps hp m = some (m', hp') ∧
      Inv E cs' m' hp' (fun x => P x ∨ x ∈ ps) := by
  intro ps
  induction ps with
  | nil =>
    intro cs m hp P I _
    refine ⟨cs, m, hp, rfl, ?_⟩
    have : (fun x => P x ∨ x ∈ ([] : List Nat)) = P := by funext x; simp
    rw [this]; exact I
  | cons p ps ih =>
    intro cs m hp P I hps
    obtain ⟨cs1, m1, hp1, h1, I1, _⟩ := I.step ok p
      (Or.inr ⟨E.m0 p, Or.inl ⟨hps p (List.mem_cons_self ..), rfl⟩⟩)
    obtain ⟨cs2, m2, hp2, h2, I2⟩ := ih I1 (fun q hq => hps q (List.mem_cons_of_mem _ hq))
    refine ⟨cs2, m2, hp2, ?_, ?_⟩
    · simp only [relocTable, h1, h2]
    · have : (fun x => P x ∨ x ∈ p :: ps) = (fun x => (P x ∨ x = p) ∨ x ∈ ps) := by
        funext x; simp only [List.mem_cons]; rw [or_assoc]
      rw [this]; exact I2

theorem scan_inv {E : Env} (ok : E.Ok) : ∀ (p : Nat) {cs m hp P}, Inv E cs m hp P →
    hp ≤ p → p ≤ E.S2.lim → (∀ x, p ≤ x → x < E.S2.lim → P x) →
    ∃ cs' m' hp' P', scan E.S1 E.S2 p hp m = some (m', hp') ∧ Inv E cs' m' hp' P' ∧
      (∀ x, P x → P' x) ∧ (∀ x, hp' ≤ x → x < E.S2.lim → P' x) := by
  intro p
  induction p with
  | zero =>
    intro cs m hp P I h1 h2 h3
    refine ⟨cs, m, hp, P, ?_, I, fun _ h => h, fun x _ => h3 x (by omega)⟩
    rw [scan, if_neg (by omega)]
  | succ p ih =>
    intro cs m hp P I h1 h2 h3
    by_cases hlt : hp < p + 1
    · have hc : inSp E.S1 (m p) = false ∧ ¬ (E.S2.base ≤ p ∧ p < hp) ∨ ∃ v, Cell E cs p v := by
        obtain ⟨x, hx, h | ⟨i, hi, h⟩⟩ := I.tile.cell p (by omega) (by omega)
        · left
          refine ⟨?_, by omega⟩
          rw [h, I.nhdr x hx]
          exact (ok.hdr_out (I.keys x hx).1).1
        · exact Or.inr ⟨_, Or.inr ⟨x.1, x.2, i, hx, hi, h, rfl⟩⟩
      obtain ⟨cs1, m1, hp1, t1, I1, hle⟩ := I.step ok p hc
      obtain ⟨cs2, m2, hp2, P2, t2, I2, i2, j2⟩ := ih I1 (by omega) (by omega) (by
        intro x hx1 hx2
        by_cases hxp : x = p
        · exact Or.inr hxp
        · exact Or.inl (h3 x (by omega) hx2))
      refine ⟨cs2, m2, hp2, P2, ?_, I2, fun x hx => i2 x (Or.inl hx), j2⟩
      rw [scan, if_pos hlt, Nat.add_sub_cancel, t1]
      exact t2
    · refine ⟨cs, m, hp, P, ?_, I, fun _ h => h, fun x _ => h3 x (by omega)⟩
      rw [scan, if_neg hlt]

theorem init_inv {E : Env} : Inv E [] E.m0 E.S2.lim (fun _ => False) where
  nodup := by simp
  keys := by simp
  tile := rfl
  lo := by simp [Space.lim]
  fwd := by simp
  hdr := fun _ _ _ => rfl
  pay := fun _ _ _ _ => rfl
  nhdr := by simp
  done := fun _ _ _ h => h.elim
  todo := by
    rintro c v (⟨_, rfl⟩ | ⟨a, b, i, h, _⟩) _
    · rfl
    · simp at h
  frame := fun _ _ _ _ => rfl
  old := fun _ h => h.elim

/-- The state after the copying phase of `relocate`. -/
structure Final (E : Env) (cs : List (Nat × Nat)) (m : Mem) (hp : Nat) : Prop where
  inv : ∃ P, Inv E cs m hp P ∧ (∀ p ∈ E.R.cells, P p) ∧ (∀ x, hp ≤ x → x < E.S2.lim → P x)

theorem relocate_final {E : Env} (ok : E.Ok) (fin : Bool) (he1 : Nat) :
    ∃ cs m hp, Final E cs m hp ∧
      relocate E.R fin E.S2.lim he1 E.hp1 E.S1 E.S2 E.m0 =
        if fin then (finalize E.S2 m E.hp1 he1).map fun l => (m, hp, l) else some (m, hp, []) := by
  obtain ⟨cs1, m1, hp1, t1, I1⟩ := table_inv ok (List.range' E.R.regs (E.R.regp - E.R.regs))
    init_inv (by intro p hp; exact List.mem_append_left _ hp)
  obtain ⟨cs2, m2, hp2, t2, I2⟩ := table_inv ok E.R.globs.flatten I1
    (by intro p hp; exact List.mem_append_right _ hp)
  have hle : hp2 ≤ E.S2.lim := I2.tile.le
  obtain ⟨cs3, m3, hp3, P3, t3, I3, i3, j3⟩ := scan_inv ok E.S2.lim I2 hle (Nat.le_refl _)
    (by intro x h1 h2; omega)
  refine ⟨cs3, m3, hp3, ⟨P3, I3, ?_, j3⟩, ?_⟩
  · intro p hp
    rcases List.mem_append.1 hp with h | h
    · exact i3 p (Or.inl (Or.inr h))
    · exact i3 p (Or.inr h)
  · unfold relocate
    rw [relocRegs_eq _ _ _ _ _ _ _ rfl, t1]
    simp only [Option.bind_eq_bind, Option.bind_some]
    rw [relocTables_eq, t2]
    simp only [Option.bind_some]
    rw [t3]
    simp only [Option.bind_some]
    cases fin with
    | false => rfl
    | true =>
      simp only [if_true]
      cases finalize E.S2 m3 E.hp1 he1 <;> rfl

/-! ### What the final state gives -/

/-- All cells hold the new values. -/
theorem Final.cells {E : Env} (ok : E.Ok) {cs m hp} (F : Final E cs m hp) {c v : Nat}
    (hc : Cell E cs c v) : Corr E cs v (m c) := by
  obtain ⟨P, I, h1, h2⟩ := F.inv
  apply I.done c v hc
  rcases hc with ⟨h, _⟩ | ⟨a, b, i, h3, h4, rfl, _⟩
  · exact h1 c h
  · have := I.tile.bounds _ h3
    simp only at this
    exact h2 _ (by omega) (by omega)

theorem Final.unique {E : Env} {cs m hp} (F : Final E cs m hp) {a b b' : Nat}
    (h1 : (a, b) ∈ cs) (h2 : (a, b') ∈ cs) : b = b' := by
  obtain ⟨P, I, _⟩ := F.inv
  have e1 := I.fwd _ h1
  have e2 := I.fwd _ h2
  simp only at e1 e2
  omega

/-- Pointer values of old blocks are not foreign. -/
theorem Env.Ok.not_ext {E : Env} (ok : E.Ok) {a : Nat} (ha : a ∈ E.as) : ¬ E.ext (8 * a) := by
  intro h
  have := ok.apart1.ext _ h
  rw [ok.inS1 ha] at this
  exact absurd this (by simp)

/-- All reachable blocks have been copied. -/
theorem Final.all {E : Env} (ok : E.Ok) {cs m hp} (F : Final E cs m hp) {a : Nat}
    (ha : Reach E.m0 E.R E.as a) : ∃ b, (a, b) ∈ cs := by
  have key : ∀ {c a}, Cell E cs c (8 * a) → a ∈ E.as → ∃ b, (a, b) ∈ cs := by
    intro c a hc ha
    rcases F.cells ok hc with ⟨h, _⟩ | ⟨a', b, h1, h2, _⟩
    · exact absurd h (ok.not_ext ha)
    · have : a' = a := by omega
      subst this
      exact ⟨b, h1⟩
  induction ha with
  | @root p a h1 h2 h3 => exact key (Or.inl ⟨h1, h3.symm⟩) h2
  | @step a b i h1 h2 h3 h4 h5 ih =>
    obtain ⟨b', hb'⟩ := ih
    exact key (c := b' + i) (Or.inr ⟨a, b', i, hb', h3, rfl, h5.symm⟩) h4

open Classical in
/-- The renaming of blocks. -/
noncomputable def rename (cs : List (Nat × Nat)) (a : Nat) : Nat :=
  if h : ∃ b, (a, b) ∈ cs then h.choose else 0

theorem Final.rename {E : Env} {cs m hp} (F : Final E cs m hp) {a b : Nat} (h : (a, b) ∈ cs) :
    rename cs a = b := by
  have hex : ∃ b, (a, b) ∈ cs := ⟨b, h⟩
  rw [Gc.rename, dif_pos hex]
  exact F.unique hex.choose_spec h

theorem Final.same {E : Env} (ok : E.Ok) {cs m hp} (F : Final E cs m hp) {c v : Nat}
    (hc : Cell E cs c v) : Same E.as (Gc.rename cs) v (m c) := by
  rcases F.cells ok hc with ⟨h1, h2⟩ | ⟨a, b, h1, h2, h3⟩
  · constructor
    · rintro a ha rfl; exact absurd h1 (ok.not_ext ha)
    · intro _; exact h2
  · obtain ⟨P, I, _⟩ := F.inv
    constructor
    · rintro a' ha' rfl
      have : a' = a := by omega
      subst this
      rw [h3, F.rename h1]
    · intro h
      exact absurd h2 (h a (I.keys _ h1).1)

theorem Final.newTiles {E : Env} {m : Mem} : ∀ {cs : List (Nat × Nat)} {lo hi : Nat},
    CTile E.m0 lo hi cs → (∀ x ∈ cs, m (x.2 - 1) = E.m0 (x.1 - 1) ∧ 1 ≤ len E.m0 x.1) →
    Tiles m lo hi (cs.map Prod.snd) := by
  intro cs
  induction cs with
  | nil => intro lo hi h _; exact h
  | cons x cs ih =>
    intro lo hi h hx
    obtain ⟨h1, h2⟩ := h
    have h3 := hx x (List.mem_cons_self ..)
    have hl : len m x.2 = len E.m0 x.1 := by simp only [len, h3.1]
    refine ⟨h1, by omega, ?_⟩
    rw [hl]
    exact ih h2 (fun y hy => hx y (List.mem_cons_of_mem _ hy))

theorem Final.tiles {E : Env} (ok : E.Ok) {cs m hp} (F : Final E cs m hp) :
    Tiles m hp E.S2.lim (cs.map Prod.snd) := by
  obtain ⟨P, I, _⟩ := F.inv
  exact Final.newTiles I.tile (fun x hx => ⟨I.nhdr x hx, (ok.block (I.keys x hx).1).2.2⟩)

theorem Corr.val {E : Env} {cs : List (Nat × Nat)} {v w : Nat} (h : Corr E cs v w) :
    Val E.ext (cs.map Prod.snd) w := by
  rcases h with ⟨h1, h2⟩ | ⟨a, b, h1, h2, h3⟩
  · exact Or.inl (h2 ▸ h1)
  · exact Or.inr ⟨b, List.mem_map_of_mem h1, h3⟩

theorem Final.wf {E : Env} (ok : E.Ok) {cs m hp} (F : Final E cs m hp) :
    Wf E.ext E.R E.S2 m hp (cs.map Prod.snd) := by
  obtain ⟨P, I, _⟩ := F.inv
  refine ⟨I.lo, F.tiles ok, ?_, ?_, ?_⟩
  · intro p hp
    exact (F.cells ok (Or.inl ⟨hp, rfl⟩)).val
  · intro b hb _ i hi
    obtain ⟨⟨a, b⟩, hx, rfl⟩ := List.mem_map.1 hb
    have hl : len m b = len E.m0 a := by
      have := I.nhdr _ hx
      simp only at this
      simp only [len, this]
    simp only at hi ⊢
    rw [hl] at hi
    exact (F.cells ok (Or.inr ⟨a, b, i, hx, hi, rfl, rfl⟩)).val
  · intro b hb he
    obtain ⟨⟨a, b⟩, hx, rfl⟩ := List.mem_map.1 hb
    have hh := I.nhdr _ hx
    simp only at hh he ⊢
    have ha := (I.keys _ hx).1
    simp only at ha
    rw [hh] at he ⊢
    have hn := ok.wf.native a ha he
    refine ⟨hn.1, hn.2.1, ?_⟩
    have hl : len E.m0 a = 1 := by simp [len, he]
    have := F.cells ok (c := b + 0) (v := E.m0 (a + 0)) (Or.inr ⟨a, b, 0, hx, by omega, rfl, rfl⟩)
    rcases this with ⟨h1, h2⟩ | ⟨a', b', h1, h2, h3⟩
    · simp only [Nat.add_zero] at h1 h2
      rw [h2]; exact h1
    · have h4 := hn.2.2
      simp only [Nat.add_zero] at h2
      rw [h2] at h4
      exact absurd h4 (ok.not_ext (I.keys _ h1).1)

theorem Final.iso {E : Env} (ok : E.Ok) {cs m hp} (F : Final E cs m hp) :
    Iso E.R E.m0 E.as m (cs.map Prod.snd) (Gc.rename cs) := by
  obtain ⟨P, I, _⟩ := F.inv
  refine ⟨?_, ?_, ?_, ?_, ?_⟩
  · intro b
    constructor
    · intro hb
      obtain ⟨⟨a, b⟩, hx, rfl⟩ := List.mem_map.1 hb
      exact ⟨a, (I.keys _ hx).2, F.rename hx⟩
    · rintro ⟨a, ha, rfl⟩
      obtain ⟨b, hb⟩ := F.all ok ha
      rw [F.rename hb]
      exact List.mem_map_of_mem hb
  · intro a a' ha ha' h
    obtain ⟨b, hb⟩ := F.all ok ha
    obtain ⟨b', hb'⟩ := F.all ok ha'
    rw [F.rename hb, F.rename hb'] at h
    have := I.tile.inj _ hb _ hb' h
    simp only [Prod.mk.injEq] at this
    exact this.1
  · intro p hp
    exact F.same ok (Or.inl ⟨hp, rfl⟩)
  · intro a ha
    obtain ⟨b, hb⟩ := F.all ok ha
    rw [F.rename hb]
    exact I.nhdr _ hb
  · intro a ha i hi
    obtain ⟨b, hb⟩ := F.all ok ha
    rw [F.rename hb]
    exact F.same ok (Or.inr ⟨a, b, i, hb, hi, rfl, rfl⟩)

theorem Final.size {E : Env} (ok : E.Ok) {cs m hp} (F : Final E cs m hp) :
    E.S2.lim - hp ≤ E.S1.lim - E.hp1 := by
  obtain ⟨P, I, _⟩ := F.inv
  have hsub : (cs.map Prod.fst).Subperm E.as := by
    apply List.subperm_of_subset I.nodup
    intro x hx
    obtain ⟨y, hy, rfl⟩ := List.mem_map.1 hx
    exact (I.keys y hy).1
  obtain ⟨l, hl1, hl2⟩ := hsub
  have h1 : ((cs.map Prod.fst).map fun a => len E.m0 a + 1).sum =
      (l.map fun a => len E.m0 a + 1).sum := (hl1.map _).sum_eq.symm
  have h2 : (l.map fun a => len E.m0 a + 1).sum ≤ (E.as.map fun a => len E.m0 a + 1).sum :=
    (hl2.map _).sum_le_sum (fun _ _ => Nat.zero_le _)
  have h3 := ok.wf.tiles.total
  have h4 := I.tile.total
  have h5 : ((cs.map Prod.fst).map fun a => len E.m0 a + 1).sum =
      (cs.map fun x => len E.m0 x.1 + 1).sum := by rw [List.map_map]; rfl
  omega

/-! ### Deallocator calls -/

open Classical in
/-- The unreachable native blocks, in order of address, with type and contents. -/
noncomputable def garbage (m : Mem) (R : Roots) (as : List Nat) (l : List Nat) : List (Nat × Nat) :=
  (l.filter fun a => decide (m (a - 1) % 2 = 0 ∧ ¬ Reach m R as a)).map fun a => (m (a - 1), m a)

theorem Final.finalize {E : Env} (ok : E.Ok) {cs m hp} (F : Final E cs m hp) :
    ∀ (l : List Nat) (lo : Nat), Tiles E.m0 lo E.S1.lim l → (∀ a ∈ l, a ∈ E.as) →
      finalize E.S2 m lo E.S1.lim = some (garbage E.m0 E.R E.as l) := by
  obtain ⟨P, I, _⟩ := F.inv
  intro l
  induction l with
  | nil =>
    intro lo h _
    have : lo = E.S1.lim := h
    rw [Gc.finalize, if_neg (by omega), if_pos this]
    rfl
  | cons a l ih =>
    intro lo h hl
    obtain ⟨h1, h2, h3⟩ := h
    have ha := hl a (List.mem_cons_self ..)
    have hle := h3.le
    have hlo : lo = a - 1 := by omega
    have hlen1 : E.m0 (a - 1) % 2 = 1 → len E.m0 a = E.m0 (a - 1) / 2 := fun h => by simp [len, h]
    have hlen0 : E.m0 (a - 1) % 2 = 0 → len E.m0 a = 1 := fun h => by simp [len, h]
    have ih' := ih _ h3 (fun x hx => hl x (List.mem_cons_of_mem _ hx))
    rw [Gc.finalize, if_pos (by omega)]
    simp only
    rw [hlo, show a - 1 + 1 = a by omega]
    by_cases hr : Reach E.m0 E.R E.as a
    · -- reachable: forwarded
      have hg : garbage E.m0 E.R E.as (a :: l) = garbage E.m0 E.R E.as l := by
        simp [garbage, hr]
      obtain ⟨b, hb⟩ := F.all ok hr
      have hf := I.fwd _ hb
      have hn := I.new_in ok hb
      have hh := I.nhdr _ hb
      simp only at hf hn hh
      rw [hf, if_neg (by omega), if_neg (by omega), hn.1]
      simp only [Bool.not_true, Bool.false_eq_true, if_false]
      rw [show 8 * b / 8 = b by omega, hh, hg]
      by_cases hodd : E.m0 (a - 1) % 2 = 1
      · rw [if_pos hodd, ← hlen1 hodd]; exact ih'
      · rw [if_neg hodd]; rw [hlen0 (by omega)] at ih'; exact ih'
    · have hnk : a ∉ cs.map Prod.fst := by
        intro h
        obtain ⟨x, hx, rfl⟩ := List.mem_map.1 h
        exact hr (I.keys x hx).2
      rw [I.hdr a ha hnk, if_neg (ok.hdr_ne ha)]
      by_cases hodd : E.m0 (a - 1) % 2 = 1
      · have hg : garbage E.m0 E.R E.as (a :: l) = garbage E.m0 E.R E.as l := by
          simp [garbage, hodd]
        rw [if_pos hodd, hg, ← hlen1 hodd]; exact ih'
      · have he : E.m0 (a - 1) % 2 = 0 := by omega
        have hg : garbage E.m0 E.R E.as (a :: l) =
            (E.m0 (a - 1), E.m0 a) :: garbage E.m0 E.R E.as l := by
          simp [garbage, he, hr]
        rw [if_neg hodd, (ok.hdr_out ha).2]
        simp only [Bool.not_false, if_true]
        rw [hlen0 he] at ih'
        rw [ih', hg]
        have hp0 := I.pay a ha 0 (by rw [hlen0 he]; omega)
        rw [Nat.add_zero] at hp0
        rw [hp0]; rfl

end Verif.Gc

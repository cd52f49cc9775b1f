import Verif.Unbox.Pass
/-
The pass makes unboxed programs (C63).
-/
namespace Verif.Unbox
open Verif.Core Verif.Sets
open Verif.Fold (TEnv tlook exts ctype ctypes)
variable {τ : Type} [DecidableEq τ]

/-! ### new ids -/

/-- the new ids are distinct, with time stamps from `k` on. -/
structure Good (k : Nat) (st : St τ) : Prop where
  base : k ≤ st.next
  new : ∀ p ∈ st.types, New k st.next p.1
  nodup : (st.types.map Prod.fst).Nodup

omit [DecidableEq τ] in
theorem Good.add {k : Nat} {st : St τ} (h : Good k st) (T : τ) : Good k (st.add T) := by
  have hb := h.base
  refine ⟨by simp only [St.add]; omega, ?_, ?_⟩
  · intro p hp
    simp only [St.add, List.mem_cons] at hp
    rcases hp with rfl | hp
    · exact ⟨st.next, rfl, hb, by simp [St.add]⟩
    · exact (h.new p hp).mono (Nat.le_refl _) (by simp [St.add])
  · simp only [St.add, List.map_cons, List.nodup_cons]
    refine ⟨fun hm => ?_, h.nodup⟩
    obtain ⟨p, hp, e⟩ := List.mem_map.mp hm
    have h1 := (h.new p hp).lt
    rw [e] at h1
    exact absurd h1 (by simp [lexId])

/-- a later state. -/
def Ext (st st' : St τ) : Prop := st.next ≤ st'.next ∧ (∀ p ∈ st.types, p ∈ st'.types) ∧ ∀ k, Good k st → Good k st'

omit [DecidableEq τ] in
theorem Ext.refl (st : St τ) : Ext st st := ⟨Nat.le_refl _, fun _ h => h, fun _ h => h⟩
omit [DecidableEq τ] in
theorem Ext.trans {a b c : St τ} (h1 : Ext a b) (h2 : Ext b c) : Ext a c := ⟨Nat.le_trans h1.1 h2.1, fun p h => h2.2.1 p (h1.2.1 p h), fun k h => h2.2.2 k (h1.2.2 k h)⟩
omit [DecidableEq τ] in
theorem Ext.add (st : St τ) (T : τ) : Ext st (st.add T) := ⟨by simp [St.add], fun p h => by simp [St.add, h], fun _ h => h.add T⟩

theorem letLoop_ext {t : CTypes τ} {b : Exp} : ∀ {ids : List Id} {es : List Exp} {o : Out τ}, Ext o.st (letLoop t b ids es o).st := by
  intro ids
  induction ids with
  | nil => intro es o; rw [letLoop]; exact .refl _; intro _ _ _ _ h; cases h
  | cons x ids ih =>
    intro es o
    cases es with
    | nil => rw [letLoop]; exact .refl _; intro _ _ _ _ _ h; cases h
    | cons e es =>
      rw [letLoop]
      split
      · exact (Ext.add o.st _).trans (ih (o := ⟨o.st.id :: o.ids, e :: o.rands, (x, o.st.id) :: o.s, o.st.add _⟩))
      · exact ih (o := ⟨x :: o.ids, e :: o.rands, o.s, o.st⟩)

theorem lamLoop_ext {t : CTypes τ} {b : Exp} : ∀ {ids : List Id} {o : Out τ}, Ext o.st (lamLoop t b ids o).st := by
  intro ids
  induction ids with
  | nil => intro o; exact .refl _
  | cons x ids ih =>
    intro o
    rw [lamLoop]
    split
    · exact (Ext.add o.st _).trans (ih (o := ⟨o.st.id :: o.ids, .var x :: o.rands, (x, o.st.id) :: o.s, o.st.add _⟩))
    · exact ih

/-- an application whose operator is not a `lambda`. -/
theorem uv_app {t : CTypes τ} {s : Subst} {st : St τ} {f : Exp} {es : List Exp} (hf : ∀ ids b, f ≠ .lam ids b) :
    uv t s st (.app f es) = (.app (uv t s (uvs t s st es).2 f).1 (uvs t s st es).1, (uv t s (uvs t s st es).2 f).2) := by
  rw [uv]
  exact fun ids b h => hf ids b h

mutual
theorem uv_ext (t : CTypes τ) : (e : Exp) → ∀ (s : Subst) (st : St τ), Ext st (uv t s st e).2
  | .var _, s, st => by rw [uv]; exact .refl _
  | .set _ e, s, st => by rw [uv]; exact uv_ext t e s st
  | .ite a b c, s, st => by
    rw [uv]
    have ha := uv_ext t a s st
    simp only
    split
    · rename_i x T _
      exact ha.trans ((Ext.add _ T).trans ((uv_ext t b _ _).trans (uv_ext t c _ _)))
    · exact ha.trans ((uv_ext t b _ _).trans (uv_ext t c _ _))
  | .prim _ _ es, s, st => by rw [uv]; exact uvs_ext t es s st
  | .app (.lam ids b) es, s, st => by
    rw [uv]
    split
    · exact uv_ext t b s st
    · simp only
      split
      · exact uvs_ext t es s st
      · split
        · exact (uvs_ext t es s st).trans ((letLoop_ext (o := ⟨[], [], s, _⟩)).trans (uv_ext t b _ _))
        · exact (uvs_ext t es s st).trans (uv_ext t (.lam ids b) _ _)
  | .app (.var x) es, s, st => by rw [uv_app (by intro _ _ h; cases h)]; exact (uvs_ext t es s st).trans (uv_ext t _ _ _)
  | .app (.set x e) es, s, st => by rw [uv_app (by intro _ _ h; cases h)]; exact (uvs_ext t es s st).trans (uv_ext t _ _ _)
  | .app (.ite _ _ _) es, s, st => by rw [uv_app (by intro _ _ h; cases h)]; exact (uvs_ext t es s st).trans (uv_ext t _ _ _)
  | .app (.prim _ _ _) es, s, st => by rw [uv_app (by intro _ _ h; cases h)]; exact (uvs_ext t es s st).trans (uv_ext t _ _ _)
  | .app (.app _ _) es, s, st => by rw [uv_app (by intro _ _ h; cases h)]; exact (uvs_ext t es s st).trans (uv_ext t _ _ _)
  | .app (.fix _ _ _) es, s, st => by rw [uv_app (by intro _ _ h; cases h)]; exact (uvs_ext t es s st).trans (uv_ext t _ _ _)
  | .app (.letcc _ _) es, s, st => by rw [uv_app (by intro _ _ h; cases h)]; exact (uvs_ext t es s st).trans (uv_ext t _ _ _)
  | .app (.withcc _ _) es, s, st => by rw [uv_app (by intro _ _ h; cases h)]; exact (uvs_ext t es s st).trans (uv_ext t _ _ _)
  | .lam ids b, s, st => by rw [uv]; exact (lamLoop_ext (o := ⟨[], [], s, st⟩)).trans (uv_ext t b _ _)
  | .fix _ lams b, s, st => by rw [uv]; exact (uvs_ext t lams s st).trans (uv_ext t b _ _)
  | .letcc _ _, s, st => by rw [uv]; exact .refl _
  | .withcc _ _, s, st => by rw [uv]; exact .refl _
theorem uvs_ext (t : CTypes τ) : (es : List Exp) → ∀ (s : Subst) (st : St τ), Ext st (uvs t s st es).2
  | [], s, st => by rw [uvs]; exact .refl _
  | e :: es, s, st => by rw [uvs]; exact (uv_ext t e s st).trans (uvs_ext t es _ _)
end

/-! ### the invariant -/

/-- what holds for an expression when it is reached, with the substitution `s`. -/
structure Inv (t : CTypes τ) (k : Nat) (s : Subst) (st : St τ) (Γ : TEnv τ) (e : Exp) : Prop where
  plain : Plain t e
  uniq : Uniq e
  loc : ∀ x ∈ binders e, x.isGlobal = false
  old : ∀ x, x ∈ binders e ∨ Free x e → x.ts < k
  base : k ≤ st.next
  dom : ∀ p ∈ s, p.1.isGlobal = false ∧ p.1 ∉ binders e ∧ New k st.next p.2
  env : ∀ y, tlook y Γ ≠ none → y ∉ binders e ∧ y.ts < st.next
  uses : (∀ x, e ≠ .var x) → ∀ p ∈ s, ∃ T, (p.2, T) ∈ st.types ∧ ∀ u, (p.1, u) ∈ cinfo t e → u = some T

theorem Inv.sub {t : CTypes τ} {k : Nat} {s : Subst} {st st' : St τ} {Γ : TEnv τ} {e e' : Exp} (h : Inv t k s st Γ e) (hx : Ext st st') (hv : ∀ x, e ≠ .var x) (hp : Plain t e') (hu : Uniq e')
    (hb : ∀ x ∈ binders e', x ∈ binders e) (hf : ∀ x, Free x e' → x ∈ binders e ∨ Free x e) (hc : (∀ x, e' ≠ .var x) → ∀ x u, x ∉ binders e → (x, u) ∈ cinfo t e' → (x, u) ∈ cinfo t e) :
    Inv t k s st' Γ e' where
  plain := hp
  uniq := hu
  loc x hx := h.loc x (hb x hx)
  old x hx := by
    rcases hx with hx | hx
    · exact h.old x (Or.inl (hb x hx))
    · exact h.old x (hf x hx)
  base := Nat.le_trans h.base hx.1
  dom p hp := by
    obtain ⟨h1, h2, h3⟩ := h.dom p hp
    exact ⟨h1, fun hm => h2 (hb _ hm), h3.mono (Nat.le_refl _) hx.1⟩
  env y hy := by
    obtain ⟨h1, h2⟩ := h.env y hy
    exact ⟨fun hm => h1 (hb _ hm), by have := hx.1; omega⟩
  uses hv' p hp := by
    obtain ⟨T, h1, h2⟩ := h.uses hv p hp
    exact ⟨T, hx.2.1 _ h1, fun u hu => h2 u (hc hv' p.1 u (h.dom p hp).2.1 hu)⟩

theorem plains_mem {t : CTypes τ} {e : Exp} : ∀ {es : List Exp}, Plains t es → e ∈ es → Plain t e := by
  intro es
  induction es with
  | nil => intro _ h; simp at h
  | cons a es ih =>
    intro h hm
    rw [Plains] at h
    rcases List.mem_cons.mp hm with rfl | hm
    · exact h.1
    · exact ih h.2 hm

theorem Inv.slook_old {t : CTypes τ} {k : Nat} {s : Subst} {st : St τ} {Γ : TEnv τ} {e : Exp} (h : Inv t k s st Γ e) {y : Id} : slook y s = y ∨ New k st.next (slook y s) := by
  rcases slook_mem (y := y) (s := s) with ⟨h1, _⟩ | h1
  · exact Or.inl h1
  · exact Or.inr (h.dom _ h1).2.2

theorem Inv.slook_binder {t : CTypes τ} {k : Nat} {s : Subst} {st : St τ} {Γ : TEnv τ} {e : Exp} (h : Inv t k s st Γ e) {y : Id} (hy : y ∈ binders e) : slook y s = y :=
  slook_other (fun p hp e => (h.dom p hp).2.1 (e ▸ hy))

theorem Inv.lt {t : CTypes τ} {k : Nat} {s : Subst} {st : St τ} {Γ : TEnv τ} {e : Exp} (h : Inv t k s st Γ e) {y : Id} (hy : y.ts < k) : (slook y s).ts < st.next := by
  rcases h.slook_old (y := y) with h1 | h1
  · rw [h1]; have := h.base; omega
  · exact h1.lt

/-! ### subexpressions -/
section Sub
variable {t : CTypes τ} {k : Nat} {s : Subst} {st st' : St τ} {Γ : TEnv τ}

theorem Inv.set {x : Id} {e : Exp} (h : Inv t k s st Γ (.set x e)) (hx : Ext st st') : Inv t k s st' Γ e :=
  h.sub hx (by intro _ h; cases h) (by simpa [Plain] using h.plain) h.uniq.set (fun y hy => by simpa [binders] using hy) (fun y hy => Or.inr (.set _ hy)) (fun _ y u _ hu => by simp [cinfo, hu])

theorem Inv.iteA {a b c : Exp} (h : Inv t k s st Γ (.ite a b c)) (hx : Ext st st') : Inv t k s st' Γ a :=
  h.sub hx (by intro _ h; cases h) (by have := h.plain; rw [Plain] at this; exact this.2.1) h.uniq.iteA (fun y hy => by simp [binders, hy]) (fun y hy => Or.inr (.iteA _ _ hy)) (fun _ y u _ hu => by simp [cinfo, hu])
theorem Inv.iteB {a b c : Exp} (h : Inv t k s st Γ (.ite a b c)) (hx : Ext st st') : Inv t k s st' Γ b :=
  h.sub hx (by intro _ h; cases h) (by have := h.plain; rw [Plain] at this; exact this.2.2.1) h.uniq.iteB (fun y hy => by simp [binders, hy]) (fun y hy => Or.inr (.iteB _ _ hy)) (fun _ y u _ hu => by simp [cinfo, hu])
theorem Inv.iteC {a b c : Exp} (h : Inv t k s st Γ (.ite a b c)) (hx : Ext st st') : Inv t k s st' Γ c :=
  h.sub hx (by intro _ h; cases h) (by have := h.plain; rw [Plain] at this; exact this.2.2.2) h.uniq.iteC (fun y hy => by simp [binders, hy]) (fun y hy => Or.inr (.iteC _ _ hy)) (fun _ y u _ hu => by simp [cinfo, hu])
theorem Inv.prim {eff : Effect} {p : PrimName} {es : List Exp} (h : Inv t k s st Γ (.prim eff p es)) (hx : Ext st st') : ∀ e ∈ es, Inv t k s st' Γ e := fun e he =>
  h.sub hx (by intro _ h; cases h) (by have := h.plain; rw [Plain] at this; exact plains_mem this he) (h.uniq.prim e he) (fun y hy => by simp only [binders]; exact mem_bindersAll.mpr ⟨e, he, hy⟩)
    (fun y hy => Or.inr (.prim _ _ he hy)) (fun hv y u _ hu => by rw [cinfo]; exact cinfoPrim_in he hv hu)
theorem Inv.appF {f : Exp} {es : List Exp} (h : Inv t k s st Γ (.app f es)) (hx : Ext st st') : Inv t k s st' Γ f :=
  h.sub hx (by intro _ h; cases h) (by have := h.plain; rw [Plain] at this; exact this.2.1) h.uniq.appF (fun y hy => by simp [binders, hy]) (fun y hy => Or.inr (.appF _ hy))
    (fun _ y u _ hu => by rw [cinfo_app]; exact cinfoAll_in (Or.inl hu))
theorem Inv.appA {f : Exp} {es : List Exp} (h : Inv t k s st Γ (.app f es)) (hx : Ext st st') : ∀ e ∈ es, Inv t k s st' Γ e := fun e he =>
  h.sub hx (by intro _ h; cases h) (by have := h.plain; rw [Plain] at this; exact plains_mem this.2.2 he) (h.uniq.appA e he)
    (fun y hy => by simp only [binders, List.mem_append]; exact Or.inr (mem_bindersAll.mpr ⟨e, he, hy⟩)) (fun y hy => Or.inr (.appA _ he hy))
    (fun _ y u _ hu => by rw [cinfo_app]; exact cinfoAll_in (Or.inr ⟨e, he, hu⟩))
theorem Inv.lam {ids : List Id} {b : Exp} (h : Inv t k s st Γ (.lam ids b)) (hx : Ext st st') : Inv t k s st' Γ b :=
  h.sub hx (by intro _ h; cases h) (by simpa [Plain] using h.plain) h.uniq.lam (fun y hy => by simp [binders, hy])
    (fun y hy => by
      by_cases hm : y ∈ ids
      · exact Or.inl (by simp [binders, hm])
      · exact Or.inr (.lam hm hy)) (fun _ y u hy hu => by rw [cinfo]; exact keep_in hu (fun hm => hy (by simp [binders, hm])))
theorem Inv.fixB {ids : List Id} {lams : List Exp} {b : Exp} (h : Inv t k s st Γ (.fix ids lams b)) (hx : Ext st st') : Inv t k s st' Γ b :=
  h.sub hx (by intro _ h; cases h) (by have := h.plain; rw [Plain] at this; exact this.2) h.uniq.fixB (fun y hy => by simp [binders, hy])
    (fun y hy => by
      by_cases hm : y ∈ ids
      · exact Or.inl (by simp [binders, hm])
      · exact Or.inr (.fixB _ hm hy)) (fun _ y u hy hu => by rw [cinfo]; exact keep_in (cinfoAll_in (Or.inl hu)) (fun hm => hy (by simp [binders, hm])))
theorem Inv.fixL {ids : List Id} {lams : List Exp} {b : Exp} (h : Inv t k s st Γ (.fix ids lams b)) (hx : Ext st st') : ∀ l ∈ lams, Inv t k s st' Γ l := fun l hl =>
  h.sub hx (by intro _ h; cases h) (by have := h.plain; rw [Plain] at this; exact plains_mem this.1 hl) (h.uniq.fixL l hl)
    (fun y hy => by simp only [binders, List.mem_append]; exact Or.inr (Or.inl (mem_bindersAll.mpr ⟨l, hl, hy⟩)))
    (fun y hy => by
      by_cases hm : y ∈ ids
      · exact Or.inl (by simp [binders, hm])
      · exact Or.inr (.fixL _ hm hl hy)) (fun _ y u hy hu => by rw [cinfo]; exact keep_in (cinfoAll_in (Or.inr ⟨l, hl, hu⟩)) (fun hm => hy (by simp [binders, hm])))

omit [DecidableEq τ] in
theorem tlook_exts {y : Id} {Γ : TEnv τ} : ∀ {ids : List Id} {ts : List (Option τ)}, tlook y (exts ids ts Γ) ≠ none → y ∈ ids ∨ tlook y Γ ≠ none := by
  intro ids
  induction ids with
  | nil => intro ts h; exact Or.inr (by simpa [exts] using h)
  | cons x ids ih =>
    intro ts h
    cases ts with
    | nil => exact Or.inr (by simpa [exts] using h)
    | cons T ts =>
      simp only [exts, tlook] at h
      split at h
      · rename_i e; exact Or.inl (by simp [e])
      · rcases ih h with h | h
        · exact Or.inl (by simp [h])
        · exact Or.inr h

/-- the body of a test. -/
theorem Inv.test {x : Id} {T : τ} {a b c : Exp} (h : Inv t k s st Γ (.ite a b c)) (hx : Ext st st') (ht : testOf t a b = some (x, T)) :
    Inv t k ((x, st'.id) :: s) (st'.add T) ((st'.id, tlook x Γ) :: Γ) b := by
  obtain ⟨⟨eff, p, rfl, _⟩, hut⟩ := testOf_inv ht
  have hb := h.iteB hx
  have hfx : Free x (.ite (.prim eff p [.var x]) b c) := .iteA _ _ (.prim eff p (by simp) .var)
  have hid : st'.id.ts = (st'.next : Int) := rfl
  have hbase := hb.base
  refine ⟨hb.plain, hb.uniq, hb.loc, hb.old, by simp [St.add]; omega, ?_, ?_, ?_⟩
  · intro q hq
    rcases List.mem_cons.mp hq with rfl | hq
    · refine ⟨?_, fun hm => h.uniq.2 x (by simp [binders, hm]) hfx, st'.next, rfl, by omega, by simp [St.add]⟩
      have := h.plain; rw [Plain] at this
      exact this.1 x T ht
    · obtain ⟨h1, h2, h3⟩ := hb.dom q hq
      exact ⟨h1, h2, h3.mono (Nat.le_refl _) (by simp [St.add])⟩
  · intro y hy
    simp only [tlook] at hy
    split at hy
    · rename_i e
      subst e
      refine ⟨fun hm => ?_, by rw [hid]; simp only [St.add]; omega⟩
      have := hb.old _ (Or.inl hm)
      rw [hid] at this; omega
    · obtain ⟨h1, h2⟩ := hb.env y hy
      exact ⟨h1, by simp [St.add]; omega⟩
  · intro hv q hq
    rcases List.mem_cons.mp hq with rfl | hq
    · exact ⟨T, by simp [St.add, St.id], unboxedType_all hut⟩
    · obtain ⟨U, h1, h2⟩ := hb.uses hv q hq
      exact ⟨U, by simp [St.add, h1], h2⟩

/-- the body of `let`. -/
theorem Inv.letB {ids ids' : List Id} {b : Exp} {es es' : List Exp} {ts : List (Option τ)} {r : Out τ} (h : Inv t k s st Γ (.app (.lam ids b) es)) (hx : Ext st st') (hl : ids.length = es'.length)
    (H : LetOut t b ids es' ⟨[], [], s, st'⟩ r ids') : Inv t k r.s r.st (exts ids'.reverse ts Γ) b := by
  have hb := (h.appF hx).lam (Ext.refl _)
  have hin : ∀ x ∈ ids, x ∈ binders (.app (.lam ids b) es) := fun x hx => by simp [binders, hx]
  have hnb : ∀ x ∈ ids, x ∉ binders b := by
    have := h.uniq.appF.1
    simp only [binders, List.nodup_append] at this
    exact fun x hx hm => this.2.2 x hx x hm rfl
  have hbase := hb.base
  have hnext := H.next
  simp only at hnext
  refine ⟨hb.plain, hb.uniq, hb.loc, hb.old, by omega, ?_, ?_, ?_⟩
  · intro q hq
    rcases H.subst q hq with hq | ⟨h1, h2, _⟩
    · obtain ⟨h1, h2, h3⟩ := hb.dom q hq
      exact ⟨h1, h2, h3.mono (Nat.le_refl _) hnext⟩
    · exact ⟨h.loc _ (hin _ h1), hnb _ h1, h2.mono hbase (Nat.le_refl _)⟩
  · intro y hy
    rcases tlook_exts hy with hy | hy
    · rcases H.mem y (by simpa using hy) with h1 | h1
      · exact ⟨hnb y h1, by have := h.old y (Or.inl (hin y h1)); omega⟩
      · refine ⟨fun hm => ?_, h1.lt⟩
        have h2 : (st'.next : Int) ≤ y.ts := h1.ge
        have := hb.old y (Or.inl hm)
        omega
    · obtain ⟨h1, h2⟩ := hb.env y hy
      exact ⟨h1, by omega⟩
  · intro hv q hq
    rcases H.subst q hq with hq | ⟨h1, h2, T, h3, h4⟩
    · obtain ⟨U, h1, h2⟩ := hb.uses hv q hq
      exact ⟨U, H.types _ h1, h2⟩
    · exact ⟨T, h4, unboxedType_all h3⟩

/-- the body of a procedure. -/
theorem Inv.lamB {ids : List Id} {b : Exp} {r : Out τ} {ps : List (Id × Id)} (h : Inv t k s st Γ (.lam ids b)) 
    (H : LamOut t b ids ⟨[], [], s, st⟩ r ps) : Inv t k r.s r.st Γ b := by
  have hb := h.lam (Ext.refl _)
  have hin : ∀ x ∈ ids, x ∈ binders (.lam ids b) := fun x hx => by simp [binders, hx]
  have hnb : ∀ x ∈ ids, x ∉ binders b := by
    have := h.uniq.1
    simp only [binders, List.nodup_append] at this
    exact fun x hx hm => this.2.2 x hx x hm rfl
  have hbase := hb.base
  have hnext := H.next
  simp only at hnext
  refine ⟨hb.plain, hb.uniq, hb.loc, hb.old, by omega, ?_, ?_, ?_⟩
  · intro q hq
    rcases H.subst q hq with hq | hq
    · obtain ⟨h1, h2, h3⟩ := hb.dom q hq
      exact ⟨h1, h2, h3.mono (Nat.le_refl _) hnext⟩
    · obtain ⟨h1, h2, _⟩ := H.each q hq
      exact ⟨h.loc _ (hin _ h1), hnb _ h1, h2.mono hbase (Nat.le_refl _)⟩
  · intro y hy
    obtain ⟨h1, h2⟩ := hb.env y hy
    exact ⟨h1, by omega⟩
  · intro hv q hq
    rcases H.subst q hq with hq | hq
    · obtain ⟨U, h1, h2⟩ := hb.uses hv q hq
      exact ⟨U, H.types _ h1, h2⟩
    · obtain ⟨h1, h2, _, T, h3, h4⟩ := H.each q hq
      exact ⟨T, h4, unboxedType_all (formalType_inv h3)⟩

end Sub

/-- a `lambda` comes from a `lambda`. -/
theorem uv_lam {t : CTypes τ} {s : Subst} {st : St τ} {f : Exp} {ids : List Id} {b : Exp} (hd : isDegLet f = false) (h : (uv t s st f).1 = .lam ids b) : ∃ b0, f = .lam ids b0 := by
  cases f with
  | var | set | prim | fix | letcc | withcc => simp [uv] at h
  | ite a b c =>
    rw [uv] at h
    simp only at h
    split at h <;> simp at h
  | lam is b0 =>
    rw [uv] at h
    simp only [Exp.lam.injEq] at h
    exact ⟨b0, by rw [h.1]⟩
  | app f es =>
    simp only [isDegLet, Bool.or_eq_false_iff] at hd
    cases f with
    | lam is b0 =>
      rw [uv, hd.1] at h
      simp only [hd.2, Bool.false_eq_true, if_false] at h
      split at h <;> simp at h
    | _ => rw [uv_app (by intro _ _ h; cases h)] at h; simp at h

theorem isLetL_uv {t : CTypes τ} {s : Subst} {st : St τ} {f : Exp} {es es' : List Exp} (hd : isDegLet f = false) (hl : es.length = es'.length) (h : isLetL (f :: es) = false) :
    isLetL ((uv t s st f).1 :: es') = false := by
  cases hf : (uv t s st f).1 with
  | lam ids b =>
    obtain ⟨b0, rfl⟩ := uv_lam hd hf
    simp only [isLetL, decide_eq_false_iff_not] at h ⊢
    rw [← hl]; exact h
  | _ => rfl

/-- what is assumed of the types. -/
structure Final (ct F : Id → Option τ) (k : Nat) (t : CTypes τ) (e : Exp) (st : St τ) : Prop where
  types : ∀ p ∈ st.types, ct p.1 = some p.2
  old : ∀ y : Id, y.ts < k → ct y = none
  formals : ∀ x T, (x, T) ∈ typedFormals t e → F x = some T

theorem Final.sub {ct F : Id → Option τ} {k : Nat} {t : CTypes τ} {e e' : Exp} {st st' : St τ} (h : Final ct F k t e st) (he : ∀ p ∈ typedFormals t e', p ∈ typedFormals t e) (hx : Ext st' st) : Final ct F k t e' st' :=
  ⟨fun p hp => h.types p (hx.2.1 p hp), h.old, fun x T hm => h.formals x T (he _ hm)⟩

theorem typedFormalsAll_mem {t : CTypes τ} {p : Id × τ} {e : Exp} : ∀ {es : List Exp}, e ∈ es → p ∈ typedFormals t e → p ∈ typedFormalsAll t es := by
  intro es
  induction es with
  | nil => intro h; simp at h
  | cons a es ih =>
    intro h hp
    rw [typedFormalsAll, List.mem_append]
    rcases List.mem_cons.mp h with rfl | h
    · exact Or.inl hp
    · exact Or.inr (ih h hp)

theorem typedFormals_app {t : CTypes τ} {f : Exp} {es : List Exp} (hn : isLetL (f :: es) = false) : typedFormals t (.app f es) = typedFormals t f ++ typedFormalsAll t es := by
  cases f with
  | lam ids b =>
    simp only [isLetL, decide_eq_false_iff_not] at hn
    simp only [typedFormals, if_neg hn]
  | _ => conv => { lhs; rw [typedFormals.eq_def] }

theorem typedOf_mem {t : CTypes τ} {b : Exp} {ids : List Id} {x : Id} {T : τ} (hx : x ∈ ids) (h : formalType t x b = some T) : (x, T) ∈ typedOf t b ids := by
  simp only [typedOf, List.mem_filterMap]
  exact ⟨x, hx, by simp [h]⟩

theorem Inv.formals {t : CTypes τ} {k : Nat} {s : Subst} {st : St τ} {Γ : TEnv τ} {ct : Id → Option τ} {ids : List Id} {b : Exp} (h : Inv t k s st Γ (.lam ids b)) (ho : ∀ y : Id, y.ts < k → ct y = none) :
    Formals ct Γ (slook · s) ids b := by
  have hin : ∀ x ∈ ids, x ∈ binders (.lam ids b) := fun x hx => by simp [binders, hx]
  refine ⟨fun y hy => ⟨?_, h.slook_binder (hin y hy), ho y (h.old y (Or.inl (hin y hy))), h.loc y (hin y hy)⟩, fun y hy hm hmem => ?_⟩
  · by_contra hc
    exact (h.env y hc).1 (hin y hy)
  · rcases h.slook_old (y := y) with h1 | h1
    · rw [h1] at hmem; exact hm hmem
    · have := h.old _ (Or.inl (hin _ hmem))
      have := h1.ge; omega

theorem map_zip_mem {ps : List (Id × Id)} {i : Nat} {x c : Id} (h1 : (ps.map Prod.fst)[i]? = some x) (h2 : (ps.map Prod.snd)[i]? = some c) : (x, c) ∈ ps := by
  simp only [List.getElem?_map, Option.map_eq_some_iff] at h1 h2
  obtain ⟨p, hp, rfl⟩ := h1
  obtain ⟨q, hq, rfl⟩ := h2
  rw [hp] at hq; injection hq with hq; subst hq
  exact List.mem_of_getElem? hp

theorem uvs_length {t : CTypes τ} : ∀ (es : List Exp) {s : Subst} {st : St τ}, es.length = (uvs t s st es).1.length := by
  intro es
  induction es with
  | nil => intro s st; simp [uvs]
  | cons e es ih => intro s st; simp only [uvs, List.length_cons]; rw [← ih]

theorem cinfoPrim_weak {t : CTypes τ} {p : PrimName} {q : Id × Option τ} : ∀ {es : List Exp} {n : Nat} {vi vj : List (Id × Option τ)}, (∀ u ∈ vi, u ∈ vj) → q ∈ cinfoPrim t p n es vi → q ∈ cinfoPrim t p n es vj := by
  intro es
  induction es with
  | nil => intro n vi vj hs h; rw [cinfoPrim] at h ⊢; exact hs q h
  | cons e es ih =>
    intro n vi vj hs h
    cases e with
    | var x =>
      rw [cinfoPrim] at h ⊢
      refine ih (fun u hu => ?_) h
      rcases List.mem_cons.mp hu with rfl | hu
      · simp
      · exact List.mem_cons_of_mem _ (hs u hu)
    | _ =>
      rw [cinfoPrim] at h ⊢
      · refine ih (fun u hu => ?_) h
        rcases List.mem_append.mp hu with hu | hu
        · exact List.mem_append_left _ hu
        · exact List.mem_append_right _ (hs u hu)
      all_goals (intro x hx; cases hx)

theorem cinfoPrim_tail {t : CTypes τ} {p : PrimName} {n : Nat} {e : Exp} {es : List Exp} {q : Id × Option τ} (h : q ∈ cinfoPrim t p (n + 1) es []) : q ∈ cinfoPrim t p n (e :: es) [] := by
  by_cases hv : ∃ x, e = .var x
  · obtain ⟨x, rfl⟩ := hv
    rw [cinfoPrim]; exact cinfoPrim_weak (by simp) h
  · rw [cinfoPrim]
    · exact cinfoPrim_weak (by simp) h
    · intro x hx; exact hv ⟨x, hx⟩

mutual
theorem uv_U {t : CTypes τ} {ct F : Id → Option τ} {k : Nat} (ht : ∀ p T, t.check p = some T → t.arg p 0 = none) : (e : Exp) → ∀ {s : Subst} {st : St τ} {Γ : TEnv τ}, Inv t k s st Γ e → Final ct F k t e (uv t s st e).2 →
    U t ct F Γ (slook · s) e (uv t s st e).1
  | .var x, s, st, Γ, h, hF => by
    rw [uv]
    refine .var (fun hg => slook_other (fun p hp e => ?_)) (fun hg => ?_)
    · have := (h.dom p hp).1
      rw [e, hg] at this; cases this
    · rcases h.slook_old (y := x) with h1 | h1
      · rw [h1]; exact hg
      · exact h1.loc
  | .set x e, s, st, Γ, h, hF => by
    rw [uv] at hF ⊢
    exact .set (uv_U ht e (h.set (.refl _)) (hF.sub (fun p hp => by simpa [typedFormals] using hp) (.refl _)))
  | .ite a b c, s, st, Γ, h, hF => by
    rw [uv] at hF ⊢
    have xa := uv_ext t a s st
    cases htt : testOf t a b with
    | some q =>
      obtain ⟨x, T⟩ := q
      simp only [htt] at hF ⊢
      have xb := uv_ext t b ((x, (uv t s st a).2.id) :: s) ((uv t s st a).2.add T)
      have xc := uv_ext t c s (uv t ((x, (uv t s st a).2.id) :: s) ((uv t s st a).2.add T) b).2
      have hb := h.test xa htt
      obtain ⟨⟨eff, p, rfl, hck⟩, hut⟩ := testOf_inv htt
      have hfx : Free x (.ite (.prim eff p [.var x]) b c) := .iteA _ _ (.prim eff p (by simp) .var)
      have hxo := h.old x (Or.inr hfx)
      have hsx : slook x s = x := by
        refine slook_other (fun q hq e => ?_)
        obtain ⟨U, _, h2⟩ := h.uses (by intro _ h; cases h) q hq
        have := h2 none (by rw [e]; simp [cinfo, cinfoPrim, ht p T hck])
        cases this
      have e1 : (uv t s st (.prim eff p [.var x])).1 = .prim eff p [.var x] := by simp [uv, uvs, hsx]
      rw [e1]
      refine .test hck ?_ hsx (hF.types ((uv t s st (.prim eff p [.var x])).2.id, T) (xc.2.1 _ (xb.2.1 _ (by simp [St.add, St.id])))) (New.loc (a := 0) ⟨_, rfl, Nat.zero_le _, Nat.lt_succ_self _⟩) ?_ ?_ ?_
      · have := h.plain; rw [Plain] at this; exact this.1 x T htt
      · intro y hy _ e
        have h1 : (slook y s).ts < (uv t s st (.prim eff p [.var x])).2.next := (h.iteB xa).lt ((h.iteB xa).old y (Or.inr hy))
        rw [show slook y s = (uv t s st (.prim eff p [.var x])).2.id from e] at h1
        exact absurd h1 (by simp [St.id, lexId])
      · exact uv_U ht b hb (hF.sub (fun p hp => by simp [typedFormals, hp]) xc)
      · exact uv_U ht c (h.iteC (xa.trans ((Ext.add _ T).trans xb))) (hF.sub (fun p hp => by simp [typedFormals, hp]) (.refl _))
    | none =>
      simp only [htt] at hF ⊢
      have xb := uv_ext t b s (uv t s st a).2
      have xc := uv_ext t c s (uv t s (uv t s st a).2 b).2
      exact .ite (uv_U ht a (h.iteA (.refl _)) (hF.sub (fun p hp => by simp [typedFormals, hp]) (xb.trans xc)))
        (uv_U ht b (h.iteB xa) (hF.sub (fun p hp => by simp [typedFormals, hp]) xc)) (uv_U ht c (h.iteC (xa.trans xb)) (hF.sub (fun p hp => by simp [typedFormals, hp]) (.refl _)))
  | .prim eff p es, s, st, Γ, h, hF => by
    rw [uv] at hF ⊢
    exact .prim (uvs_U ht es (fun e he st' hx => h.prim hx e he) (fun e he => hF.sub (fun p hp => by rw [typedFormals]; exact typedFormalsAll_mem he hp) (.refl _)))
  | .app (.lam ids b) es, s, st, Γ, h, hF => by
    have hin : ∀ x ∈ ids, x ∈ binders (.app (.lam ids b) es) := fun x hx => by simp [binders, hx]
    rw [uv] at hF ⊢
    by_cases hn : isNullLet (.app (.lam ids b) es) = true
    · simp only [hn, if_true] at hF ⊢
      have : ids = [] ∧ es = [] := by
        unfold isNullLet at hn; split at hn
        · rename_i heq; injection heq with h1 h2; injection h1 with h1 h3; exact ⟨h1, h2⟩
        · cases hn
      obtain ⟨rfl, rfl⟩ := this
      exact .null (uv_U ht b ((h.appF (.refl _)).lam (.refl _)) (hF.sub (fun p hp => by simp [typedFormals, typedFormalsAll, hp]) (.refl _)))
    · by_cases hi : isIdLet (.app (.lam ids b) es) = true
      · simp only [hn, Bool.false_eq_true, if_false, hi, if_true] at hF ⊢
        have : ∃ x e, ids = [x] ∧ b = .var x ∧ es = [e] := by
          unfold isIdLet at hi; split at hi
          · rename_i x y e heq
            simp only [decide_eq_true_eq] at hi
            subst hi
            injection heq with h1 h2; injection h1 with h1 h3
            exact ⟨x, e, h1, h3, h2⟩
          · cases hi
        obtain ⟨x, e, rfl, rfl, rfl⟩ := this
        have := uvs_U ht [e] (Γ := Γ) (fun e he st' hx => h.appA hx e he) (fun e he => hF.sub (fun p hp => by simp only [typedFormals, List.mem_append]; exact Or.inr (typedFormalsAll_mem he hp)) (.refl _))
        cases hr : (uvs t s st [e]).1 with
        | nil => rw [hr] at this; cases this
        | cons e' es' =>
          rw [hr] at this
          cases this with | cons h1 h2 =>
          exact .idl (h.loc x (by simp [binders])) h1
      · have xs := uvs_ext t es s st
        by_cases hl : ids.length = es.length
        · simp only [hn, Bool.false_eq_true, if_false, hi, hl, if_true] at hF ⊢
          have hus : Us t ct F Γ (slook · s) es (uvs t s st es).1 := by
            refine uvs_U ht es (fun e he st' hx => h.appA hx e he) (fun e he => hF.sub (fun p hp => by simp only [typedFormals, List.mem_append]; exact Or.inr (typedFormalsAll_mem he hp)) ?_)
            exact (letLoop_ext (o := ⟨[], [], s, (uvs t s st es).2⟩)).trans (uv_ext t b _ _)
          have hle := hus.length
          have hnd : ids.Nodup := by
            have := h.uniq.appF.1
            simp only [binders, List.nodup_append] at this
            exact this.1
          obtain ⟨ids', H⟩ := letLoop_spec (t := t) (b := b) (k := k) (ids := ids) (es := (uvs t s st es).1) (o := ⟨[], [], s, (uvs t s st es).2⟩) (by omega) hnd (fun x hx => h.old x (Or.inl (hin x hx)))
            (Nat.le_trans h.base xs.1)
          have xb := uv_ext t b (letLoop t b ids (uvs t s st es).1 ⟨[], [], s, (uvs t s st es).2⟩).s (letLoop t b ids (uvs t s st es).1 ⟨[], [], s, (uvs t s st es).2⟩).st
          have hbase := h.base
          have hxs := xs.1
          rw [H.outIds, H.rands, List.append_nil, List.append_nil]
          refine .letE (s' := (slook · (letLoop t b ids (uvs t s st es).1 ⟨[], [], s, (uvs t s st es).2⟩).s)) ⟨hl, H.len, hnd, H.nodup, ?_, ?_, H.other, ?_, ?_⟩ hus ?_
          · intro c hc
            rcases H.mem c hc with h1 | h1
            · exact h.loc c (hin c h1)
            · exact h1.loc
          · intro i x c h1 h2
            rcases H.each i x c h1 h2 with ⟨g1, g2⟩ | ⟨_, g2, _⟩
            · rw [g2, g1]; exact h.slook_binder (hin x (List.mem_of_getElem? h1))
            · exact g2
          · intro y hy hm hmem
            have hyo : y.ts < k := h.old y (Or.inr (.appF _ (.lam hm hy)))
            rcases H.mem _ hmem with h1 | h1
            · rcases h.slook_old (y := y) with h2 | h2
              · rw [h2] at h1; exact hm h1
              · have := h.old _ (Or.inl (hin _ h1)); have := h2.ge; omega
            · have h2 : ((uvs t s st es).2.next : Int) ≤ (slook y s).ts := h1.ge
              have := h.lt hyo
              omega
          · intro i c T e h1 h2 h3
            have hil : i < ids.length := by have := Beta.lt_of_get h1; rw [H.len] at this; exact this
            rcases H.each i ids[i] c (List.getElem?_eq_getElem hil) h1 with ⟨g1, _⟩ | ⟨_, _, U, g2, g3⟩
            · rw [hF.old c (by rw [g1]; exact h.old _ (Or.inl (hin _ (List.getElem_mem hil))))] at h2; cases h2
            · have h4 := hF.types _ (xb.2.1 _ g2)
              simp only at h4
              rw [h2] at h4; injection h4 with h4; subst h4
              exact g3 e h3
          · exact uv_U ht b (h.letB xs (by omega) H) (hF.sub (fun p hp => by simp [typedFormals, hp]) (.refl _))
        · simp only [hn, Bool.false_eq_true, if_false, hi, hl] at hF ⊢
          have hnl : isLetL (.lam ids b :: es) = false := by simpa [isLetL] using hl
          have hus : Us t ct F Γ (slook · s) es (uvs t s st es).1 :=
            uvs_U ht es (fun e he st' hx => h.appA hx e he) (fun e he => hF.sub (fun p hp => by rw [typedFormals_app hnl, List.mem_append]; exact Or.inr (typedFormalsAll_mem he hp)) (uv_ext t _ _ _))
          exact .app hnl (isLetL_uv rfl hus.length hnl) (uv_U ht (.lam ids b) (h.appF xs) (hF.sub (fun p hp => by rw [typedFormals_app hnl, List.mem_append]; exact Or.inl hp) (.refl _))) hus
  | .app (.var x) es, s, st, Γ, h, hF => app_U (fun h hF => uv_U ht (.var x) h hF) (fun h hF => uvs_U ht es h hF) (by intro _ _ h; cases h) h hF
  | .app (.set x e) es, s, st, Γ, h, hF => app_U (fun h hF => uv_U ht (.set x e) h hF) (fun h hF => uvs_U ht es h hF) (by intro _ _ h; cases h) h hF
  | .app (.ite a b c) es, s, st, Γ, h, hF => app_U (fun h hF => uv_U ht (.ite a b c) h hF) (fun h hF => uvs_U ht es h hF) (by intro _ _ h; cases h) h hF
  | .app (.prim a b c) es, s, st, Γ, h, hF => app_U (fun h hF => uv_U ht (.prim a b c) h hF) (fun h hF => uvs_U ht es h hF) (by intro _ _ h; cases h) h hF
  | .app (.app a b) es, s, st, Γ, h, hF => app_U (fun h hF => uv_U ht (.app a b) h hF) (fun h hF => uvs_U ht es h hF) (by intro _ _ h; cases h) h hF
  | .app (.fix a b c) es, s, st, Γ, h, hF => app_U (fun h hF => uv_U ht (.fix a b c) h hF) (fun h hF => uvs_U ht es h hF) (by intro _ _ h; cases h) h hF
  | .app (.letcc a b) es, s, st, Γ, h, hF => app_U (fun h hF => uv_U ht (.letcc a b) h hF) (fun h hF => uvs_U ht es h hF) (by intro _ _ h; cases h) h hF
  | .app (.withcc a b) es, s, st, Γ, h, hF => app_U (fun h hF => uv_U ht (.withcc a b) h hF) (fun h hF => uvs_U ht es h hF) (by intro _ _ h; cases h) h hF
  | .lam ids b, s, st, Γ, h, hF => by
    have hnd : ids.Nodup := by
      have := h.uniq.1
      simp only [binders, List.nodup_append] at this
      exact this.1
    obtain ⟨ps, H⟩ := lamLoop_spec (t := t) (b := b) (ids := ids) (o := ⟨[], [], s, st⟩) hnd
    rw [uv] at hF ⊢
    simp only at hF ⊢
    have ih := uv_U ht b (h.lamB H) (hF.sub (fun p hp => by simp [typedFormals, hp]) (.refl _))
    have hfm := h.formals hF.old
    have xb := uv_ext t b (lamLoop t b ids ⟨[], [], s, st⟩).s (lamLoop t b ids ⟨[], [], s, st⟩).st
    by_cases hp : ps = []
    · subst hp
      have e0 : (lamLoop t b ids ⟨[], [], s, st⟩).ids = [] := by rw [H.outIds]; rfl
      simp only [e0, if_true]
      have e1 : (slook · (lamLoop t b ids ⟨[], [], s, st⟩).s) = (slook · s) := funext (fun y => H.other y (by simp))
      rw [e1] at ih
      exact .lam hfm ih
    · have e0 : (lamLoop t b ids ⟨[], [], s, st⟩).ids = ps.map Prod.snd := by rw [H.outIds]; simp
      have e1 : (lamLoop t b ids ⟨[], [], s, st⟩).rands = (ps.map Prod.fst).map .var := by rw [H.rands]; simp
      have e2 : ps.map Prod.snd ≠ [] := by simpa using hp
      simp only [e0, e1, if_neg e2, letExp]
      have hb := h.lam (Ext.refl st)
      have hmem : ∀ c ∈ ps.map Prod.snd, New st.next (lamLoop t b ids ⟨[], [], s, st⟩).st.next c := by
        intro c hc
        obtain ⟨p, hp, rfl⟩ := List.mem_map.mp hc
        exact (H.each p hp).2.1
      refine .lamU hfm ⟨by simp, H.nodup, ?_, ?_, ?_, H.other, ?_⟩ ih
      · intro x hx
        obtain ⟨p, hp, rfl⟩ := List.mem_map.mp hx
        exact (H.each p hp).1
      · intro c hc
        refine ⟨?_, (hmem c hc).loc⟩
        by_contra hcn
        have := (h.env c hcn).2; have := (hmem c hc).ge; omega
      · intro i x c h1 h2
        obtain ⟨g1, g2, g3, T, g4, g5⟩ := H.each (x, c) (map_zip_mem h1 h2)
        refine ⟨g3, fun T' hT' => ?_⟩
        have h4 := hF.types _ (xb.2.1 _ g5)
        simp only at h4
        rw [hT'] at h4; injection h4 with h4; subst h4
        exact hF.formals x T' (by rw [typedFormals, List.mem_append]; exact Or.inl (typedOf_mem g1 g4))
      · intro y hy hm hmem'
        have h1 := (hmem _ hmem').ge
        have := hb.lt (hb.old y (Or.inr hy))
        omega
  | .fix ids lams b, s, st, Γ, h, hF => by
    rw [uv] at hF ⊢
    have xs := uvs_ext t lams s st
    have xb := uv_ext t b s (uvs t s st lams).2
    have hin : ∀ x ∈ ids, x ∈ binders (.fix ids lams b) := fun x hx => by simp [binders, hx]
    refine .fix ⟨fun y hy => ⟨?_, h.slook_binder (hin y hy), h.loc y (hin y hy)⟩, fun y _ hm hmem => ?_⟩
      (uvs_U ht lams (fun e he st' hx => h.fixL hx e he) (fun e he => hF.sub (fun p hp => by rw [typedFormals, List.mem_append]; exact Or.inl (typedFormalsAll_mem he hp)) xb))
      (uv_U ht b (h.fixB xs) (hF.sub (fun p hp => by simp [typedFormals, hp]) (.refl _)))
    · by_contra hc
      exact (h.env y hc).1 (hin y hy)
    · rcases h.slook_old (y := y) with h1 | h1
      · rw [h1] at hmem; exact hm hmem
      · have := h.old _ (Or.inl (hin _ hmem))
        have := h1.ge; omega
  | .letcc _ _, s, st, Γ, h, hF => by have := h.plain; simp [Plain] at this
  | .withcc _ _, s, st, Γ, h, hF => by have := h.plain; simp [Plain] at this
theorem uvs_U {t : CTypes τ} {ct F : Id → Option τ} {k : Nat} (ht : ∀ p T, t.check p = some T → t.arg p 0 = none) : (es : List Exp) → ∀ {s : Subst} {st : St τ} {Γ : TEnv τ},
    (∀ e ∈ es, ∀ st', Ext st st' → Inv t k s st' Γ e) → (∀ e ∈ es, Final ct F k t e (uvs t s st es).2) → Us t ct F Γ (slook · s) es (uvs t s st es).1
  | [], s, st, Γ, h, hF => by rw [uvs]; exact .nil _ _
  | e :: es, s, st, Γ, h, hF => by
    rw [uvs] at hF ⊢
    exact .cons (uv_U ht e (h e (by simp) st (.refl _)) ((hF e (by simp)).sub (fun p hp => hp) (uvs_ext t es _ _)))
      (uvs_U ht es (fun e' he st' hx => h e' (by simp [he]) st' ((uv_ext t e s st).trans hx)) (fun e' he => hF e' (by simp [he])))
/-- applications. -/
theorem app_U {t : CTypes τ} {ct F : Id → Option τ} {k : Nat} {f : Exp} {es : List Exp} {s : Subst} {st : St τ} {Γ : TEnv τ}
    (ihf : ∀ {st' : St τ}, Inv t k s st' Γ f → Final ct F k t f (uv t s st' f).2 → U t ct F Γ (slook · s) f (uv t s st' f).1)
    (ihs : (∀ e ∈ es, ∀ st', Ext st st' → Inv t k s st' Γ e) → (∀ e ∈ es, Final ct F k t e (uvs t s st es).2) → Us t ct F Γ (slook · s) es (uvs t s st es).1)
    (hf : ∀ ids b, f ≠ .lam ids b) (h : Inv t k s st Γ (.app f es)) (hF : Final ct F k t (.app f es) (uv t s st (.app f es)).2) :
    U t ct F Γ (slook · s) (.app f es) (uv t s st (.app f es)).1 := by
  rw [uv_app hf] at hF ⊢
  have hnl : isLetL (f :: es) = false := by
    cases f with
    | lam ids b => exact absurd rfl (hf ids b)
    | _ => rfl
  have hd : isDegLet f = false := by have := h.plain; rw [Plain] at this; exact this.1
  have hus := ihs (fun e he st' hx => h.appA hx e he) (fun e he => hF.sub (fun p hp => by rw [typedFormals_app hnl, List.mem_append]; exact Or.inr (typedFormalsAll_mem he hp)) (uv_ext t _ _ _))
  exact .app hnl (isLetL_uv hd hus.length hnl) (ihf (h.appF (uvs_ext t es s st)) (hF.sub (fun p hp => by rw [typedFormals_app hnl, List.mem_append]; exact Or.inl hp) (.refl _))) hus
end

/-! ### uses of the new variables -/

/-- the variables to be replaced are not read as objects. -/
def Reads (t : CTypes τ) (s : Subst) (e : Exp) : Prop := ∀ p ∈ s, (p.1, none) ∉ cinfo t e

section Reads
variable {t : CTypes τ} {k : Nat} {s : Subst} {st st' : St τ} {Γ : TEnv τ}

theorem Inv.reads {e : Exp} (h : Inv t k s st Γ e) (hv : ∀ x, e ≠ .var x) : Reads t s e := by
  intro p hp hm
  obtain ⟨T, _, h2⟩ := h.uses hv p hp
  cases h2 none hm

omit [DecidableEq τ] in
theorem Reads.sub {e e' : Exp} (h : Reads t s e) (hc : ∀ p ∈ s, (p.1, none) ∈ cinfo t e' → (p.1, none) ∈ cinfo t e) : Reads t s e' := fun p hp hm => h p hp (hc p hp hm)

end Reads

mutual
theorem uv_D {t : CTypes τ} {ct F : Id → Option τ} {k : Nat} : (e : Exp) → ∀ {s : Subst} {st : St τ} {Γ : TEnv τ}, Inv t k s st Γ e → Reads t s e → Final ct F k t e (uv t s st e).2 →
    Direct t ct (uv t s st e).1
  | .var x, s, st, Γ, h, hr, hF => by
    rw [uv]
    rw [slook_other (fun p hp e => hr p hp (by rw [e]; simp [cinfo]))]
    exact .var (hF.old x (h.old x (Or.inr .var)))
  | .set x e, s, st, Γ, h, hr, hF => by
    rw [uv] at hF ⊢
    exact .set (hF.old x (h.old x (Or.inr (.setTarget _)))) (uv_D e (h.set (.refl _)) (hr.sub (fun p _ hm => by simp [cinfo, hm])) (hF.sub (fun p hp => by simpa [typedFormals] using hp) (.refl _)))
  | .ite a b c, s, st, Γ, h, hr, hF => by
    rw [uv] at hF ⊢
    have xa := uv_ext t a s st
    have ra : Reads t s a := hr.sub (fun p _ hm => by simp [cinfo, hm])
    have rb : Reads t s b := hr.sub (fun p _ hm => by simp [cinfo, hm])
    have rc : Reads t s c := hr.sub (fun p _ hm => by simp [cinfo, hm])
    cases htt : testOf t a b with
    | some q =>
      obtain ⟨x, T⟩ := q
      simp only [htt] at hF ⊢
      have xb := uv_ext t b ((x, (uv t s st a).2.id) :: s) ((uv t s st a).2.add T)
      have xc := uv_ext t c s (uv t ((x, (uv t s st a).2.id) :: s) ((uv t s st a).2.add T) b).2
      have hb := h.test xa htt
      have hut := (testOf_inv htt).2
      have hxo : x.ts < k := by
        obtain ⟨eff, p, rfl, _⟩ := (testOf_inv htt).1
        exact h.old x (Or.inr (.iteA _ _ (.prim eff p (by simp) .var)))
      refine .ite (uv_D a (h.iteA (.refl _)) ra (hF.sub (fun p hp => by simp [typedFormals, hp]) ((Ext.add _ T).trans (xb.trans xc)))) ?_
        (uv_D c (h.iteC (xa.trans ((Ext.add _ T).trans xb))) rc (hF.sub (fun p hp => by simp [typedFormals, hp]) (.refl _)))
      refine .app (.lam (uv_D b hb ?_ (hF.sub (fun p hp => by simp [typedFormals, hp]) xc))) (fun e he => by rw [List.mem_singleton.mp he]; exact .var (hF.old x hxo))
      intro p hp hm
      rcases List.mem_cons.mp hp with rfl | hp
      · cases unboxedType_all hut _ hm
      · exact rb p hp hm
    | none =>
      simp only [htt] at hF ⊢
      have xb := uv_ext t b s (uv t s st a).2
      have xc := uv_ext t c s (uv t s (uv t s st a).2 b).2
      exact .ite (uv_D a (h.iteA (.refl _)) ra (hF.sub (fun p hp => by simp [typedFormals, hp]) (xb.trans xc)))
        (uv_D b (h.iteB xa) rb (hF.sub (fun p hp => by simp [typedFormals, hp]) xc)) (uv_D c (h.iteC (xa.trans xb)) rc (hF.sub (fun p hp => by simp [typedFormals, hp]) (.refl _)))
  | .prim eff p es, s, st, Γ, h, hr, hF => by
    rw [uv] at hF ⊢
    refine .prim (uvs_Ds es (fun e he st' hx => h.prim hx e he) (fun q hq => ?_) (fun e he => hF.sub (fun p hp => by rw [typedFormals]; exact typedFormalsAll_mem he hp) (.refl _)))
    obtain ⟨T, h1, h2⟩ := h.uses (by intro _ h; cases h) q hq
    exact ⟨T, h1, fun u hu => h2 u (by rw [cinfo]; exact hu)⟩
  | .app (.lam ids b) es, s, st, Γ, h, hr, hF => by
    have hin : ∀ x ∈ ids, x ∈ binders (.app (.lam ids b) es) := fun x hx => by simp [binders, hx]
    have res : ∀ e ∈ es, Reads t s e := fun e he => hr.sub (fun p _ hm => by rw [cinfo_app]; exact cinfoAll_in (Or.inr ⟨e, he, hm⟩))
    have rf : Reads t s (.lam ids b) := hr.sub (fun p _ hm => by rw [cinfo_app]; exact cinfoAll_in (Or.inl hm))
    have rb : Reads t s b := rf.sub (fun p hp hm => by
      rw [cinfo]
      exact keep_in hm (fun hm' => (h.dom p hp).2.1 (hin _ hm')))
    rw [uv] at hF ⊢
    by_cases hn : isNullLet (.app (.lam ids b) es) = true
    · simp only [hn, if_true] at hF ⊢
      exact uv_D b ((h.appF (.refl _)).lam (.refl _)) rb (hF.sub (fun p hp => by simp [typedFormals, hp]) (.refl _))
    · by_cases hi : isIdLet (.app (.lam ids b) es) = true
      · simp only [hn, Bool.false_eq_true, if_false, hi, if_true] at hF ⊢
        have : ∃ x e, ids = [x] ∧ b = .var x ∧ es = [e] := by
          unfold isIdLet at hi; split at hi
          · rename_i x y e heq
            simp only [decide_eq_true_eq] at hi
            subst hi
            injection heq with h1 h2; injection h1 with h1 h3
            exact ⟨x, e, h1, h3, h2⟩
          · cases hi
        obtain ⟨x, e, rfl, rfl, rfl⟩ := this
        have := uvs_D [e] (Γ := Γ) (fun e he st' hx => h.appA hx e he) res (fun e he => hF.sub (fun p hp => by simp only [typedFormals, List.mem_append]; exact Or.inr (typedFormalsAll_mem he hp)) (.refl _))
        simp only [uvs] at this ⊢
        exact this _ (by simp)
      · have xs := uvs_ext t es s st
        by_cases hl : ids.length = es.length
        · simp only [hn, Bool.false_eq_true, if_false, hi, hl, if_true] at hF ⊢
          have hus : ∀ e ∈ (uvs t s st es).1, Direct t ct e := by
            refine uvs_D es (fun e he st' hx => h.appA hx e he) res (fun e he => hF.sub (fun p hp => by simp only [typedFormals, List.mem_append]; exact Or.inr (typedFormalsAll_mem he hp)) ?_)
            exact (letLoop_ext (o := ⟨[], [], s, (uvs t s st es).2⟩)).trans (uv_ext t b _ _)
          have hle : es.length = (uvs t s st es).1.length := uvs_length es
          have hnd : ids.Nodup := by
            have := h.uniq.appF.1
            simp only [binders, List.nodup_append] at this
            exact this.1
          obtain ⟨ids', H⟩ := letLoop_spec (t := t) (b := b) (k := k) (ids := ids) (es := (uvs t s st es).1) (o := ⟨[], [], s, (uvs t s st es).2⟩) (by omega) hnd (fun x hx => h.old x (Or.inl (hin x hx)))
            (Nat.le_trans h.base xs.1)
          rw [H.rands, List.append_nil]
          refine .app (.lam (uv_D b (h.letB (ts := []) xs (by omega) H) ?_ (hF.sub (fun p hp => by simp [typedFormals, hp]) (.refl _)))) (fun e he => hus e (by simpa using he))
          intro p hp hm
          rcases H.subst p hp with hp | ⟨_, _, T, h3, _⟩
          · exact rb p hp hm
          · cases unboxedType_all h3 _ hm
        · simp only [hn, Bool.false_eq_true, if_false, hi, hl] at hF ⊢
          have hnl : isLetL (.lam ids b :: es) = false := by simpa [isLetL] using hl
          exact .app (uv_D (.lam ids b) (h.appF xs) rf (hF.sub (fun p hp => by rw [typedFormals_app hnl, List.mem_append]; exact Or.inl hp) (.refl _)))
            (uvs_D es (fun e he st' hx => h.appA hx e he) res (fun e he => hF.sub (fun p hp => by rw [typedFormals_app hnl, List.mem_append]; exact Or.inr (typedFormalsAll_mem he hp)) (uv_ext t _ _ _)))
  | .app (.var x) es, s, st, Γ, h, hr, hF => app_D (fun h hr hF => uv_D (.var x) h hr hF) (fun h hr hF => uvs_D es h hr hF) (by intro _ _ h; cases h) h hr hF
  | .app (.set x e) es, s, st, Γ, h, hr, hF => app_D (fun h hr hF => uv_D (.set x e) h hr hF) (fun h hr hF => uvs_D es h hr hF) (by intro _ _ h; cases h) h hr hF
  | .app (.ite a b c) es, s, st, Γ, h, hr, hF => app_D (fun h hr hF => uv_D (.ite a b c) h hr hF) (fun h hr hF => uvs_D es h hr hF) (by intro _ _ h; cases h) h hr hF
  | .app (.prim a b c) es, s, st, Γ, h, hr, hF => app_D (fun h hr hF => uv_D (.prim a b c) h hr hF) (fun h hr hF => uvs_D es h hr hF) (by intro _ _ h; cases h) h hr hF
  | .app (.app a b) es, s, st, Γ, h, hr, hF => app_D (fun h hr hF => uv_D (.app a b) h hr hF) (fun h hr hF => uvs_D es h hr hF) (by intro _ _ h; cases h) h hr hF
  | .app (.fix a b c) es, s, st, Γ, h, hr, hF => app_D (fun h hr hF => uv_D (.fix a b c) h hr hF) (fun h hr hF => uvs_D es h hr hF) (by intro _ _ h; cases h) h hr hF
  | .app (.letcc a b) es, s, st, Γ, h, hr, hF => app_D (fun h hr hF => uv_D (.letcc a b) h hr hF) (fun h hr hF => uvs_D es h hr hF) (by intro _ _ h; cases h) h hr hF
  | .app (.withcc a b) es, s, st, Γ, h, hr, hF => app_D (fun h hr hF => uv_D (.withcc a b) h hr hF) (fun h hr hF => uvs_D es h hr hF) (by intro _ _ h; cases h) h hr hF
  | .lam ids b, s, st, Γ, h, hr, hF => by
    have hin : ∀ x ∈ ids, x ∈ binders (.lam ids b) := fun x hx => by simp [binders, hx]
    have rb : Reads t s b := hr.sub (fun p hp hm => by
      rw [cinfo]
      exact keep_in hm (fun hm' => (h.dom p hp).2.1 (hin _ hm')))
    have hnd : ids.Nodup := by
      have := h.uniq.1
      simp only [binders, List.nodup_append] at this
      exact this.1
    obtain ⟨ps, H⟩ := lamLoop_spec (t := t) (b := b) (ids := ids) (o := ⟨[], [], s, st⟩) hnd
    rw [uv] at hF ⊢
    simp only at hF ⊢
    have ih := uv_D b (h.lamB H) (by
      intro p hp hm
      rcases H.subst p hp with hp | hp
      · exact rb p hp hm
      · obtain ⟨h1, h2, _, T, h3, h4⟩ := H.each p hp
        cases unboxedType_all (formalType_inv h3) _ hm) (hF.sub (fun p hp => by simp [typedFormals, hp]) (.refl _))
    refine .lam ?_
    split
    · exact ih
    · refine .app (.lam ih) (fun e he => ?_)
      rw [H.rands] at he
      simp only [List.append_nil, List.mem_reverse, List.mem_map] at he
      obtain ⟨p, hp, rfl⟩ := he
      exact .var (hF.old _ (h.old _ (Or.inl (hin _ (H.each p hp).1))))
  | .fix ids lams b, s, st, Γ, h, hr, hF => by
    rw [uv] at hF ⊢
    have hin : ∀ x ∈ ids, x ∈ binders (.fix ids lams b) := fun x hx => by simp [binders, hx]
    have xs := uvs_ext t lams s st
    have xb := uv_ext t b s (uvs t s st lams).2
    refine .fix (uvs_D lams (fun e he st' hx => h.fixL hx e he) (fun l hl => hr.sub (fun p hp hm => ?_)) (fun e he => hF.sub (fun p hp => by rw [typedFormals, List.mem_append]; exact Or.inl (typedFormalsAll_mem he hp)) xb))
      (uv_D b (h.fixB xs) (hr.sub (fun p hp hm => ?_)) (hF.sub (fun p hp => by simp [typedFormals, hp]) (.refl _)))
    · rw [cinfo]
      exact keep_in (cinfoAll_in (Or.inr ⟨l, hl, hm⟩)) (fun hm' => (h.dom p hp).2.1 (hin _ hm'))
    · rw [cinfo]
      exact keep_in (cinfoAll_in (Or.inl hm)) (fun hm' => (h.dom p hp).2.1 (hin _ hm'))
  | .letcc _ _, s, st, Γ, h, hr, hF => by have := h.plain; simp [Plain] at this
  | .withcc _ _, s, st, Γ, h, hr, hF => by have := h.plain; simp [Plain] at this
theorem uvs_D {t : CTypes τ} {ct F : Id → Option τ} {k : Nat} : (es : List Exp) → ∀ {s : Subst} {st : St τ} {Γ : TEnv τ},
    (∀ e ∈ es, ∀ st', Ext st st' → Inv t k s st' Γ e) → (∀ e ∈ es, Reads t s e) → (∀ e ∈ es, Final ct F k t e (uvs t s st es).2) → ∀ e ∈ (uvs t s st es).1, Direct t ct e
  | [], s, st, Γ, h, hr, hF => by rw [uvs]; simp
  | e :: es, s, st, Γ, h, hr, hF => by
    rw [uvs] at hF ⊢
    intro e' he'
    rcases List.mem_cons.mp he' with rfl | he'
    · exact uv_D e (h e (by simp) st (.refl _)) (hr e (by simp)) ((hF e (by simp)).sub (fun p hp => hp) (uvs_ext t es _ _))
    · exact uvs_D es (fun e' he st' hx => h e' (by simp [he]) st' ((uv_ext t e s st).trans hx)) (fun e' he => hr e' (by simp [he])) (fun e' he => hF e' (by simp [he])) e' he'
theorem uvs_Ds {t : CTypes τ} {ct F : Id → Option τ} {k : Nat} {p : PrimName} : (es : List Exp) → ∀ {n : Nat} {s : Subst} {st : St τ} {Γ : TEnv τ},
    (∀ e ∈ es, ∀ st', Ext st st' → Inv t k s st' Γ e) → (∀ q ∈ s, ∃ T, (q.2, T) ∈ st.types ∧ ∀ u, (q.1, u) ∈ cinfoPrim t p n es [] → u = some T) →
    (∀ e ∈ es, Final ct F k t e (uvs t s st es).2) → Directs t ct p n (uvs t s st es).1
  | [], n, s, st, Γ, h, hr, hF => by rw [uvs]; exact .nil _ _
  | e :: es, n, s, st, Γ, h, hr, hF => by
    rw [uvs] at hF ⊢
    have xe := uv_ext t e s st
    have xs := uvs_ext t es s (uv t s st e).2
    have ih := uvs_Ds es (n := n + 1) (fun e' he st' hx => h e' (by simp [he]) st' (xe.trans hx)) (fun q hq => by
      obtain ⟨T, h1, h2⟩ := hr q hq
      exact ⟨T, xe.2.1 _ h1, fun u hu => h2 u (cinfoPrim_tail hu)⟩) (fun e' he => hF e' (by simp [he]))
    have hfe : Final ct F k t e (uv t s st e).2 := (hF e (by simp)).sub (fun p hp => hp) xs
    have he := h e (by simp) st (.refl _)
    by_cases hv : ∃ x, e = .var x
    · obtain ⟨x, rfl⟩ := hv
      rw [uv] at ih ⊢
      rcases slook_mem (y := x) (s := s) with ⟨h1, _⟩ | h1
      · rw [h1]
        exact .cons (.var (hfe.old x (he.old x (Or.inr .var)))) ih
      · obtain ⟨T, h2, h3⟩ := hr _ h1
        refine .typed (T := T) (hfe.types _ (xe.2.1 _ h2)) (h3 _ ?_) ih
        rw [cinfoPrim]
        exact cinfoPrim_base (by simp)
    · have hv' : ∀ x, e ≠ .var x := fun x hx => hv ⟨x, hx⟩
      exact .cons (uv_D e he (he.reads hv') hfe) ih
/-- applications. -/
theorem app_D {t : CTypes τ} {ct F : Id → Option τ} {k : Nat} {f : Exp} {es : List Exp} {s : Subst} {st : St τ} {Γ : TEnv τ}
    (ihf : ∀ {st' : St τ}, Inv t k s st' Γ f → Reads t s f → Final ct F k t f (uv t s st' f).2 → Direct t ct (uv t s st' f).1)
    (ihs : (∀ e ∈ es, ∀ st', Ext st st' → Inv t k s st' Γ e) → (∀ e ∈ es, Reads t s e) → (∀ e ∈ es, Final ct F k t e (uvs t s st es).2) → ∀ e ∈ (uvs t s st es).1, Direct t ct e)
    (hf : ∀ ids b, f ≠ .lam ids b) (h : Inv t k s st Γ (.app f es)) (hr : Reads t s (.app f es)) (hF : Final ct F k t (.app f es) (uv t s st (.app f es)).2) :
    Direct t ct (uv t s st (.app f es)).1 := by
  rw [uv_app hf] at hF ⊢
  have hnl : isLetL (f :: es) = false := by
    cases f with
    | lam ids b => exact absurd rfl (hf ids b)
    | _ => rfl
  exact .app (ihf (h.appF (uvs_ext t es s st)) (hr.sub (fun p _ hm => by rw [cinfo_app]; exact cinfoAll_in (Or.inl hm))) (hF.sub (fun p hp => by rw [typedFormals_app hnl, List.mem_append]; exact Or.inl hp) (.refl _)))
    (ihs (fun e he st' hx => h.appA hx e he) (fun e he => hr.sub (fun p _ hm => by rw [cinfo_app]; exact cinfoAll_in (Or.inr ⟨e, he, hm⟩)))
      (fun e he => hF.sub (fun p hp => by rw [typedFormals_app hnl, List.mem_append]; exact Or.inr (typedFormalsAll_mem he hp)) (uv_ext t _ _ _)))
end

end Verif.Unbox

import Verif.Unbox.Sim
/-
The pass makes unboxed programs (C63): uses of variables, and the loops over bound variables.
-/
namespace Verif.Unbox
open Verif.Core Verif.Sets
open Verif.Fold (TEnv tlook exts ctype ctypes)
variable {τ : Type} [DecidableEq τ]

/-! ### uses of variables -/

theorem keep_in {l : List (Id × Option τ)} {ids : List Id} {x : Id} {u : Option τ} (h : (x, u) ∈ l) (hx : x ∉ ids) : (x, u) ∈ keep (fun u => !memq u.1 ids) l := by
  rw [mem_keep]
  refine ⟨h, ?_⟩
  have : memq x ids = false := by
    cases hm : memq x ids with
    | false => rfl
    | true => exact absurd ((memq_iff x ids).mp hm) hx
  simp [this]

theorem cinfoAll_in {t : CTypes τ} {u : Id × Option τ} : ∀ {es : List Exp} {base : List (Id × Option τ)}, u ∈ base ∨ (∃ e ∈ es, u ∈ cinfo t e) → u ∈ cinfoAll t es base := by
  intro es
  induction es with
  | nil => intro base h; rcases h with h | ⟨e, h, _⟩ <;> simp_all [cinfoAll]
  | cons e es ih =>
    intro base h
    rw [cinfoAll, List.mem_append]
    rcases h with h | ⟨e', h, hu⟩
    · exact Or.inr (ih (Or.inl h))
    · rcases List.mem_cons.mp h with rfl | h
      · exact Or.inl hu
      · exact Or.inr (ih (Or.inr ⟨e', h, hu⟩))

theorem cinfoPrim_base {t : CTypes τ} {p : PrimName} {u : Id × Option τ} : ∀ {es : List Exp} {n : Nat} {vi : List (Id × Option τ)}, u ∈ vi → u ∈ cinfoPrim t p n es vi := by
  intro es
  induction es with
  | nil => intro n vi h; simpa [cinfoPrim] using h
  | cons e es ih =>
    intro n vi h
    cases e with
    | var x => rw [cinfoPrim]; exact ih (by simp [h])
    | _ => rw [cinfoPrim]; exact ih (by simp [h]); intro x hx; cases hx

theorem cinfoPrim_in {t : CTypes τ} {p : PrimName} {u : Id × Option τ} : ∀ {es : List Exp} {n : Nat} {vi : List (Id × Option τ)} {e : Exp}, e ∈ es → (∀ x, e ≠ .var x) → u ∈ cinfo t e →
    u ∈ cinfoPrim t p n es vi := by
  intro es
  induction es with
  | nil => intro n vi e h; simp at h
  | cons e es ih =>
    intro n vi e' h hv hu
    rcases List.mem_cons.mp h with rfl | h1
    · rw [cinfoPrim]
      · exact cinfoPrim_base (by simp [hu])
      · exact fun x hx => hv x hx
    · cases e with
      | var x => rw [cinfoPrim]; exact ih h1 hv hu
      | _ => rw [cinfoPrim]; exact ih h1 hv hu; intro x hx; cases hx

theorem cinfoPrim_arg {t : CTypes τ} {p : PrimName} {x : Id} : ∀ {es : List Exp} {n i : Nat} {vi : List (Id × Option τ)}, es[i]? = some (.var x) → (x, t.arg p (n + i)) ∈ cinfoPrim t p n es vi := by
  intro es
  induction es with
  | nil => intro n i vi h; simp at h
  | cons e es ih =>
    intro n i vi h
    cases i with
    | zero =>
      simp only [List.getElem?_cons_zero, Option.some.injEq] at h
      subst h
      rw [cinfoPrim]; exact cinfoPrim_base (by simp)
    | succ i =>
      cases e with
      | var y => rw [cinfoPrim, show n + (i + 1) = n + 1 + i by omega]; exact ih (by simpa using h)
      | _ => rw [cinfoPrim, show n + (i + 1) = n + 1 + i by omega]; exact ih (by simpa using h); intro x hx; cases hx

theorem cinfo_app {t : CTypes τ} {f : Exp} {es : List Exp} : cinfo t (.app f es) = cinfoAll t es (cinfo t f) := by
  cases f with
  | var x => simp [cinfo]
  | _ => simp only [cinfo]

theorem useTypes_loop {x : Id} {u : Option τ} : ∀ {vi : List (Id × Option τ)} {us : List (Option τ)}, u ∈ us ∨ (x, u) ∈ vi → u ∈ useTypes.loop x vi us := by
  intro vi
  induction vi with
  | nil => intro us h; simpa [useTypes.loop] using h
  | cons a vi ih =>
    intro us h
    rw [useTypes.loop]
    split
    · rename_i e
      refine ih ?_
      rcases h with h | h
      · exact Or.inl (by simp [h])
      · rcases List.mem_cons.mp h with h | h
        · subst h; exact Or.inl (by simp)
        · exact Or.inr h
    · rename_i e
      refine ih ?_
      rcases h with h | h
      · exact Or.inl h
      · rcases List.mem_cons.mp h with h | h
        · subst h; exact absurd rfl e
        · exact Or.inr h

theorem unboxedType_loop {T : τ} : ∀ {us : List (Option τ)} {c : Option τ}, unboxedType.loop us c = some T → (∀ U, c = some U → U = T) ∧ ∀ u ∈ us, u = some T := by
  intro us
  induction us with
  | nil => intro c h; simp only [unboxedType.loop] at h; subst h; exact ⟨fun U hU => by injection hU with hU; exact hU.symm, by simp⟩
  | cons u us ih =>
    intro c h
    cases u with
    | none => simp [unboxedType.loop] at h
    | some U =>
      rw [unboxedType.loop] at h
      split at h
      · rename_i hc
        obtain ⟨h1, h2⟩ := ih h
        have := h1 U rfl
        subst this
        refine ⟨fun V hV => ?_, ?_⟩
        · rcases hc with hc | hc
          · rw [hc] at hV; cases hV
          · rw [hc] at hV; injection hV with hV; exact hV.symm
        · simpa using h2
      · cases h

/-- all uses have the type. -/
theorem unboxedType_all {t : CTypes τ} {x : Id} {e : Exp} {T : τ} (h : unboxedType t x e = some T) : ∀ u, (x, u) ∈ cinfo t e → u = some T :=
  fun u hu => (unboxedType_loop h).2 u (useTypes_loop (Or.inr hu))

theorem letType_inv {t : CTypes τ} {x : Id} {b e : Exp} {T : τ} (h : letType t x b e = some T) : unboxedType t x b = some T ∧ ctype t.toTypes [] e = some T := by
  unfold letType at h
  split at h
  · rename_i U V h1 h2
    split at h
    · rename_i e; subst e; injection h with h; subst h; exact ⟨h1, h2⟩
    · cases h
  · cases h

theorem formalType_inv {t : CTypes τ} {x : Id} {b : Exp} {T : τ} (h : formalType t x b = some T) : unboxedType t x b = some T := by
  unfold formalType at h
  split at h
  · exact h
  · cases h

theorem testOf_inv {t : CTypes τ} {a b : Exp} {x : Id} {T : τ} (h : testOf t a b = some (x, T)) : (∃ eff p, a = .prim eff p [.var x] ∧ t.check p = some T) ∧ unboxedType t x b = some T := by
  unfold testOf at h
  split at h
  · split at h
    · rename_i U h1
      split at h
      · rename_i h2
        injection h with h; injection h with h3 h4; subst h3; subst h4
        exact ⟨⟨_, _, rfl, h2.2⟩, h1⟩
      · cases h
    · cases h
  · cases h

/-! ### substitutions -/

theorem slook_other {y : Id} : ∀ {s : Subst}, (∀ p ∈ s, p.1 ≠ y) → slook y s = y := by
  intro s
  induction s with
  | nil => intro _; rfl
  | cons p s ih =>
    intro h
    obtain ⟨x, c⟩ := p
    rw [slook, if_neg (fun e => h (x, c) (by simp) e.symm)]
    exact ih (fun p hp => h p (by simp [hp]))

theorem slook_mem {y : Id} : ∀ {s : Subst}, slook y s = y ∧ (∀ p ∈ s, p.1 ≠ y) ∨ (y, slook y s) ∈ s := by
  intro s
  induction s with
  | nil => exact Or.inl ⟨rfl, by simp⟩
  | cons p s ih =>
    obtain ⟨x, c⟩ := p
    rw [slook]
    split
    · rename_i e; subst e; exact Or.inr (by simp)
    · rename_i e
      rcases ih with ⟨h1, h2⟩ | h
      · exact Or.inl ⟨h1, by intro p hp; rcases List.mem_cons.mp hp with rfl | hp; exact fun e' => e e'.symm; exact h2 p hp⟩
      · exact Or.inr (by simp [h])

/-! ### the loops -/

/-- a new id. -/
def New (a b : Nat) (c : Id) : Prop := ∃ n, c = lexId n ∧ a ≤ n ∧ n < b

theorem New.loc {a b : Nat} {c : Id} (h : New a b c) : c.isGlobal = false := by
  obtain ⟨n, rfl, _, _⟩ := h
  exact decide_eq_false (by simp only [lexId]; omega)
theorem New.ge {a b : Nat} {c : Id} (h : New a b c) : (a : Int) ≤ c.ts := by
  obtain ⟨n, rfl, h1, h2⟩ := h; simp [lexId]; exact h1
theorem New.lt {a b : Nat} {c : Id} (h : New a b c) : c.ts < (b : Int) := by
  obtain ⟨n, rfl, h1, h2⟩ := h; simp [lexId]; exact h2
theorem New.mono {a b a' b' : Nat} {c : Id} (h : New a b c) (ha : a' ≤ a) (hb : b ≤ b') : New a' b' c := by
  obtain ⟨n, rfl, h1, h2⟩ := h; exact ⟨n, rfl, by omega, by omega⟩

/-- the result of the loop over the variables of `let`. -/
structure LetOut (t : CTypes τ) (b : Exp) (ids : List Id) (es : List Exp) (o r : Out τ) (ids' : List Id) : Prop where
  outIds : r.ids = ids'.reverse ++ o.ids
  rands : r.rands = es.reverse ++ o.rands
  len : ids'.length = ids.length
  next : o.st.next ≤ r.st.next
  types : ∀ p ∈ o.st.types, p ∈ r.st.types
  other : ∀ y, y ∉ ids → slook y r.s = slook y o.s
  subst : ∀ p ∈ r.s, p ∈ o.s ∨ (p.1 ∈ ids ∧ New o.st.next r.st.next p.2 ∧ ∃ T, unboxedType t p.1 b = some T ∧ (p.2, T) ∈ r.st.types)
  each : ∀ (i : Nat) (x c : Id), ids[i]? = some x → ids'[i]? = some c → (c = x ∧ slook x r.s = slook x o.s) ∨
    (New o.st.next r.st.next c ∧ slook x r.s = c ∧ ∃ T, (c, T) ∈ r.st.types ∧ ∀ e, es[i]? = some e → ctype t.toTypes [] e = some T)
  nodup : ids'.Nodup
  mem : ∀ c ∈ ids', c ∈ ids ∨ New o.st.next r.st.next c

theorem letLoop_spec {t : CTypes τ} {b : Exp} {k : Nat} : ∀ {ids : List Id} {es : List Exp} {o : Out τ}, ids.length = es.length → ids.Nodup → (∀ x ∈ ids, x.ts < (k : Int)) → k ≤ o.st.next →
    ∃ ids', LetOut t b ids es o (letLoop t b ids es o) ids' := by
  intro ids
  induction ids with
  | nil =>
    intro es o hl hn hk hb
    have : es = [] := by simpa using hl.symm
    subst this
    exact ⟨[], by simp [letLoop], by simp [letLoop], rfl, by simp [letLoop], by simp [letLoop], by simp [letLoop], by intro p hp; exact Or.inl (by simpa [letLoop] using hp), by simp, by simp, by simp⟩
  | cons x ids ih =>
    intro es o hl hn hk hb
    cases es with
    | nil => simp at hl
    | cons e es =>
      have hl' : ids.length = es.length := by simpa using hl
      obtain ⟨hx, hn'⟩ := List.nodup_cons.mp hn
      have hk' : ∀ y ∈ ids, y.ts < (k : Int) := fun y hy => hk y (by simp [hy])
      rw [letLoop]
      cases ht : letType t x b e with
      | none =>
        obtain ⟨ids', H⟩ := ih (es := es) (o := ⟨x :: o.ids, e :: o.rands, o.s, o.st⟩) hl' hn' hk' hb
        simp only
        refine ⟨x :: ids', ?_, ?_, ?_, H.next, H.types, ?_, ?_, ?_, ?_, ?_⟩
        · rw [H.outIds]; simp
        · rw [H.rands]; simp
        · simp [H.len]
        · intro y hy; exact H.other y (fun h => hy (by simp [h]))
        · intro p hp
          rcases H.subst p hp with h | ⟨h1, h2⟩
          · exact Or.inl h
          · exact Or.inr ⟨by simp [h1], h2⟩
        · intro i y c h1 h2
          cases i with
          | zero =>
            simp only [List.getElem?_cons_zero, Option.some.injEq] at h1 h2
            subst h1; subst h2
            exact Or.inl ⟨rfl, H.other x hx⟩
          | succ i => simpa using H.each i y c (by simpa using h1) (by simpa using h2)
        · refine List.nodup_cons.mpr ⟨fun hm => ?_, H.nodup⟩
          rcases H.mem x hm with h | h
          · exact hx h
          · have h1 : (o.st.next : Int) ≤ x.ts := h.ge
            have := hk x (by simp); omega
        · intro c hc
          rcases List.mem_cons.mp hc with rfl | hc
          · exact Or.inl (by simp)
          · rcases H.mem c hc with h | h
            · exact Or.inl (by simp [h])
            · exact Or.inr h
      | some T =>
        obtain ⟨hu, hc⟩ := letType_inv ht
        obtain ⟨ids', H⟩ := ih (es := es) (o := ⟨o.st.id :: o.ids, e :: o.rands, (x, o.st.id) :: o.s, o.st.add T⟩) hl' hn' hk' (by simp [St.add]; omega)
        simp only
        have hnx : o.st.next + 1 ≤ (letLoop t b ids es ⟨o.st.id :: o.ids, e :: o.rands, (x, o.st.id) :: o.s, o.st.add T⟩).st.next := H.next
        have hnew : New o.st.next (letLoop t b ids es ⟨o.st.id :: o.ids, e :: o.rands, (x, o.st.id) :: o.s, o.st.add T⟩).st.next o.st.id := ⟨o.st.next, rfl, by omega, by omega⟩
        have hty : (o.st.id, T) ∈ (letLoop t b ids es ⟨o.st.id :: o.ids, e :: o.rands, (x, o.st.id) :: o.s, o.st.add T⟩).st.types := H.types _ (by simp [St.add, St.id])
        refine ⟨o.st.id :: ids', ?_, ?_, ?_, by omega, fun p hp => H.types p (by simp [St.add, hp]), ?_, ?_, ?_, ?_, ?_⟩
        · rw [H.outIds]; simp
        · rw [H.rands]; simp
        · simp [H.len]
        · intro y hy
          rw [H.other y (fun h => hy (by simp [h]))]
          simp only [slook]
          rw [if_neg (fun e => hy (by simp [e]))]
        · intro p hp
          rcases H.subst p hp with h | ⟨h1, h2, h3⟩
          · rcases List.mem_cons.mp h with rfl | h
            · exact Or.inr ⟨by simp, hnew, T, hu, hty⟩
            · exact Or.inl h
          · exact Or.inr ⟨by simp [h1], h2.mono (by simp [St.add]) (Nat.le_refl _), h3⟩
        · intro i y c h1 h2
          cases i with
          | zero =>
            simp only [List.getElem?_cons_zero, Option.some.injEq] at h1 h2
            subst h1; subst h2
            refine Or.inr ⟨hnew, ?_, T, hty, fun e' he => ?_⟩
            · rw [H.other x hx]; simp [slook]
            · simp at he; subst he; exact hc
          | succ i =>
            have h1' : ids[i]? = some y := by simpa using h1
            have hne : y ≠ x := fun e => hx (e ▸ List.mem_of_getElem? h1')
            rcases H.each i y c h1' (by simpa using h2) with ⟨g1, g2⟩ | ⟨g1, g2, g3⟩
            · refine Or.inl ⟨g1, ?_⟩
              rw [g2]; simp only [slook]; rw [if_neg hne]
            · exact Or.inr ⟨g1.mono (by simp [St.add]) (Nat.le_refl _), g2, by simpa using g3⟩
        · refine List.nodup_cons.mpr ⟨fun hm => ?_, H.nodup⟩
          rcases H.mem _ hm with h | h
          · have := hk' _ h; have := hnew.ge; omega
          · have h1 : ((o.st.next + 1 : Nat) : Int) ≤ (o.st.next : Int) := h.ge
            omega
        · intro c hc
          rcases List.mem_cons.mp hc with rfl | hc
          · exact Or.inr hnew
          · rcases H.mem c hc with h | h
            · exact Or.inl (by simp [h])
            · exact Or.inr (h.mono (by simp [St.add]) (Nat.le_refl _))

/-- the result of the loop over formals. -/
structure LamOut (t : CTypes τ) (b : Exp) (ids : List Id) (o r : Out τ) (ps : List (Id × Id)) : Prop where
  outIds : r.ids = ps.map Prod.snd ++ o.ids
  rands : r.rands = ps.map (fun p => .var p.1) ++ o.rands
  nodup : (ps.map Prod.snd).Nodup
  next : o.st.next ≤ r.st.next
  types : ∀ p ∈ o.st.types, p ∈ r.st.types
  other : ∀ y, y ∉ ps.map Prod.fst → slook y r.s = slook y o.s
  subst : ∀ p ∈ r.s, p ∈ o.s ∨ p ∈ ps
  each : ∀ p ∈ ps, p.1 ∈ ids ∧ New o.st.next r.st.next p.2 ∧ slook p.1 r.s = p.2 ∧ ∃ T, formalType t p.1 b = some T ∧ (p.2, T) ∈ r.st.types

theorem lamLoop_spec {t : CTypes τ} {b : Exp} : ∀ {ids : List Id} {o : Out τ}, ids.Nodup → ∃ ps, LamOut t b ids o (lamLoop t b ids o) ps := by
  intro ids
  induction ids with
  | nil => intro o _; exact ⟨[], by simp [lamLoop], by simp [lamLoop], by simp, by simp [lamLoop], by simp [lamLoop], by simp [lamLoop], fun p hp => Or.inl (by simpa [lamLoop] using hp), by simp⟩
  | cons x ids ih =>
    intro o hn
    obtain ⟨hx, hn'⟩ := List.nodup_cons.mp hn
    rw [lamLoop]
    cases ht : formalType t x b with
    | none =>
      obtain ⟨ps, H⟩ := ih (o := o) hn'
      refine ⟨ps, H.outIds, H.rands, H.nodup, H.next, H.types, H.other, H.subst, fun p hp => ?_⟩
      obtain ⟨h1, h2⟩ := H.each p hp
      exact ⟨by simp [h1], h2⟩
    | some T =>
      obtain ⟨ps, H⟩ := ih (o := ⟨o.st.id :: o.ids, .var x :: o.rands, (x, o.st.id) :: o.s, o.st.add T⟩) hn'
      simp only
      have hnx : o.st.next + 1 ≤ (lamLoop t b ids ⟨o.st.id :: o.ids, .var x :: o.rands, (x, o.st.id) :: o.s, o.st.add T⟩).st.next := H.next
      have hxs : x ∉ ps.map Prod.fst := by
        intro hm
        obtain ⟨p, hp, rfl⟩ := List.mem_map.mp hm
        exact hx (H.each p hp).1
      refine ⟨ps ++ [(x, o.st.id)], ?_, ?_, ?_, by omega, fun p hp => H.types p (by simp [St.add, hp]), ?_, ?_, ?_⟩
      · rw [H.outIds]; simp
      · rw [H.rands]; simp
      · rw [List.map_append, List.nodup_append]
        refine ⟨H.nodup, by simp, fun a ha c hc => ?_⟩
        obtain ⟨p, hp, rfl⟩ := List.mem_map.mp ha
        simp only [List.map_cons, List.map_nil, List.mem_singleton] at hc
        subst hc
        intro e
        have h1 : ((o.st.next + 1 : Nat) : Int) ≤ p.2.ts := (H.each p hp).2.1.ge
        rw [e] at h1
        have h2 : o.st.id.ts = (o.st.next : Int) := rfl
        omega
      · intro y hy
        rw [List.map_append, List.mem_append, not_or] at hy
        rw [H.other y hy.1]
        simp only [slook]
        rw [if_neg (by simpa using hy.2)]
      · intro p hp
        rcases H.subst p hp with h | h
        · rcases List.mem_cons.mp h with rfl | h
          · exact Or.inr (by simp)
          · exact Or.inl h
        · exact Or.inr (by simp [h])
      · intro p hp
        rcases List.mem_append.mp hp with hp | hp
        · obtain ⟨h1, h2, h3, h4⟩ := H.each p hp
          exact ⟨by simp [h1], h2.mono (by simp [St.add]) (Nat.le_refl _), h3, h4⟩
        · simp only [List.mem_singleton] at hp
          subst hp
          refine ⟨by simp, ⟨o.st.next, rfl, by omega, by omega⟩, ?_, T, ht, H.types _ (by simp [St.add, St.id])⟩
          rw [H.other x hxs]; simp [slook]

end Verif.Unbox

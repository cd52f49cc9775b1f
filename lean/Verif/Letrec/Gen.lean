import Verif.Letrec.Parts
/-
The pass produces fixed forms (C35).
-/
namespace Verif.Letrec
open Verif.Core
open Verif.Fold (beginExp mapK)
open Verif.Boxes (lt_of_get)
open Verif.Beta (free_app free_lam free_set free_var)
variable {P : Par} {k : Nat}

/-! ### kinds -/

/-- variables that occur in the operands or in the body. -/
def occ (rands : List Exp) (body : Exp) (y : Id) : Prop := (∃ r ∈ rands, Free y r) ∨ Free y body
/-- variables assigned there. -/
def asd (rands : List Exp) (body : Exp) (y : Id) : Prop := (∃ r ∈ rands, AssignedIn y r) ∨ AssignedIn y body

theorem asd_occ {rands : List Exp} {body : Exp} {y : Id} (h : asd rands body y) : occ rands body y := by
  rcases h with ⟨r, hr, h⟩ | h
  · exact Or.inl ⟨r, hr, assigned_free h⟩
  · exact Or.inr (assigned_free h)

theorem occ_iff {rands : List Exp} {body : Exp} {y : Id} : occ rands body y ↔ ∃ u, (y, u) ∈ vinfoAll rands (vinfo body) := by
  simp only [occ, mem_vinfoAll]
  constructor
  · rintro (⟨r, hr, h⟩ | h)
    · obtain ⟨u, hu⟩ := (vinfo_free y r).mpr h
      exact ⟨u, Or.inl ⟨r, hr, hu⟩⟩
    · obtain ⟨u, hu⟩ := (vinfo_free y body).mpr h
      exact ⟨u, Or.inr hu⟩
  · rintro ⟨u, ⟨r, hr, h⟩ | h⟩
    · exact Or.inl ⟨r, hr, (vinfo_free y r).mp ⟨u, h⟩⟩
    · exact Or.inr ((vinfo_free y body).mp ⟨u, h⟩)

theorem asd_iff {rands : List Exp} {body : Exp} {y : Id} : asd rands body y ↔ ∃ u, (y, u) ∈ vinfoAll rands (vinfo body) ∧ u.assign = true := by
  simp only [asd, mem_vinfoAll]
  constructor
  · rintro (⟨r, hr, h⟩ | h)
    · obtain ⟨u, hu, ha⟩ := (vinfo_assigned y r).mpr h
      exact ⟨u, Or.inl ⟨r, hr, hu⟩, ha⟩
    · obtain ⟨u, hu, ha⟩ := (vinfo_assigned y body).mpr h
      exact ⟨u, Or.inr hu, ha⟩
  · rintro ⟨u, ⟨r, hr, h⟩ | h, ha⟩
    · exact Or.inl ⟨r, hr, (vinfo_assigned y r).mp ⟨u, h, ha⟩⟩
    · exact Or.inr ((vinfo_assigned y body).mp ⟨u, h, ha⟩)

theorem classify_spec {ids : List Id} {rands : List Exp} {body : Exp} {x : Id} {e : Exp} {c : Kind} (h : classify ids (vinfoAll rands (vinfo body)) x e = c) :
    (c = .u ↔ ¬ occ rands body x) ∧ (c = .s ∨ c = .l → ¬ asd rands body x) ∧ (c = .s → mentionsNone ids e = true) ∧ (c = .l → isLam e = true) := by
  have h1 : ((vinfoAll rands (vinfo body)).filter (fun u => u.1 = x)).isEmpty = true ↔ ¬ occ rands body x := by
    rw [List.isEmpty_iff, List.filter_eq_nil_iff, occ_iff]
    simp only [decide_eq_true_eq]
    constructor
    · rintro h ⟨u, hu⟩; exact h _ hu rfl
    · rintro h ⟨y, u⟩ hu rfl; exact h ⟨u, hu⟩
  have h2 : ((vinfoAll rands (vinfo body)).filter (fun u => u.1 = x)).any (·.2.assign) = true ↔ asd rands body x := by
    rw [List.any_eq_true, asd_iff]
    simp only [List.mem_filter, decide_eq_true_eq]
    constructor
    · rintro ⟨⟨y, u⟩, ⟨hu, rfl⟩, ha⟩; exact ⟨u, hu, ha⟩
    · rintro ⟨u, hu, ha⟩; exact ⟨(x, u), ⟨hu, rfl⟩, ha⟩
  unfold classify at h
  simp only at h
  split at h
  · rename_i he
    subst h
    exact ⟨⟨fun _ => h1.mp he, fun _ => rfl⟩, by simp, by simp, by simp⟩
  · rename_i he
    have ho : occ rands body x := Classical.byContradiction fun hc => he (h1.mpr hc)
    split at h
    · subst h; exact ⟨by simp [ho], by simp, by simp, by simp⟩
    · rename_i ha
      have hna : ¬ asd rands body x := fun hc => ha (h2.mpr hc)
      split at h
      · rename_i hs
        subst h
        simp only [Bool.and_eq_true] at hs
        exact ⟨by simp [ho], by simp [hna], by simp [hs.2], by simp⟩
      · split at h
        · rename_i hl
          subst h
          exact ⟨by simp [ho], by simp [hna], by simp, by simp [hl]⟩
        · subst h; exact ⟨by simp [ho], by simp, by simp, by simp⟩

/-! ### bindings before and after -/

/-- bindings with their kinds. -/
def prs (ids0 : List Id) (vi : List (Id × Use)) : List Id → List Exp → List Exp → List (Kind × Pair)
  | x :: ids, e :: es, r :: rs => (classify ids0 vi x e, ⟨x, e, r⟩) :: prs ids0 vi ids es rs
  | _, _, _ => []

/-- those of some kind. -/
def pk (c : Kind) (ps : List (Kind × Pair)) : List Pair := (ps.filter (fun p => p.1 = c)).map (·.2)

theorem bnds_prs (ids0 : List Id) (vi : List (Id × Use)) : ∀ (ids : List Id) (es rs : List Exp),
    bnds ids0 vi ids es rs = (prs ids0 vi ids es rs).map (fun p => ⟨p.1, p.2.id, p.2.tgt⟩) := by
  intro ids
  induction ids with
  | nil => intro es rs; simp [bnds, prs]
  | cons x ids ih =>
    intro es rs
    cases es with
    | nil => simp [bnds, prs]
    | cons e es =>
      cases rs with
      | nil => simp [bnds, prs]
      | cons r rs => simp [bnds, prs, ih]

theorem prs_ids (ids0 : List Id) (vi : List (Id × Use)) : ∀ {ids : List Id} {es rs : List Exp}, es.length = ids.length → rs.length = ids.length →
    (prs ids0 vi ids es rs).map (·.2.id) = ids := by
  intro ids
  induction ids with
  | nil => intro es rs _ _; simp [prs]
  | cons x ids ih =>
    intro es rs h1 h2
    cases es with
    | nil => simp at h1
    | cons e es =>
      cases rs with
      | nil => simp at h2
      | cons r rs => simp [prs, ih (by simpa using h1) (by simpa using h2)]

theorem mem_prs {ids0 : List Id} {vi : List (Id × Use)} : ∀ {ids : List Id} {es rs : List Exp} {p : Kind × Pair}, p ∈ prs ids0 vi ids es rs →
    p.1 = classify ids0 vi p.2.id p.2.src ∧ ∃ i : Nat, ids[i]? = some p.2.id ∧ es[i]? = some p.2.src ∧ rs[i]? = some p.2.tgt := by
  intro ids
  induction ids with
  | nil => intro es rs p h; simp [prs] at h
  | cons x ids ih =>
    intro es rs p h
    cases es with
    | nil => simp [prs] at h
    | cons e es =>
      cases rs with
      | nil => simp [prs] at h
      | cons r rs =>
        simp only [prs, List.mem_cons] at h
        rcases h with rfl | h
        · exact ⟨rfl, 0, rfl, rfl, rfl⟩
        · obtain ⟨h1, i, h2, h3, h4⟩ := ih h
          exact ⟨h1, i + 1, by simpa using h2, by simpa using h3, by simpa using h4⟩

theorem mem_pk {c : Kind} {ps : List (Kind × Pair)} {q : Pair} : q ∈ pk c ps ↔ (c, q) ∈ ps := by
  simp only [pk, List.mem_map, List.mem_filter, decide_eq_true_eq]
  constructor
  · rintro ⟨⟨c', q'⟩, ⟨h1, h2⟩, h3⟩
    simp only at h2 h3
    subst h2; subst h3; exact h1
  · intro h; exact ⟨(c, q), ⟨h, rfl⟩, rfl⟩

/-- an id has one kind. -/
theorem prs_eq {ps : List (Kind × Pair)} (hn : (ps.map (·.2.id)).Nodup) {p q : Kind × Pair} (hp : p ∈ ps) (hq : q ∈ ps) (h : p.2.id = q.2.id) : p = q := by
  induction ps with
  | nil => simp at hp
  | cons a ps ih =>
    simp only [List.map_cons, List.nodup_cons] at hn
    rcases List.mem_cons.mp hp with hp | hp <;> rcases List.mem_cons.mp hq with hq | hq
    · rw [hp, hq]
    · exact absurd (List.mem_map.mpr ⟨q, hq, by rw [← h, hp]⟩) hn.1
    · exact absurd (List.mem_map.mpr ⟨p, hp, by rw [h, hq]⟩) hn.1
    · exact ih hn.2 hp hq

theorem pk_nodup {c : Kind} {ps : List (Kind × Pair)} (hn : (ps.map (·.2.id)).Nodup) : ((pk c ps).map Pair.id).Nodup := by
  have : (pk c ps).map Pair.id = (ps.filter (fun p => p.1 = c)).map (·.2.id) := by simp [pk, Function.comp_def]
  rw [this]
  exact (List.Sublist.map _ List.filter_sublist).nodup hn

theorem pk_disj {c c' : Kind} (hc : c ≠ c') {ps : List (Kind × Pair)} (hn : (ps.map (·.2.id)).Nodup) : ∀ x ∈ (pk c ps).map Pair.id, ∀ y ∈ (pk c' ps).map Pair.id, x ≠ y := by
  intro x hx y hy e
  obtain ⟨q, hq, rfl⟩ := List.mem_map.mp hx
  obtain ⟨q', hq', rfl⟩ := List.mem_map.mp hy
  have := prs_eq hn (mem_pk.mp hq) (mem_pk.mp hq') e
  injection this with h1 _
  exact hc h1

theorem pk_all {ps : List (Kind × Pair)} {x : Id} (h : x ∈ ps.map (·.2.id)) : ∃ c q, q ∈ pk c ps ∧ q.id = x := by
  obtain ⟨⟨c, q⟩, hp, rfl⟩ := List.mem_map.mp h
  exact ⟨c, q, mem_pk.mpr hp, rfl⟩

theorem ofKind_prs (c : Kind) (ps : List (Kind × Pair)) : ofKind c (ps.map (fun p => ⟨p.1, p.2.id, p.2.tgt⟩)) = (pk c ps).map (fun q => ⟨c, q.id, q.tgt⟩) := by
  induction ps with
  | nil => rfl
  | cons p ps ih =>
    simp only [ofKind, pk] at ih ⊢
    by_cases h : p.1 = c
    · simp [h, ih]
    · simp [h, ih]

/-- the outer part. -/
theorem around_prs (ps : List (Kind × Pair)) (inner : Exp) : around (ps.map (fun p => ⟨p.1, p.2.id, p.2.tgt⟩)) inner =
    aroundOf ((pk .s ps).map Pair.out) ((pk .c ps).map Pair.id) ((pk .l ps).map Pair.out) inner := by
  simp only [around, ofKind_prs, aroundOf, List.map_map, List.length_map]
  rfl

/-- the conditions on the variables. -/
theorem shape_of {ids : List Id} {rands rs : List Exp} {body : Exp} (hn : ids.Nodup) (hrl : rands.length = ids.length) (hsl : rs.length = ids.length)
    (hU : ∀ x ∈ ids, P.U x = true ∧ x.isGlobal = false) {ps : List (Kind × Pair)} (hps : prs ids (vinfoAll rands (vinfo body)) ids rands rs = ps)
    (hq : ∀ q ∈ pk .s ps, quick P.K q.src = true) (hl : ∀ q ∈ pk .l ps, ∀ y, Free y q.src → Free y q.tgt) :
    Shape P ids (pk .s ps) (pk .l ps) ((pk .c ps).map Pair.id) (occ rands body) (fun y => asd rands body y ∨ y ∈ (pk .c ps).map Pair.id) := by
  have hids : ps.map (·.2.id) = ids := by rw [← hps]; exact prs_ids _ _ hrl hsl
  have hnp : (ps.map (·.2.id)).Nodup := by rw [hids]; exact hn
  have hcl : ∀ c q, q ∈ pk c ps → classify ids (vinfoAll rands (vinfo body)) q.id q.src = c ∧ q.id ∈ ids ∧ q.src ∈ rands := by
    intro c q hq
    rw [mem_pk, ← hps] at hq
    obtain ⟨h1, i, h2, h3, _⟩ := mem_prs hq
    exact ⟨h1.symm, List.mem_of_getElem? h2, List.mem_of_getElem? h3⟩
  refine ⟨?_, hn, ?_, ?_, hU, ?_, ?_, ?_, ?_, ?_⟩
  · rintro y (h | h)
    · exact asd_occ h
    · obtain ⟨q, hq, rfl⟩ := List.mem_map.mp h
      refine Classical.byContradiction fun hc => ?_
      have := (classify_spec (hcl _ q hq).1).1.mpr hc
      cases this
  · rw [List.nodup_append, List.nodup_append]
    refine ⟨⟨pk_nodup hnp, pk_nodup hnp, pk_disj (by decide) hnp⟩, pk_nodup hnp, ?_⟩
    intro x hx y hy
    rcases List.mem_append.mp hx with hx | hx
    · exact pk_disj (c := .s) (c' := .c) (by decide) hnp x hx y hy
    · exact pk_disj (c := .l) (c' := .c) (by decide) hnp x hx y hy
  · intro x hx
    rcases List.mem_append.mp hx with hx | hx
    · rcases List.mem_append.mp hx with hx | hx
      · obtain ⟨q, hq, rfl⟩ := List.mem_map.mp hx; exact (hcl _ q hq).2.1
      · obtain ⟨q, hq, rfl⟩ := List.mem_map.mp hx; exact (hcl _ q hq).2.1
    · obtain ⟨q, hq, rfl⟩ := List.mem_map.mp hx; exact (hcl _ q hq).2.1
  · intro x hx ho
    obtain ⟨c, q, hq, rfl⟩ := pk_all (ps := ps) (by rw [hids]; exact hx)
    have hcl' := (classify_spec (hcl _ q hq).1).1
    have hm : q.id ∈ (pk c ps).map Pair.id := List.mem_map.mpr ⟨q, hq, rfl⟩
    simp only [List.mem_append]
    cases c with
    | u => exact absurd ho (hcl'.mp rfl)
    | s => exact Or.inl (Or.inl hm)
    | l => exact Or.inl (Or.inr hm)
    | c => exact Or.inr hm
  · intro x hx ha
    rcases List.mem_append.mp hx with hx | hx
    · rcases ha with ha | ha
      · obtain ⟨q, hq, rfl⟩ := List.mem_map.mp hx
        exact (classify_spec (hcl _ q hq).1).2.1 (by simp) ha
      · exact pk_disj (c := .s) (c' := .c) (by decide) hnp x hx x ha rfl
    · rcases ha with ha | ha
      · obtain ⟨q, hq, rfl⟩ := List.mem_map.mp hx
        exact (classify_spec (hcl _ q hq).1).2.1 (by simp) ha
      · exact pk_disj (c := .l) (c' := .c) (by decide) hnp x hx x ha rfl
  · intro q hq'
    exact ⟨hq q hq', mentionsNone_iff.mp ((classify_spec (hcl _ q hq').1).2.2.1 rfl)⟩
  · intro q hq'
    exact ⟨(classify_spec (hcl _ q hq').1).2.2.2 rfl, hl q hq'⟩
  · intro q hq'
    have : q.src ∈ rands := by
      rcases List.mem_append.mp hq' with h | h
      · exact (hcl _ q h).2.2
      · exact (hcl _ q h).2.2
    exact ⟨fun y hy => Or.inl ⟨_, this, hy⟩, fun y hy => Or.inl (Or.inl ⟨_, this, hy⟩)⟩

/-! ### free variables of the result -/

theorem free_refix {body : Exp} {y : Id} : ∀ (n : Nat) (bs : List (Id × Exp)), bs.length ≤ n → y ∉ bs.map (·.1) → (Free y body ∨ ∃ b ∈ bs, Free y b.2) → Free y (refix n bs body) := by
  intro n
  induction n with
  | zero =>
    intro bs hl _ h
    have : bs = [] := List.eq_nil_of_length_eq_zero (by omega)
    subst this
    simpa [refix] using h
  | succ n ih =>
    intro bs hl hy h
    obtain ⟨new, hnew⟩ : ∃ new : Id × Exp → Bool, (fun (b : Id × Exp) => mentionsNone (bs.map (·.1)) b.2) = new := ⟨_, rfl⟩
    have he : refix (n + 1) bs body = if (bs.filter new).isEmpty then if (bs.filter (fun b => !new b)).isEmpty then body
        else .fix (bs.map (·.1)) (bs.map (·.2)) body
        else letExp ((bs.filter new).map (·.1)) ((bs.filter new).map (·.2)) (refix n (bs.filter (fun b => !new b)) body) := by subst hnew; rfl
    rw [he]
    clear he hnew
    split
    · rename_i hs
      split
      · rename_i hs'
        have hbs : bs = [] := by
          cases bs with
          | nil => rfl
          | cons b bs =>
            rw [List.isEmpty_iff, List.filter_eq_nil_iff] at hs hs'
            have h1 := hs b (by simp)
            have h2 := hs' b (by simp)
            simp only [Bool.not_eq_true, Bool.not_eq_false] at h1 h2
            simp [h1] at h2
        subst hbs
        simpa using h
      · rcases h with h | ⟨b, hb, h⟩
        · exact .fixB _ hy h
        · exact .fixL _ hy (List.mem_map.mpr ⟨b, hb, rfl⟩) h
    · rename_i hs
      have hlen : (bs.filter (fun b => !new b)).length ≤ n := by
        have : (bs.filter new).length + (bs.filter (fun b => !new b)).length = bs.length := by
          clear hl hs ih h hy
          induction bs with
          | nil => rfl
          | cons b bs ih => by_cases h : new b = true <;> simp [h] <;> omega
        have h2 : (bs.filter new).length ≠ 0 := by
          intro e; exact hs (by rw [List.isEmpty_iff]; exact List.eq_nil_of_length_eq_zero e)
        omega
      have hy1 : y ∉ (bs.filter new).map (·.1) := by
        intro hc; obtain ⟨c, hc, e⟩ := List.mem_map.mp hc; exact hy (List.mem_map.mpr ⟨c, (List.mem_filter.mp hc).1, e⟩)
      have hy2 : y ∉ (bs.filter (fun b => !new b)).map (·.1) := by
        intro hc; obtain ⟨c, hc, e⟩ := List.mem_map.mp hc; exact hy (List.mem_map.mpr ⟨c, (List.mem_filter.mp hc).1, e⟩)
      rcases h with h | ⟨b, hb, h⟩
      · exact .appF _ (.lam hy1 (ih _ hlen hy2 (Or.inl h)))
      · by_cases hb' : new b = true
        · exact .appA _ (List.mem_map.mpr ⟨b, List.mem_filter.mpr ⟨hb, hb'⟩, rfl⟩) h
        · exact .appF _ (.lam hy1 (ih _ hlen hy2 (Or.inr ⟨b, List.mem_filter.mpr ⟨hb, by simp [hb']⟩, h⟩)))

theorem free_aroundOf {ss ls : List (Id × Exp)} {cs : List Id} {inner : Exp} {y : Id} (hy : y ∉ ss.map (·.1) ++ ls.map (·.1) ++ cs)
    (h : Free y inner ∨ (∃ b ∈ ss, Free y b.2) ∨ ∃ b ∈ ls, Free y b.2) : Free y (aroundOf ss cs ls inner) := by
  simp only [List.mem_append, not_or] at hy
  have hout : y ∉ ss.map (·.1) ++ cs := by simp only [List.mem_append, not_or]; exact ⟨hy.1.1, hy.2⟩
  rcases h with h | ⟨b, hb, h⟩ | h
  · exact .appF _ (.lam hout (free_refix _ _ (Nat.le_refl _) hy.1.2 (Or.inl h)))
  · exact .appA _ (List.mem_append_left _ (List.mem_map.mpr ⟨b, hb, rfl⟩)) h
  · exact .appF _ (.lam hout (free_refix _ _ (Nat.le_refl _) hy.1.2 (Or.inr h)))

theorem free_begins {body : Exp} {y : Id} : ∀ (es : List Exp) (k : Nat), y.ts < k → (Free y body ∨ ∃ e ∈ es, Free y e) → Free y (begins k es body).1 := by
  intro es
  induction es with
  | nil => intro k _ h; simpa [begins] using h
  | cons e es ih =>
    intro k hk h
    simp only [begins, beginExp]
    have hne : y ∉ [lexId k] := by
      intro hm; rw [List.mem_singleton.mp hm] at hk; simp [lexId] at hk
    rcases h with h | ⟨e', he', h⟩
    · exact .appF _ (.lam hne (ih (k + 1) (by omega) (Or.inl h)))
    · rcases List.mem_cons.mp he' with rfl | he'
      · exact .appA _ (List.mem_singleton.mpr rfl) h
      · exact .appF _ (.lam hne (ih (k + 1) (by omega) (Or.inr ⟨e', he', h⟩)))

theorem begins_le {body : Exp} : ∀ (es : List Exp) (k : Nat), k ≤ (begins k es body).2 := by
  intro es
  induction es with
  | nil => intro k; exact Nat.le_refl _
  | cons e es ih => intro k; simp only [begins]; exact Nat.le_of_succ_le (ih (k + 1))

/-! ### the two forms -/

theorem dead_begins {S : Id → Prop} {body : Exp} : ∀ (es : List Exp) (k : Nat), (∀ e ∈ es, quick P.K e = true) → (∀ y, S y → y.ts < k) → Dead P S body (begins k es body).1 := by
  intro es
  induction es with
  | nil => intro k _ _; exact .done body
  | cons e es ih =>
    intro k hq hS
    simp only [begins, beginExp]
    refine .cons (hq e (by simp)) ?_ (ih (k + 1) (fun e h => hq e (by simp [h])) (fun y hy => by have := hS y hy; omega))
    intro h; have := hS _ h; simp [lexId] at this

/-- What is known about a part and its fixed form. -/
abbrev Fixed (P : Par) (e e' : Exp) : Prop := LR P e e' ∧ ∀ y, Free y e → Free y e'

theorem f2_get {es es' : List Exp} (h : List.Forall₂ (Fixed P) es es') : ∀ {i : Nat} {e e' : Exp}, es[i]? = some e → es'[i]? = some e' → Fixed P e e' := by
  induction h with
  | nil => intro i e e' h; simp at h
  | cons h _ ih =>
    intro i e e' h1 h2
    cases i with
    | zero => simp only [List.getElem?_cons_zero, Option.some.injEq] at h1 h2; subst h1; subst h2; exact h
    | succ i => exact ih (by simpa using h1) (by simpa using h2)

theorem prs_get {ids0 : List Id} {vi : List (Id × Use)} : ∀ {ids : List Id} {es rs : List Exp}, es.length = ids.length → rs.length = ids.length →
    ∀ e ∈ es, ∃ c q, (c, q) ∈ prs ids0 vi ids es rs ∧ q.src = e := by
  intro ids
  induction ids with
  | nil => intro es rs h _ e he; rw [List.eq_nil_of_length_eq_zero h] at he; simp at he
  | cons x ids ih =>
    intro es rs h1 h2 e he
    cases es with
    | nil => simp at h1
    | cons a es =>
      cases rs with
      | nil => simp at h2
      | cons r rs =>
        rcases List.mem_cons.mp he with rfl | he
        · exact ⟨_, ⟨x, e, r⟩, List.mem_cons_self, rfl⟩
        · obtain ⟨c, q, h, hq⟩ := ih (by simpa using h1) (by simpa using h2) e he
          exact ⟨c, q, List.mem_cons_of_mem _ h, hq⟩

/-- Operands and their fixed forms. -/
theorem pairs_ok {ids : List Id} {rands rs : List Exp} {vi : List (Id × Use)} {ps : List (Kind × Pair)} (hps : prs ids vi ids rands rs = ps)
    (hr : List.Forall₂ (Fixed P) rands rs) {c : Kind} {q : Pair} (hq : q ∈ pk c ps) :
    classify ids vi q.id q.src = c ∧ Fixed P q.src q.tgt ∧ q.src ∈ rands ∧ ∃ i : Nat, ids[i]? = some q.id ∧ rands[i]? = some q.src := by
  rw [mem_pk, ← hps] at hq
  obtain ⟨h1, i, h2, h3, h4⟩ := mem_prs hq
  exact ⟨h1.symm, f2_get hr h3 h4, List.mem_of_getElem? h3, i, h2, h3⟩

/-- A `letrec` and what becomes of it. -/
theorem letrec_ok {f : Exp} {es : List Exp} {ids : List Id} {rands rs : List Exp} {body body' : Exp} (hp : letrecParts (.app f es) = some (ids, rands, body))
    (hi : Inv P k (.app f es)) (hb : Fixed P body body') (hr : List.Forall₂ (Fixed P) rands rs) :
    Fixed P (.app f es) (letrecResult k (classifyBindings ids rands body rs) body').1 ∧
      k ≤ (letrecResult k (classifyBindings ids rands body rs) body').2 := by
  obtain ⟨d, tmps, asg, hf, hel, hne, hv, hd, htl, hao⟩ := letrecParts_some hp
  have hg := hi.good
  simp only [Good] at hg
  have hok := hg.1 ids rands body hp
  subst hf
  have hv' : ∀ v ∈ es, ∃ eff, v = .prim eff .void [] := fun v h => (hi.appA v h).void (hv v h)
  have hi1 := hi.appF.lam
  have hi2 := hi1.appA _ (List.mem_singleton.mpr rfl)
  have hi3 := hi2.appF.lam
  have hnd := hi.uniq.1
  have hnf := hi.uniq.2
  have hm := hi.marks
  simp only [Marks, letExp, Markss] at hm
  have hil : ids.length = tmps.length := assignsOf_length hao
  have hrl : rands.length = ids.length := by omega
  have hsl : rs.length = ids.length := by rw [← hr.length_eq]; exact hrl
  have hU : ∀ x ∈ ids, P.U x = true ∧ x.isGlobal = false := by
    intro x hx
    refine ⟨?_, hi.loc x (by simp [binders, hx])⟩
    rw [hm.1 ids _ rfl x hx]
    have : letrecParts (.app (.lam ids (letExp [d] [letExp tmps rands asg] body)) es) = some (ids, rands, body) := hp
    simp only [letExp] at this
    rw [this]; rfl
  have hUt : ∀ t ∈ tmps, P.U t = false := by
    intro t ht
    rw [hm.2.1.2.2.1.1 tmps _ rfl t ht]
    cases tmps with
    | nil => simp at ht
    | cons t0 ts =>
      obtain ⟨d1, x1, b1, ids1, rfl, _, hx1, rfl, _⟩ := assignsOf_cons hao
      have h1 : letrecParts (.app (.lam (t0 :: ts) (letExp [d1] [.set x1 (.var t0)] b1)) rands) = none := by
        cases hq : letrecParts (.app (.lam (t0 :: ts) (letExp [d1] [.set x1 (.var t0)] b1)) rands) with
        | none => rfl
        | some p =>
          obtain ⟨ids2, rands2, body2⟩ := p
          obtain ⟨d2, tm2, asg2, hf2, _⟩ := letrecParts_some hq
          simp [letExp] at hf2
      have h2 : letrecStarParts (.app (.lam (t0 :: ts) (letExp [d1] [.set x1 (.var t0)] b1)) rands) = none := by
        cases hq : letrecStarParts (.app (.lam (t0 :: ts) (letExp [d1] [.set x1 (.var t0)] b1)) rands) with
        | none => rfl
        | some p =>
          obtain ⟨ids2, rands2, body2⟩ := p
          obtain ⟨ch2, hf2, _, _, _, hin⟩ := letrecStarParts_some hq
          injection hf2 with e1 e2
          subst e1; subst e2
          obtain ⟨d3, r3, b3, _, he3, _⟩ := initsOf_cons hin
          simp [letExp] at he3
          exact absurd he3.2.1 (fun h => hx1 (by simp [h]))
      rw [h1, h2]; rfl
  simp only [letExp, binders, bindersAll, List.append_nil] at hnd
  have hd_ids : d ∉ ids := by
    intro h
    rw [List.nodup_append] at hnd
    have := (List.nodup_append.mp hnd.1).2.2 d h d (by simp)
    exact this rfl
  have ht_ids : ∀ t ∈ tmps, t ∉ ids := by
    intro t ht h
    have := (List.nodup_append.mp (List.nodup_append.mp hnd).1).2.2 t h t (by simp [ht])
    exact this rfl
  have hids : ids.Nodup := (List.nodup_append.mp (List.nodup_append.mp hnd).1).1
  have htn : (tmps ++ binders asg).Nodup := by
    have h1 := (List.nodup_append.mp (List.nodup_append.mp hnd).1).2.1
    have h2 := (List.nodup_append.mp h1).2.1
    exact (List.nodup_append.mp h2).1
  have hai : ∀ x ∈ binders asg, x ∉ ids := by
    intro x hx h
    have := (List.nodup_append.mp (List.nodup_append.mp hnd).1).2.2 x h x (by simp [hx])
    exact this rfl
  have hS : ∀ y, occ rands body y → y ∉ ids → Free y (letExp ids es (letExp [d] [letExp tmps rands asg] body)) := by
    rintro y (⟨r, hr', h⟩ | h) hy
    · exact .appF _ (.lam hy (.appA _ (List.mem_singleton.mpr rfl) (.appA _ hr' h)))
    · refine .appF _ (.lam hy (.appF _ (.lam ?_ h)))
      intro hm'; rw [List.mem_singleton.mp hm'] at h; exact hd h
  have hSd : ¬ occ rands body d := fun h => hnf d (by simp [letExp, binders]) (hS d h hd_ids)
  have hSk : ∀ y, occ rands body y → y.ts < k := by
    intro y h
    by_cases hy : y ∈ ids
    · exact hi.bts y (by simp [binders, hy])
    · exact hi.fts y (hS y h hy)
  obtain ⟨ps, hps⟩ : ∃ ps, prs ids (vinfoAll rands (vinfo body)) ids rands rs = ps := ⟨_, rfl⟩
  have hpo := fun {c : Kind} {q : Pair} (hq : q ∈ pk c ps) => pairs_ok hps hr hq
  have hquick : ∀ r ∈ rands, quick P.K r = true := by
    intro r hr'
    obtain ⟨i, hir⟩ := List.mem_iff_getElem?.mp hr'
    have : i < ids.length := by rw [← hrl]; exact lt_of_get hir
    exact (hok i _ r (List.getElem?_eq_getElem this) hir).1
  have hnoc : pk .c ps = [] := by
    rw [List.eq_nil_iff_forall_not_mem]
    intro q hq
    obtain ⟨h1, _, _, i, h3, h4⟩ := hpo hq
    exact (hok i _ _ h3 h4).2 h1
  have sh := shape_of (body := body) hids hrl hsl hU hps (fun q hq => hquick _ (hpo hq).2.2.1) (fun q hq => (hpo hq).2.1.2)
  have hres : letrecResult k (classifyBindings ids rands body rs) body' =
      (aroundOf ((pk .s ps).map Pair.out) [] ((pk .l ps).map Pair.out) (begins k ((pk .u ps).map Pair.tgt) body').1, (begins k ((pk .u ps).map Pair.tgt) body').2) := by
    have : classifyBindings ids rands body rs = ps.map (fun p => ⟨p.1, p.2.id, p.2.tgt⟩) := by
      rw [classifyBindings, bnds_prs, hps]
    rw [this]
    simp only [letrecResult, ofKind_prs, hnoc, around_prs]
    simp [Function.comp_def]
  rw [hres]
  rw [hnoc] at sh
  refine ⟨⟨?_, ?_⟩, begins_le _ _⟩
  · refine LR.rec' sh hel.symm hv' hS ?_ (fun b hb' => (hpo hb').2.1.1) (fun b hb' => (hpo hb').2.1.1) hquick hrl hil.symm (List.nodup_append.mp htn).1
      (assignsOf_asg hao hi3 (fun x hx => (hU x hx).2) (fun t ht => ⟨hi2.loc t (by simp [letExp, binders, ht]), hUt t ht⟩)
        (fun x hx => ⟨hai x hx, fun ht => (List.nodup_append.mp htn).2.2 x ht x hx rfl⟩)) ?_ ht_ids hSd (fun y h => Or.inr h) (fun y h => Or.inl (Or.inr h)) hb.1 ?_
    · rintro y (h | h) hy
      · rcases h with ⟨r, hr', h⟩ | h
        · exact .appF _ (.lam hy (.appA _ (List.mem_singleton.mpr rfl) (.appA _ hr' h)))
        · refine .appF _ (.lam hy (.appF _ (.lam ?_ h)))
          intro hm'; rw [List.mem_singleton.mp hm'] at h; exact hd (assigned_free h)
      · simp at h
    · intro b hb'
      rcases List.mem_append.mp hb' with h | h
      · exact (hpo h).2.2.2
      · exact (hpo h).2.2.2
    · refine dead_begins _ _ (fun e he => ?_) hSk
      obtain ⟨q, hq, rfl⟩ := List.mem_map.mp he
      exact LR.quick (hpo hq).2.1.1 (hquick _ (hpo hq).2.2.1)
  · intro y hy
    have hyk := hi.fts y hy
    rcases free_app.mp hy with hy | ⟨e0, he0, hy⟩
    · obtain ⟨hyi, hy⟩ := free_lam.mp hy
      have hout : y ∉ ((pk .s ps).map Pair.out).map (·.1) ++ ((pk .l ps).map Pair.out).map (·.1) ++ [] := by
        intro hc
        refine hyi (sh.sub y ?_)
        simpa [Function.comp_def] using hc
      rcases free_app.mp hy with hy | ⟨e0, he0, hy⟩
      · exact free_aroundOf hout (Or.inl (free_begins _ _ hyk (Or.inl (hb.2 y (free_lam.mp hy).2))))
      · rw [List.mem_singleton.mp he0] at hy
        rcases free_app.mp hy with hy | ⟨r, hr', hy⟩
        · obtain ⟨hyt, hy⟩ := free_lam.mp hy
          rcases assignsOf_free hao hi3 y hy with h | h
          · exact absurd h hyi
          · exact absurd h hyt
        · obtain ⟨c, q, hq, rfl⟩ := prs_get (ids0 := ids) (vi := vinfoAll rands (vinfo body)) hrl hsl r hr'
          rw [hps, ← mem_pk] at hq
          have ht := (hpo hq).2.1.2 y hy
          cases c with
          | s => exact free_aroundOf hout (Or.inr (Or.inl ⟨q.out, List.mem_map.mpr ⟨q, hq, rfl⟩, ht⟩))
          | l => exact free_aroundOf hout (Or.inr (Or.inr ⟨q.out, List.mem_map.mpr ⟨q, hq, rfl⟩, ht⟩))
          | u => exact free_aroundOf hout (Or.inl (free_begins _ _ hyk (Or.inr ⟨_, List.mem_map.mpr ⟨q, hq, rfl⟩, ht⟩)))
          | c => rw [hnoc] at hq; simp at hq
    · obtain ⟨eff, rfl⟩ := hv' e0 he0
      cases hy with | prim _ _ hm => simp at hm

/-- the initializations. -/
theorem chain_lc {S A : Id → Prop} {qs : List Pair} {us : List Id} {body body' : Exp} {ids0 : List Id} {vi : List (Id × Use)} (hb : LR P body body')
    (hbS : ∀ y, Free y body → S y) (hbA : ∀ y, AssignedIn y body → A y) :
    ∀ (ids : List Id) (chain : Exp) (rands rs : List Exp) (k : Nat), initsOf ids chain = some (rands, body) → List.Forall₂ (Fixed P) rands rs →
    (∀ p ∈ prs ids0 vi ids rands rs, (p.1 = .s ∨ p.1 = .l → p.2 ∈ qs) ∧ (p.1 = .u → p.2.id ∈ us) ∧ (p.1 = .c → S p.2.id ∧ A p.2.id) ∧ p.2.id.isGlobal = false) →
    (∀ r ∈ rands, (∀ y, Free y r → S y) ∧ ∀ y, AssignedIn y r → A y) → (∀ d ∈ binders chain, ¬ S d ∧ (∀ q ∈ qs, q.id ≠ d) ∧ d ∉ us) → (∀ y, S y → y.ts < k) →
    LC P S A qs us chain (begins k (starInits ((prs ids0 vi ids rands rs).map (fun p => ⟨p.1, p.2.id, p.2.tgt⟩))) body').1 := by
  intro ids
  induction ids with
  | nil =>
    intro chain rands rs k h _ _ _ _ _
    simp only [initsOf, Option.some.injEq, Prod.mk.injEq] at h
    obtain ⟨rfl, rfl⟩ := h
    simp only [prs, List.map_nil, starInits, List.filter_nil, begins]
    exact .done hb hbS hbA
  | cons x ids ih =>
    intro chain rands rs k h hr hp hra hd hk
    obtain ⟨d, r, b, rands', rfl, _, rfl, h'⟩ := initsOf_cons h
    cases hr with
    | @cons _ r' _ rs' hr1 hr2 =>
      have hdd := hd d (by simp [letExp, binders])
      have hp0 := hp (classify ids0 vi x r, ⟨x, r, r'⟩) List.mem_cons_self
      have hk' : ∀ k' : Nat, k ≤ k' → ∀ y, S y → y.ts < k' := fun k' h y hy => by have := hk y hy; omega
      have hfresh : ¬ S (lexId k) := fun h => by have := hk _ h; simp [lexId] at this
      have go : ∀ k', k ≤ k' → LC P S A qs us b (begins k' (starInits ((prs ids0 vi ids rands' rs').map (fun p => ⟨p.1, p.2.id, p.2.tgt⟩))) body').1 :=
        fun k' hk1 => ih b rands' rs' k' h' hr2 (fun p h => hp p (List.mem_cons_of_mem _ h)) (fun r h => hra r (List.mem_cons_of_mem _ h))
          (fun d hd' => hd d (by simp [letExp, binders, hd'])) (hk' k' hk1)
      have hr0 := hra r List.mem_cons_self
      simp only [prs, List.map_cons]
      simp only at hp0
      generalize classify ids0 vi x r = c at hp0
      cases c with
      | s =>
        simp only [starInits]
        exact .q (q := ⟨x, r, r'⟩) (hp0.1 (Or.inl rfl)) hp0.2.2.2 hdd.1 hdd.2.1 hdd.2.2 (go k (Nat.le_refl _))
      | l =>
        simp only [starInits]
        exact .q (q := ⟨x, r, r'⟩) (hp0.1 (Or.inr rfl)) hp0.2.2.2 hdd.1 hdd.2.1 hdd.2.2 (go k (Nat.le_refl _))
      | c =>
        simp only [starInits]
        exact .c hr1.1 hr0.1 hr0.2 (hp0.2.2.1 rfl).1 (hp0.2.2.1 rfl).2 hdd.1 hfresh hdd.2.1 hdd.2.2 (go (k + 1) (Nat.le_succ _))
      | u =>
        simp only [starInits]
        exact .u (hp0.2.1 rfl) hp0.2.2.2 hr1.1 hr0.1 hr0.2 hdd.1 hfresh hdd.2.1 hdd.2.2 (go (k + 1) (Nat.le_succ _))

/-- A `letrec*` and what becomes of it. -/
theorem letrecStar_ok {f : Exp} {es : List Exp} {ids : List Id} {rands rs : List Exp} {body body' : Exp} (hp : letrecStarParts (.app f es) = some (ids, rands, body))
    (hi : Inv P k (.app f es)) (hb : Fixed P body body') (hr : List.Forall₂ (Fixed P) rands rs) :
    Fixed P (.app f es) (letrecStarResult k (classifyBindings ids rands body rs) body').1 ∧
      k ≤ (letrecStarResult k (classifyBindings ids rands body rs) body').2 := by
  obtain ⟨chain, hf, hel, hne, hv, hin⟩ := letrecStarParts_some hp
  have hg := hi.good
  simp only [Good] at hg
  have hok := hg.2.1 ids rands body hp
  subst hf
  have hv' : ∀ v ∈ es, ∃ eff, v = .prim eff .void [] := fun v h => (hi.appA v h).void (hv v h)
  have hnd := hi.uniq.1
  have hnf := hi.uniq.2
  have hm := hi.marks
  simp only [Marks] at hm
  have hrl : rands.length = ids.length := initsOf_length hin
  have hsl : rs.length = ids.length := by rw [← hr.length_eq]; exact hrl
  have hU : ∀ x ∈ ids, P.U x = true ∧ x.isGlobal = false := by
    intro x hx
    refine ⟨?_, hi.loc x (by simp [binders, hx])⟩
    rw [hm.1 ids _ rfl x hx, hp]; simp
  simp only [binders] at hnd
  have hids : ids.Nodup := (List.nodup_append.mp (List.nodup_append.mp hnd).1).1
  have hci : ∀ d ∈ binders chain, d ∉ ids := fun d hd h => (List.nodup_append.mp (List.nodup_append.mp hnd).1).2.2 d h d hd rfl
  have hfr := initsOf_free hin
  have hS : ∀ y, occ rands body y → y ∉ ids → Free y (letExp ids es chain) := fun y h hy => .appF _ (.lam hy ((hfr y).1 h))
  have hSd : ∀ d ∈ binders chain, ¬ occ rands body d := fun d hd h => hnf d (by simp [binders, hd]) (hS d h (hci d hd))
  have hSk : ∀ y, occ rands body y → y.ts < k := by
    intro y h
    by_cases hy : y ∈ ids
    · exact hi.bts y (by simp [binders, hy])
    · exact hi.fts y (hS y h hy)
  obtain ⟨ps, hps⟩ : ∃ ps, prs ids (vinfoAll rands (vinfo body)) ids rands rs = ps := ⟨_, rfl⟩
  have hpo := fun {c : Kind} {q : Pair} (hq : q ∈ pk c ps) => pairs_ok hps hr hq
  have hpi : ps.map (·.2.id) = ids := by rw [← hps]; exact prs_ids _ _ hrl hsl
  have hnp : (ps.map (·.2.id)).Nodup := by rw [hpi]; exact hids
  have hpid : ∀ {c : Kind} {q : Pair}, q ∈ pk c ps → q.id ∈ ids := by
    intro c q hq
    obtain ⟨_, _, _, i, h, _⟩ := hpo hq
    exact List.mem_of_getElem? h
  have sh := shape_of (body := body) hids hrl hsl hU hps (fun q hq => by
    obtain ⟨h1, _, _, i, h3, h4⟩ := hpo hq
    exact hok i _ _ h3 h4 h1) (fun q hq => (hpo hq).2.1.2)
  have hcb : classifyBindings ids rands body rs = ps.map (fun p => ⟨p.1, p.2.id, p.2.tgt⟩) := by
    rw [classifyBindings, bnds_prs, hps]
  rw [hcb]
  simp only [letrecStarResult, around_prs]
  have hasg : ∀ y, (asd rands body y ∨ y ∈ (pk .c ps).map Pair.id) → y ∉ ids → AssignedIn y (letExp ids es chain) := by
    rintro y (h | h) hy
    · exact .appF _ (.lam hy ((hfr y).2.1 h))
    · obtain ⟨q, hq, rfl⟩ := List.mem_map.mp h
      exact absurd (hpid hq) hy
  refine ⟨⟨?_, ?_⟩, begins_le _ _⟩
  · refine LR.star (us := (pk .u ps).map Pair.id) sh hel.symm hv' ?_ hS hasg (fun b hb' => (hpo hb').2.1.1) (fun b hb' => (hpo hb').2.1.1) ?_
    · intro x hx
      obtain ⟨q, hq, rfl⟩ := List.mem_map.mp hx
      refine ⟨hpid hq, fun hc => ?_⟩
      rcases List.mem_append.mp hc with hc | hc
      · rcases List.mem_append.mp hc with hc | hc
        · exact pk_disj (c := .s) (c' := .u) (by decide) hnp _ hc _ hx rfl
        · exact pk_disj (c := .l) (c' := .u) (by decide) hnp _ hc _ hx rfl
      · exact pk_disj (c := .c) (c' := .u) (by decide) hnp _ hc _ hx rfl
    · rw [← hps]
      refine chain_lc hb.1 (fun y h => Or.inr h) (fun y h => Or.inl (Or.inr h)) ids chain rands rs k hin hr ?_ (fun r h => ⟨fun y hy => Or.inl ⟨r, h, hy⟩, fun y hy => Or.inl (Or.inl ⟨r, h, hy⟩)⟩) ?_ hSk
      · rintro ⟨c, q⟩ hq
        rw [hps] at hq ⊢
        have hq' := mem_pk.mpr hq
        refine ⟨?_, ?_, ?_, (hU _ (hpid hq')).2⟩
        · rintro (rfl | rfl)
          · exact List.mem_append_left _ hq'
          · exact List.mem_append_right _ hq'
        · rintro rfl; exact List.mem_map.mpr ⟨q, hq', rfl⟩
        · rintro rfl
          have : q.id ∈ (pk .c ps).map Pair.id := List.mem_map.mpr ⟨q, hq', rfl⟩
          exact ⟨sh.asg _ (Or.inr this), Or.inr this⟩
      · intro d hd
        rw [hps]
        refine ⟨hSd d hd, fun q hq e => ?_, fun h => ?_⟩
        · subst e
          rcases List.mem_append.mp hq with h | h
          · exact hci _ hd (hpid h)
          · exact hci _ hd (hpid h)
        · obtain ⟨q, hq, rfl⟩ := List.mem_map.mp h
          exact hci _ hd (hpid hq)
  · intro y hy
    have hyk := hi.fts y hy
    rcases free_app.mp hy with hy | ⟨e0, he0, hy⟩
    · obtain ⟨hyi, hy⟩ := free_lam.mp hy
      have hout : y ∉ ((pk .s ps).map Pair.out).map (·.1) ++ ((pk .l ps).map Pair.out).map (·.1) ++ (pk .c ps).map Pair.id := by
        intro hc
        refine hyi (sh.sub y ?_)
        simpa [Function.comp_def] using hc
      rcases (hfr y).2.2 hy with h | ⟨r, hr', hy⟩ | hy
      · exact absurd h hyi
      · obtain ⟨c, q, hq, rfl⟩ := prs_get (ids0 := ids) (vi := vinfoAll rands (vinfo body)) hrl hsl r hr'
        rw [hps] at hq
        have hq' := mem_pk.mpr hq
        have ht := (hpo hq').2.1.2 y hy
        cases c with
        | s => exact free_aroundOf hout (Or.inr (Or.inl ⟨q.out, List.mem_map.mpr ⟨q, hq', rfl⟩, ht⟩))
        | l => exact free_aroundOf hout (Or.inr (Or.inr ⟨q.out, List.mem_map.mpr ⟨q, hq', rfl⟩, ht⟩))
        | u =>
          refine free_aroundOf hout (Or.inl (free_begins _ _ hyk (Or.inr ⟨q.tgt, ?_, ht⟩)))
          exact List.mem_map.mpr ⟨⟨.u, q.id, q.tgt⟩, List.mem_filter.mpr ⟨List.mem_map.mpr ⟨(.u, q), hq, rfl⟩, by simp⟩, by simp⟩
        | c =>
          refine free_aroundOf hout (Or.inl (free_begins _ _ hyk (Or.inr ⟨.set q.id q.tgt, ?_, .set _ ht⟩)))
          exact List.mem_map.mpr ⟨⟨.c, q.id, q.tgt⟩, List.mem_filter.mpr ⟨List.mem_map.mpr ⟨(.c, q), hq, rfl⟩, by simp⟩, by simp⟩
      · exact free_aroundOf hout (Or.inl (free_begins _ _ hyk (Or.inl (hb.2 y hy))))
    · obtain ⟨eff, rfl⟩ := hv' e0 he0
      cases hy with | prim _ _ hm => simp at hm

/-! ### the pass -/

theorem mapK_ok {f : Nat → Exp → Exp × Nat} (hf : ∀ k e, Inv P k e → Fixed P e (f k e).1 ∧ k ≤ (f k e).2) : ∀ (es : List Exp) (k : Nat), (∀ e ∈ es, Inv P k e) →
    List.Forall₂ (Fixed P) es (mapK f k es).1 ∧ k ≤ (mapK f k es).2 := by
  intro es
  induction es with
  | nil => intro k _; exact ⟨.nil, Nat.le_refl _⟩
  | cons e es ih =>
    intro k h
    obtain ⟨h1, k1⟩ := hf k e (h e List.mem_cons_self)
    obtain ⟨h2, k2⟩ := ih (f k e).2 (fun e' he' => (h e' (List.mem_cons_of_mem _ he')).mono k1)
    exact ⟨.cons h1 h2, Nat.le_trans k1 k2⟩

theorem f2_lrs {es es' : List Exp} (h : List.Forall₂ (Fixed P) es es') : LRs P es es' := by
  induction h with
  | nil => exact .nil
  | cons h _ ih => exact .cons h.1 ih

theorem f2_free {es es' : List Exp} (h : List.Forall₂ (Fixed P) es es') {y : Id} {e : Exp} (he : e ∈ es) (hy : Free y e) : ∃ e' ∈ es', Free y e' := by
  induction h with
  | nil => simp at he
  | cons h _ ih =>
    rcases List.mem_cons.mp he with rfl | he
    · exact ⟨_, List.mem_cons_self, h.2 y hy⟩
    · obtain ⟨e', h1, h2⟩ := ih he
      exact ⟨e', List.mem_cons_of_mem _ h1, h2⟩

/-- operands and body of a `letrec` satisfy the conditions, too. -/
theorem letrecParts_inv {f : Exp} {es : List Exp} {ids : List Id} {rands : List Exp} {body : Exp} (hp : letrecParts (.app f es) = some (ids, rands, body))
    (hi : Inv P k (.app f es)) : (∀ r ∈ rands, Inv P k r) ∧ Inv P k body := by
  obtain ⟨d, tmps, asg, rfl, _⟩ := letrecParts_some hp
  have hi1 := hi.appF.lam
  exact ⟨(hi1.appA _ (List.mem_singleton.mpr rfl)).appA, hi1.appF.lam⟩

theorem letrecStarParts_inv {f : Exp} {es : List Exp} {ids : List Id} {rands : List Exp} {body : Exp} (hp : letrecStarParts (.app f es) = some (ids, rands, body))
    (hi : Inv P k (.app f es)) : (∀ r ∈ rands, Inv P k r) ∧ Inv P k body := by
  obtain ⟨chain, rfl, _, _, _, hin⟩ := letrecStarParts_some hp
  exact initsOf_inv hin hi.appF.lam

/-- The pass turns a program into a fixed form of it. -/
theorem fixL_ok : ∀ (n k : Nat) (e : Exp), Inv P k e → Fixed P e (fixL n k e).1 ∧ k ≤ (fixL n k e).2 := by
  intro n
  induction n with
  | zero => intro k e h; exact ⟨⟨LR.refl e h.good, fun _ h => h⟩, Nat.le_refl _⟩
  | succ n ih =>
    intro k e h
    have ihm := fun es k (h : ∀ e ∈ es, Inv P k e) => mapK_ok (f := fixL n) ih es k h
    cases e with
    | var x => exact ⟨⟨.var x, fun _ h => h⟩, Nat.le_refl _⟩
    | set x e =>
      obtain ⟨h1, k1⟩ := ih k e h.set
      refine ⟨⟨.set h1.1, fun y hy => ?_⟩, k1⟩
      rcases free_set.mp hy with rfl | hy
      · exact free_set.mpr (Or.inl rfl)
      · exact free_set.mpr (Or.inr (h1.2 y hy))
    | ite a b c =>
      obtain ⟨h1, k1⟩ := ih k a h.iteA
      obtain ⟨h2, k2⟩ := ih _ b (h.iteB.mono k1)
      obtain ⟨h3, k3⟩ := ih _ c (h.iteC.mono (Nat.le_trans k1 k2))
      refine ⟨⟨.ite h1.1 h2.1 h3.1, fun y hy => ?_⟩, Nat.le_trans k1 (Nat.le_trans k2 k3)⟩
      cases hy with
      | iteA _ _ hy => exact .iteA _ _ (h1.2 y hy)
      | iteB _ _ hy => exact .iteB _ _ (h2.2 y hy)
      | iteC _ _ hy => exact .iteC _ _ (h3.2 y hy)
    | prim eff p es =>
      obtain ⟨h1, k1⟩ := ihm es k h.prim
      refine ⟨⟨.prim (f2_lrs h1), fun y hy => ?_⟩, k1⟩
      cases hy with
      | prim _ _ he hy =>
        obtain ⟨e', he', hy'⟩ := f2_free h1 he hy
        exact .prim _ _ he' hy'
    | lam ids b =>
      obtain ⟨h1, k1⟩ := ih k b h.lam
      exact ⟨⟨.lam h1.1, fun y hy => .lam (free_lam.mp hy).1 (h1.2 y (free_lam.mp hy).2)⟩, k1⟩
    | fix ids lams b => exact absurd h.good (by simp [Good])
    | letcc x b =>
      obtain ⟨h1, k1⟩ := ih k b h.letcc
      refine ⟨⟨.letcc h1.1, fun y hy => ?_⟩, k1⟩
      cases hy with | letcc hn hy => exact .letcc hn (h1.2 y hy)
    | withcc c e =>
      obtain ⟨h1, k1⟩ := ih k c h.withccK
      obtain ⟨h2, k2⟩ := ih _ e (h.withccE.mono k1)
      refine ⟨⟨.withcc h1.1 h2.1, fun y hy => ?_⟩, Nat.le_trans k1 k2⟩
      cases hy with
      | withccK _ hy => exact .withccK _ (h1.2 y hy)
      | withccE _ hy => exact .withccE _ (h2.2 y hy)
    | app f es =>
      unfold fixL
      simp only
      split
      · rename_i hdeg
        simp only [isDegLet, Bool.or_eq_true] at hdeg
        rcases hdeg with hn | hid
        · unfold isNullLet at hn
          split at hn
          · rename_i b he
            injection he with he1 he2
            subst he1; subst he2
            obtain ⟨h1, k1⟩ := ih k b h.appF.lam
            refine ⟨⟨.null h1.1, fun y hy => h1.2 y ?_⟩, k1⟩
            rcases free_app.mp hy with hy | ⟨e0, he0, _⟩
            · exact (free_lam.mp hy).2
            · simp at he0
          · cases hn
        · unfold isIdLet at hid
          split at hid
          · rename_i x z e he
            injection he with he1 he2
            subst he1; subst he2
            have : x = z := by simpa using hid
            subst this
            obtain ⟨h1, k1⟩ := ih k e (h.appA e (List.mem_singleton.mpr rfl))
            refine ⟨⟨.idl (h.loc x (by simp [binders])) h1.1, fun y hy => h1.2 y ?_⟩, k1⟩
            rcases free_app.mp hy with hy | ⟨e0, he0, hy⟩
            · obtain ⟨h2, h3⟩ := free_lam.mp hy
              rw [free_var.mp h3] at h2
              exact absurd (List.mem_singleton.mpr rfl) h2
            · rw [List.mem_singleton.mp he0] at hy; exact hy
          · cases hid
      · split
        · rename_i ids rands body hp
          obtain ⟨i1, i2⟩ := letrecParts_inv hp h
          obtain ⟨h1, k1⟩ := ihm rands k i1
          obtain ⟨h2, k2⟩ := ih _ body (i2.mono k1)
          obtain ⟨h3, k3⟩ := letrec_ok hp (h.mono (Nat.le_trans k1 k2)) h2 h1
          exact ⟨h3, Nat.le_trans k1 (Nat.le_trans k2 k3)⟩
        · split
          · rename_i ids rands body hp
            obtain ⟨i1, i2⟩ := letrecStarParts_inv hp h
            obtain ⟨h1, k1⟩ := ihm rands k i1
            obtain ⟨h2, k2⟩ := ih _ body (i2.mono k1)
            obtain ⟨h3, k3⟩ := letrecStar_ok hp (h.mono (Nat.le_trans k1 k2)) h2 h1
            exact ⟨h3, Nat.le_trans k1 (Nat.le_trans k2 k3)⟩
          · obtain ⟨h1, k1⟩ := ih k f h.appF
            obtain ⟨h2, k2⟩ := ihm es _ (fun e he => (h.appA e he).mono k1)
            refine ⟨⟨.app h1.1 (f2_lrs h2), fun y hy => ?_⟩, Nat.le_trans k1 k2⟩
            rcases free_app.mp hy with hy | ⟨e0, he0, hy⟩
            · exact .appF _ (h1.2 y hy)
            · obtain ⟨e', he', hy'⟩ := f2_free h2 he0 hy
              exact .appA _ he' hy'

/-! ### the variables of `letrec` -/

theorem letrecParts_lam {f : Exp} {es : List Exp} {p : List Id × List Exp × Exp} (h : letrecParts (.app f es) = some p) : ∃ b, f = .lam p.1 b := by
  obtain ⟨ids, rands, body⟩ := p
  obtain ⟨d, tmps, asg, hf, _⟩ := letrecParts_some h
  exact ⟨_, hf⟩

theorem letrecStarParts_lam {f : Exp} {es : List Exp} {p : List Id × List Exp × Exp} (h : letrecStarParts (.app f es) = some p) : ∃ b, f = .lam p.1 b := by
  obtain ⟨ids, rands, body⟩ := p
  obtain ⟨chain, hf, _⟩ := letrecStarParts_some h
  exact ⟨_, hf⟩

/-- the variables that an application itself binds by `letrec`. -/
def ownIds (f : Exp) (es : List Exp) : List Id :=
  match letrecParts (.app f es) with
  | some (ids, _, _) => ids
  | none => match letrecStarParts (.app f es) with
    | some (ids, _, _) => ids
    | none => []

theorem recIds_app (f : Exp) (es : List Exp) : recIds (.app f es) = ownIds f es ++ recIds f ++ recIdsAll es := by
  rw [recIds]; rfl

theorem ownIds_spec {f : Exp} {es : List Exp} : (∀ x ∈ ownIds f es, ∃ ids b, f = .lam ids b ∧ x ∈ ids ∧ ((letrecParts (.app f es)).isSome || (letrecStarParts (.app f es)).isSome) = true) ∧
    (∀ ids b, f = .lam ids b → ((letrecParts (.app f es)).isSome || (letrecStarParts (.app f es)).isSome) = true → ownIds f es = ids) := by
  unfold ownIds
  cases h1 : letrecParts (.app f es) with
  | some p =>
    obtain ⟨b, hb⟩ := letrecParts_lam h1
    refine ⟨fun x hx => ⟨p.1, b, hb, hx, rfl⟩, fun ids b' hb' _ => ?_⟩
    rw [hb] at hb'; injection hb' with h _
  | none =>
    cases h2 : letrecStarParts (.app f es) with
    | some p =>
      obtain ⟨b, hb⟩ := letrecStarParts_lam h2
      refine ⟨fun x hx => ⟨p.1, b, hb, hx, rfl⟩, fun ids b' hb' _ => ?_⟩
      rw [hb] at hb'; injection hb' with h _
    | none =>
      refine ⟨fun x hx => ?_, fun ids b' hb' h => ?_⟩
      · simp at hx
      · simp at h

mutual
theorem recIds_binders : (e : Exp) → ∀ x ∈ recIds e, x ∈ binders e
  | .var _, x, h => by simp [recIds] at h
  | .set _ e, x, h => by simp only [recIds, binders] at h ⊢; exact recIds_binders e x h
  | .ite a b c, x, h => by
    simp only [recIds, binders, List.mem_append] at h ⊢
    rcases h with (h | h) | h
    · exact Or.inl (recIds_binders a x h)
    · exact Or.inr (Or.inl (recIds_binders b x h))
    · exact Or.inr (Or.inr (recIds_binders c x h))
  | .prim _ _ es, x, h => by simp only [recIds, binders] at h ⊢; exact recIdsAll_binders es x h
  | .app f es, x, h => by
    rw [recIds_app] at h
    simp only [binders, List.mem_append] at h ⊢
    rcases h with (h | h) | h
    · obtain ⟨ids, b, rfl, hx, _⟩ := ownIds_spec.1 x h
      exact Or.inl (by simp [binders, hx])
    · exact Or.inl (recIds_binders f x h)
    · exact Or.inr (recIdsAll_binders es x h)
  | .lam _ b, x, h => by simp only [recIds, binders, List.mem_append] at h ⊢; exact Or.inr (recIds_binders b x h)
  | .fix _ lams b, x, h => by
    simp only [recIds, binders, List.mem_append] at h ⊢
    rcases h with h | h
    · exact Or.inr (Or.inl (recIdsAll_binders lams x h))
    · exact Or.inr (Or.inr (recIds_binders b x h))
  | .letcc _ b, x, h => by simp only [recIds, binders, List.mem_cons] at h ⊢; exact Or.inr (recIds_binders b x h)
  | .withcc c e, x, h => by
    simp only [recIds, binders, List.mem_append] at h ⊢
    rcases h with h | h
    · exact Or.inl (recIds_binders c x h)
    · exact Or.inr (recIds_binders e x h)
theorem recIdsAll_binders : (es : List Exp) → ∀ x ∈ recIdsAll es, x ∈ bindersAll es
  | [], x, h => by simp [recIdsAll] at h
  | e :: es, x, h => by
    simp only [recIdsAll, bindersAll, List.mem_append] at h ⊢
    rcases h with h | h
    · exact Or.inl (recIds_binders e x h)
    · exact Or.inr (recIdsAll_binders es x h)
end

theorem noOwn {U : Id → Bool} {e : Exp} {O : Id → Prop} {l r : List Id} (hO : ∀ x, O x → ∃ ids b, e = .lam ids b ∧ x ∈ ids) (hn : ∀ ids b, e ≠ .lam ids b)
    (h : ∀ x ∈ l, U x = true ↔ O x ∨ x ∈ r) : ∀ x ∈ l, U x = true ↔ x ∈ r := by
  intro x hx
  rw [h x hx]
  refine ⟨fun h => h.elim (fun h => ?_) id, Or.inr⟩
  obtain ⟨ids, b, h, _⟩ := hO x h
  exact absurd h (hn ids b)

theorem addOwn {a b : Prop} (h : a ↔ b) : a ↔ False ∨ b := by rw [false_or]; exact h

mutual
/-- If ids are bound once only, the variables of `letrec` are told apart from others by their ids; `O` are parameters
of the expression itself, if it is a procedure, that are variables of a `letrec`. -/
theorem marks_of (U : Id → Bool) : (e : Exp) → (O : Id → Prop) → (∀ x, O x → ∃ ids b, e = .lam ids b ∧ x ∈ ids) → (binders e).Nodup →
    (∀ x ∈ binders e, U x = true ↔ O x ∨ x ∈ recIds e) → Marks U e
  | .var _, _, _, _, _ => trivial
  | .set _ e, O, hO, hn, h => by
    have h := noOwn hO (by intro _ _ e; cases e) h
    simp only [binders, recIds, Marks] at *
    exact marks_of U e (fun _ => False) (fun _ h => h.elim) hn fun x hx => addOwn (h x hx)
  | .ite a b c, O, hO, hn, h => by
    have h := noOwn hO (by intro _ _ e; cases e) h
    simp only [binders, recIds, Marks, List.nodup_append, List.mem_append] at *
    refine ⟨marks_of U a (fun _ => False) (fun _ h => h.elim) hn.1 fun x hx => addOwn <| ?_, marks_of U b (fun _ => False) (fun _ h => h.elim) hn.2.1.1 fun x hx => addOwn <| ?_, marks_of U c (fun _ => False) (fun _ h => h.elim) hn.2.1.2.1 fun x hx => addOwn <| ?_⟩
    · rw [h x (Or.inl hx)]
      refine ⟨fun hr => ?_, fun hr => Or.inl (Or.inl hr)⟩
      rcases hr with (hr | hr) | hr
      · exact hr
      · exact absurd rfl (hn.2.2 x hx x (Or.inl (recIds_binders b x hr)))
      · exact absurd rfl (hn.2.2 x hx x (Or.inr (recIds_binders c x hr)))
    · rw [h x (Or.inr (Or.inl hx))]
      refine ⟨fun hr => ?_, fun hr => Or.inl (Or.inr hr)⟩
      rcases hr with (hr | hr) | hr
      · exact absurd rfl (hn.2.2 x (recIds_binders a x hr) x (Or.inl hx))
      · exact hr
      · exact absurd rfl (hn.2.1.2.2 x hx x (recIds_binders c x hr))
    · rw [h x (Or.inr (Or.inr hx))]
      refine ⟨fun hr => ?_, fun hr => Or.inr hr⟩
      rcases hr with (hr | hr) | hr
      · exact absurd rfl (hn.2.2 x (recIds_binders a x hr) x (Or.inr hx))
      · exact absurd rfl (hn.2.1.2.2 x (recIds_binders b x hr) x hx)
      · exact hr
  | .prim _ _ es, O, hO, hn, h => by
    have h := noOwn hO (by intro _ _ e; cases e) h
    simp only [binders, recIds, Marks] at *
    exact markss_of U es hn h
  | .lam ids b, O, hO, hn, h => by
    simp only [binders, recIds, Marks, List.nodup_append, List.mem_append] at *
    refine marks_of U b (fun _ => False) (fun _ h => h.elim) hn.2.1 fun x hx => ?_
    rw [h x (Or.inr hx), false_or]
    refine ⟨fun hr => hr.elim (fun hr => ?_) id, Or.inr⟩
    obtain ⟨ids', b', e, hx'⟩ := hO x hr
    injection e with e1 e2
    subst e1
    exact absurd rfl (hn.2.2 x hx' x hx)
  | .fix ids lams b, O, hO, hn, h => by
    have h := noOwn hO (by intro _ _ e; cases e) h
    simp only [binders, recIds, Marks, List.nodup_append, List.mem_append] at *
    refine ⟨markss_of U lams hn.2.1.1 fun x hx => ?_, marks_of U b (fun _ => False) (fun _ h => h.elim) hn.2.1.2.1 fun x hx => addOwn <| ?_⟩
    · rw [h x (Or.inr (Or.inl hx))]
      exact ⟨fun hr => hr.elim id fun hr => absurd rfl (hn.2.1.2.2 x hx x (recIds_binders b x hr)), Or.inl⟩
    · rw [h x (Or.inr (Or.inr hx))]
      exact ⟨fun hr => hr.elim (fun hr => absurd rfl (hn.2.1.2.2 x (recIdsAll_binders lams x hr) x hx)) id, Or.inr⟩
  | .letcc y b, O, hO, hn, h => by
    have h := noOwn hO (by intro _ _ e; cases e) h
    simp only [binders, recIds, Marks, List.nodup_cons, List.mem_cons] at *
    exact marks_of U b (fun _ => False) (fun _ h => h.elim) hn.2 fun x hx => addOwn <| h x (Or.inr hx)
  | .withcc c e, O, hO, hn, h => by
    have h := noOwn hO (by intro _ _ e; cases e) h
    simp only [binders, recIds, Marks, List.nodup_append, List.mem_append] at *
    refine ⟨marks_of U c (fun _ => False) (fun _ h => h.elim) hn.1 fun x hx => addOwn <| ?_, marks_of U e (fun _ => False) (fun _ h => h.elim) hn.2.1 fun x hx => addOwn <| ?_⟩
    · rw [h x (Or.inl hx)]
      exact ⟨fun hr => hr.elim id fun hr => absurd rfl (hn.2.2 x hx x (recIds_binders e x hr)), Or.inl⟩
    · rw [h x (Or.inr hx)]
      exact ⟨fun hr => hr.elim (fun hr => absurd rfl (hn.2.2 x (recIds_binders c x hr) x hx)) id, Or.inr⟩
  | .app f es, O, hO, hn, h => by
    have h := noOwn hO (by intro _ _ e; cases e) h
    rw [recIds_app] at h
    simp only [binders, Marks, List.nodup_append, List.mem_append] at *
    refine ⟨?_, marks_of U f (· ∈ ownIds f es) (fun x h => by obtain ⟨ids, b, h1, h2, _⟩ := ownIds_spec.1 x h; exact ⟨ids, b, h1, h2⟩) hn.1 fun x hx => ?_, markss_of U es hn.2.1 fun x hx => ?_⟩
    · rintro ids b rfl x hx
      simp only [binders, List.nodup_append, List.mem_append] at hn h
      have h' := h x (Or.inl (Or.inl hx))
      rw [Bool.eq_iff_iff, h']
      constructor
      · rintro ((hr | hr) | hr)
        · obtain ⟨_, _, _, _, h⟩ := ownIds_spec.1 x hr; exact h
        · exact absurd rfl (hn.1.2.2 x hx x (recIds_binders b x (by simpa [recIds] using hr)))
        · exact absurd rfl (hn.2.2 x (Or.inl hx) x (recIdsAll_binders es x hr))
      · intro hs
        rw [ownIds_spec.2 ids b rfl hs]
        exact Or.inl (Or.inl hx)
    · rw [h x (Or.inl hx)]
      constructor
      · rintro ((hr | hr) | hr)
        · exact Or.inl hr
        · exact Or.inr hr
        · exact absurd rfl (hn.2.2 x hx x (recIdsAll_binders es x hr))
      · rintro (hr | hr)
        · exact Or.inl (Or.inl hr)
        · exact Or.inl (Or.inr hr)
    · rw [h x (Or.inr hx)]
      constructor
      · rintro ((hr | hr) | hr)
        · obtain ⟨ids, b, rfl, hx', _⟩ := ownIds_spec.1 x hr
          exact absurd rfl (hn.2.2 x (by simp [binders, hx']) x hx)
        · exact absurd rfl (hn.2.2 x (recIds_binders f x hr) x hx)
        · exact hr
      · exact Or.inr
theorem markss_of (U : Id → Bool) : (es : List Exp) → (bindersAll es).Nodup → (∀ x ∈ bindersAll es, U x = true ↔ x ∈ recIdsAll es) → Markss U es
  | [], _, _ => trivial
  | e :: es, hn, h => by
    simp only [bindersAll, recIdsAll, Markss, List.nodup_append, List.mem_append] at *
    refine ⟨marks_of U e (fun _ => False) (fun _ h => h.elim) hn.1 fun x hx => addOwn <| ?_, markss_of U es hn.2.1 fun x hx => ?_⟩
    · rw [h x (Or.inl hx)]
      exact ⟨fun hr => hr.elim id fun hr => absurd rfl (hn.2.2 x hx x (recIdsAll_binders es x hr)), Or.inl⟩
    · rw [h x (Or.inr hx)]
      exact ⟨fun hr => hr.elim (fun hr => absurd rfl (hn.2.2 x (recIds_binders e x hr) x hx)) id, Or.inr⟩
end

theorem marks_recIds {e : Exp} (hn : (binders e).Nodup) : Marks (fun x => decide (x ∈ recIds e)) e :=
  marks_of _ e (fun _ => False) (fun _ h => h.elim) hn (fun x _ => by simp)

end Verif.Letrec

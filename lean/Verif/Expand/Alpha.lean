import Verif.Expand.Top
/-
Renaming the variables of a `lambda` expression.
-/
namespace Verif.Expand
open Verif.Macros

section
variable {h : Host} {gl : Bool}

/-- answers of the top level that correspond. -/
def ProgA (h : Host) (N : IdRel) (sh : Nat) (gl : Bool) (a a' : Ans) : Prop :=
  (∃ os st ln os' st', a = .prog os st ln ∧ a' = .prog os' st' ln ∧ List.Forall₂ (OutRel h N) os os' ∧ StoreRel h N sh gl st st') ∨
    ∃ o o', a = .out o ∧ a' = .out o' ∧ OutRel h N o o'

theorem expandFrom_sim {N : IdRel} {sh : Nat} {P : String → Prop} (hP : gl = false → ∀ a, P a → Tame a)
    (hN : ∀ s s', N s s' → s.2.2 = s'.2.2) (hclo : ∀ s s' a l, N s s' → N (s.1, .num a, l) (s'.1, .num (a + sh), l))
    (hrefl : ∀ s, N s s) (n : Nat) {forms : List Sx} (hf : ∀ x ∈ forms, Plain P x) {st st' : Store} (hs : StoreRel h N sh gl st st')
    (ln i : Nat) : Q (ProgA h N sh gl) (expandFrom h gl n forms st ln i) (expandFrom h false n forms st' ln (i + sh)) := by
  have hx : List.Forall₂ (SxRel (symR P)) forms forms := by
    clear hs
    induction forms with
    | nil => exact .nil
    | cons x xs ih => exact .cons (hf x List.mem_cons_self).rel (ih fun y hy => hf y (List.mem_cons_of_mem _ hy))
  have := topN_sim (gl := gl) (sh := sh) hN (A := ProgA h N sh gl) (fun o o' ho => Or.inr ⟨o, o', rfl, rfl, ho⟩) n (fs := []) (fs' := []) (ln := ln)
    (k := fun st ln acc => some (.prog acc.reverse st ln)) (k' := fun st ln acc => some (.prog acc.reverse st ln)) hx
    (symR_good hP N hclo hrefl i) hs .nil ?_
  · simpa only [expandFrom, List.append_nil] using this
  · intro m st st' ln acc acc' hs hacc
    cases m with
    | zero => exact Q.none
    | succ m =>
      intro a ha
      simp only [topN, topF, Option.some.injEq] at ha ⊢
      subst ha
      exact ⟨_, rfl, Or.inl ⟨_, _, _, _, _, rfl, rfl, List.rel_reverse hacc, hs⟩⟩

theorem outs_eq {os os' : List Out} (ho : List.Forall₂ (OutRel h Eq) os os') : os = os' := by
  induction ho with
  | nil => rfl
  | cons a b ih => rw [a.eq, ih]

/-- The program before: the store without the switch is related to the store with it. -/
theorem prefix_sim {P : String → Prop} (hP : gl = false → ∀ a, P a → Tame a) {n : Nat} {pre : List Sx} (hf : ∀ x ∈ pre, Plain P x)
    {os : List Out} {st : Store} {ln : Nat} (hr : expandTop h gl n pre builtinStore 0 = some (.prog os st ln)) :
    ∃ st', expandTop h false n pre builtinStore 0 = some (.prog os st' ln) ∧ StoreRel h Eq 0 gl st st' := by
  obtain ⟨a', h1, h2⟩ := expandFrom_sim (N := Eq) (sh := 0) hP (by rintro s _ rfl; rfl) eqClo (fun _ => rfl) n hf (builtinStore_rel Eq) 0 0 _ hr
  rcases h2 with ⟨_, _, _, _, st', h3, rfl, h4, h5⟩ | ⟨_, _, h3, _⟩
  · cases h3
    rw [← outs_eq h4] at h1
    exact ⟨st', h1, h5⟩
  · cases h3

/-! ### binding the formals -/

/-- corresponding environments that bind what corresponds. -/
def PairsRel (R : IdRel) : Env → Env → Prop := List.Forall₂ fun p p' => idR R p.1 p'.1 ∧ p.2 = p'.2 ∧ ∃ n, p.2 = Key.num n

theorem pairs_look {R : IdRel} (hids : ∀ s s' t t', R s s' → R t t' → (s.2.1 = t.2.1 ↔ s'.2.1 = t'.2.1)) {k k' : Key} (hk : idR R k k') :
    ∀ {e e' : Env}, PairsRel R e e' → assv k e = assv k' e'
  | _, _, .nil => rfl
  | (a, b) :: _, (a', b') :: _, .cons h1 h2 => by
    obtain ⟨⟨t, t', ht, q1, q2⟩, h3, _⟩ := h1
    obtain ⟨s, s', hs, q3, q4⟩ := hk
    simp only at q1 q2 h3
    have := hids s s' t t' hs ht
    rw [q1, q2, q3, q4] at this
    simp only [assv, this, h3]
    split
    · rfl
    · exact pairs_look hids ⟨s, s', hs, q3, q4⟩ h2

theorem bindFormals_pairs {N R : IdRel} {sh : Nat} (hname : ∀ s s', R s s' → N s s') : ∀ {fs fs' : List Sx}, List.Forall₂ (SxRel R) fs fs' →
    ∀ {e e' : Env} {st st' : Store} (ln : Nat), PairsRel R e e' → StoreRel h N sh gl st st' →
    List.Forall₂ (VarRel N) (bindFormals fs e st ln).1 (bindFormals fs' e' st' ln).1 ∧
    PairsRel R (bindFormals fs e st ln).2.1 (bindFormals fs' e' st' ln).2.1 ∧
    StoreRel h N sh gl (bindFormals fs e st ln).2.2.1 (bindFormals fs' e' st' ln).2.2.1 ∧
    (bindFormals fs e st ln).2.2.2 = (bindFormals fs' e' st' ln).2.2.2
  | _, _, .nil, _, _, _, _, _, hg, hs => ⟨.nil, hg, hs, rfl⟩
  | _, _, .cons h1 h2, e, e', st, st', ln, hg, hs => by
    cases h1 with
    | sid r =>
      simp only [bindFormals]
      have hv : VarRel N (.loc ln _) (.loc ln _) := .loc ln ⟨_, _, _, _, hname _ _ r⟩
      rename_i a b c a' b' c'
      have hp : PairsRel R ((b, .num ln) :: e) ((b', .num ln) :: e') := .cons ⟨⟨_, _, r, rfl, rfl⟩, rfl, ln, rfl⟩ hg
      obtain ⟨q1, q2, q3, q4⟩ := bindFormals_pairs hname h2 (ln + 1) hp (hs.cons ln (.var hv))
      exact ⟨.cons hv q1, q2, q3, q4⟩
    | _ =>
      simp only [bindFormals]
      exact bindFormals_pairs hname h2 ln hg hs

theorem bindFormals_mono (k : Key) : ∀ (fs : List Sx) (e : Env) (st : Store) (ln : Nat), (assv k e).isSome = true →
    (assv k (bindFormals fs e st ln).2.1).isSome = true
  | [], _, _, _, hk => hk
  | .sid a b c :: fs, e, st, ln, hk => by
    simp only [bindFormals]
    refine bindFormals_mono k fs _ _ _ ?_
    simp only [assv]
    split
    · rfl
    · exact hk
  | .nil :: fs, e, st, ln, hk | .atom _ :: fs, e, st, ln, hk | .vec _ :: fs, e, st, ln, hk | .pair _ _ :: fs, e, st, ln, hk => by
    simp only [bindFormals]
    exact bindFormals_mono k fs _ _ _ hk

theorem bindFormals_mem {a : String} {b c : Key} : ∀ {fs : List Sx} (e : Env) (st : Store) (ln : Nat), Sx.sid a b c ∈ fs →
    (assv b (bindFormals fs e st ln).2.1).isSome = true
  | f :: fs, e, st, ln, hf => by
    rcases List.mem_cons.mp hf with rfl | hf2
    · simp only [bindFormals]
      exact bindFormals_mono b fs _ _ _ (by simp [assv])
    · cases f <;> simp only [bindFormals] <;> exact bindFormals_mem _ _ _ hf2

/-! ### the renaming -/

/-- symbols other than `x` and `y` are themselves, `x` is `y`. -/
def renR (P : String → Prop) (x y : String) : IdRel := fun s s' =>
  (symR P s s' ∧ s.1 ≠ x ∧ s.1 ≠ y) ∨ (s = (x, .sym x, .sym x) ∧ s' = (y, .sym y, .sym y))

theorem ren_isList (x y : String) : ∀ (z : Sx), isList (ren x y z) = isList z
  | .pair a d => by simpa only [ren, isList] using ren_isList x y d
  | .sid a b c => by simp only [ren]; split <;> rfl
  | .nil => rfl
  | .atom _ => rfl
  | .vec _ => rfl

theorem ren_rel {P : String → Prop} {x y : String} : ∀ {z : Sx}, Plain P z → ¬ Occurs y z → SxRel (renR P x y) z (ren x y z)
  | .nil, _, _ => .nil
  | .atom n, _, _ => .atom n
  | .sid a b c, hz, hy => by
    obtain ⟨rfl, rfl, hp⟩ := hz
    simp only [Occurs] at hy
    simp only [ren]
    split
    · rename_i h1
      subst h1
      exact .sid (Or.inr ⟨rfl, rfl⟩)
    · rename_i h1
      exact .sid (Or.inl ⟨⟨rfl, a, rfl, hp⟩, h1, hy⟩)
  | .vec z, hz, hy => by
    simp only [Plain, Occurs] at hz hy
    exact .vec hz.1 (ren_rel hz.2 hy)
  | .pair a d, hz, hy => by
    simp only [Plain, Occurs, not_or] at hz hy
    exact .pair (ren_rel hz.1 hy.1) (ren_rel hz.2 hy.2)

theorem renR_sym {P : String → Prop} {x y : String} {s s' : Ident} (hs : renR P x y s s') : ∃ a a', s = (a, .sym a, .sym a) ∧ s' = (a', .sym a', .sym a') ∧
    ((a = a' ∧ a ≠ x ∧ a ≠ y ∧ P a) ∨ (a = x ∧ a' = y)) := by
  rcases hs with ⟨⟨rfl, a, rfl, hp⟩, h1, h2⟩ | ⟨rfl, rfl⟩
  · exact ⟨a, a, rfl, rfl, Or.inl ⟨rfl, h1, h2, hp⟩⟩
  · exact ⟨x, y, rfl, rfl, Or.inr ⟨rfl, rfl⟩⟩

theorem renR_ids {P : String → Prop} {x y : String} {s s' t t' : Ident} (hs : renR P x y s s') (ht : renR P x y t t') :
    s.2.1 = t.2.1 ↔ s'.2.1 = t'.2.1 := by
  obtain ⟨a, a', rfl, rfl, h1⟩ := renR_sym hs
  obtain ⟨b, b', rfl, rfl, h2⟩ := renR_sym ht
  simp only [Key.sym.injEq]
  rcases h1 with ⟨rfl, h1, h3, _⟩ | ⟨rfl, rfl⟩ <;> rcases h2 with ⟨rfl, h2, h4, _⟩ | ⟨rfl, rfl⟩
  · exact Iff.rfl
  · exact iff_of_false h1 h3
  · exact iff_of_false (Ne.symm h2) (Ne.symm h4)
  · exact iff_of_true rfl rfl

theorem pairs_sym {P : String → Prop} {x y : String} (a : Nat) : ∀ {e e' : Env}, PairsRel (renR P x y) e e' →
    assv (Key.num a) e = none ∧ assv (Key.num a) e' = none
  | _, _, .nil => ⟨rfl, rfl⟩
  | (k, v) :: _, (k', v') :: _, .cons ⟨⟨s, s', hs, q1, q2⟩, _⟩ h2 => by
    obtain ⟨b, b', rfl, rfl, _⟩ := renR_sym hs
    simp only at q1 q2
    subst q1 q2
    simpa [assv] using pairs_sym a h2

theorem pairs_vals {R : IdRel} : ∀ {e e' : Env}, PairsRel R e e' → (∀ p ∈ e, ∃ n, p.2 = Key.num n) ∧ ∀ p ∈ e', ∃ n, p.2 = Key.num n
  | _, _, .nil => by simp
  | _, _, .cons ⟨_, h1, h2⟩ h3 => by
    have ih := pairs_vals h3
    constructor
    · intro p hp
      rcases List.mem_cons.mp hp with rfl | hp
      · exact h2
      · exact ih.1 p hp
    · intro p hp
      rcases List.mem_cons.mp hp with rfl | hp
      · rw [← h1]; exact h2
      · exact ih.2 p hp

theorem renR_good {P : String → Prop} (hP : gl = false → ∀ a, P a → Tame a) {x y : String} (hx : P x) {e e' : Env}
    (he : PairsRel (renR P x y) e e') (hb : (assv (.sym x) e).isSome = true) (idn : Nat) :
    Good (renamed x y) 0 gl (renR P x y) e e' idn where
  clo s s' a l hs := by
    rcases hs with rfl | hs
    · exact Or.inl rfl
    · exact Or.inr hs
  name s s' hs := by
    rcases hs with ⟨⟨rfl, _⟩, _⟩ | ⟨rfl, rfl⟩
    · exact Or.inl rfl
    · exact Or.inr ⟨rfl, rfl⟩
  ids s s' t t' hs ht := renR_ids hs ht
  det s s' t t' hs ht he := by
    have he' := (renR_ids hs ht).mp he
    obtain ⟨a, a', rfl, rfl, h1⟩ := renR_sym hs
    obtain ⟨b, b', rfl, rfl, h2⟩ := renR_sym ht
    simp only [Key.sym.injEq] at he he'
    subst he he'
    exact ⟨rfl, rfl⟩
  num s s' hs a ha := by
    obtain ⟨b, b', rfl, rfl, _⟩ := renR_sym hs
    cases ha
  num' s s' hs a ha := by
    obtain ⟨b, b', rfl, rfl, _⟩ := renR_sym hs
    cases ha
  look s s' hs := by
    have h1 := pairs_look (fun _ _ _ _ => renR_ids) ⟨s, s', hs, rfl, rfl⟩ he
    simp only [lookupSid, ← h1]
    obtain ⟨a, a', rfl, rfl, h2⟩ := renR_sym hs
    rcases h2 with ⟨rfl, _⟩ | ⟨rfl, rfl⟩
    · rfl
    · obtain ⟨v, hv⟩ := Option.isSome_iff_exists.mp hb
      simp only [hv, Option.getD_some]
  envNum a ha := by rw [(pairs_sym a he).2] at ha; cases ha
  ok hg s s' hs := by
    obtain ⟨a, a', rfl, rfl, h2⟩ := renR_sym hs
    rcases h2 with ⟨rfl, _, _, hp⟩ | ⟨rfl, rfl⟩
    · exact (hP hg a hp).safe
    · exact (hP hg a hx).safe
  vals := (pairs_vals he).1
  vals' := (pairs_vals he).2
  fresh s s' hs a ha := by
    obtain ⟨b, b', rfl, rfl, _⟩ := renR_sym hs
    cases ha
  envFresh a ha := by rw [(pairs_sym a he).1] at ha; cases ha

/-- the formals of a `lambda` expression. -/
def formalList (f : Sx) : List Sx := if isList f then items f else flattenDotted f

theorem occurs_mem {P : String → Prop} {x : String} : ∀ {f : Sx}, Plain P f → Occurs x f → (∀ y ∈ formalList f, isSid y = true) →
    Sx.sid x (.sym x) (.sym x) ∈ formalList f ∧ P x := by
  have h1 : ∀ {f : Sx}, Plain P f → Occurs x f → isList f = true → (∀ y ∈ items f, isSid y = true) →
      Sx.sid x (.sym x) (.sym x) ∈ items f ∧ P x := by
    intro f
    induction f with
    | pair a d _ ih =>
      intro hp ho hl hs
      simp only [Plain, Occurs, isList, items, List.mem_cons, forall_eq_or_imp] at hp ho hl hs ⊢
      rcases ho with ho | ho
      · cases a with
        | sid n b c =>
          simp only [Plain, Occurs] at hp ho
          obtain ⟨⟨rfl, rfl, hp⟩, _⟩ := hp
          subst ho
          exact ⟨Or.inl rfl, hp⟩
        | _ => simp [isSid] at hs
      · have := ih hp.2 ho hl hs.2
        exact ⟨Or.inr this.1, this.2⟩
    | sid _ _ _ => intro _ _ hl; cases hl
    | vec _ _ => intro _ _ hl; cases hl
    | nil => intro _ ho; cases ho
    | atom _ => intro _ ho; cases ho
  have h2 : ∀ {f : Sx}, Plain P f → Occurs x f → (∀ y ∈ flattenDotted f, isSid y = true) →
      Sx.sid x (.sym x) (.sym x) ∈ flattenDotted f ∧ P x := by
    intro f
    induction f with
    | pair a d _ ih =>
      intro hp ho hs
      simp only [Plain, Occurs, flattenDotted, List.mem_cons, forall_eq_or_imp] at hp ho hs ⊢
      rcases ho with ho | ho
      · cases a with
        | sid n b c =>
          simp only [Plain, Occurs] at hp ho
          obtain ⟨⟨rfl, rfl, hp⟩, _⟩ := hp
          subst ho
          exact ⟨Or.inl rfl, hp⟩
        | _ => simp [isSid] at hs
      · have := ih hp.2 ho hs.2
        exact ⟨Or.inr this.1, this.2⟩
    | sid n b c =>
      intro hp ho _
      simp only [Plain, Occurs] at hp ho
      obtain ⟨rfl, rfl, hp⟩ := hp
      subst ho
      simp [flattenDotted, hp]
    | vec y _ =>
      intro _ _ hs
      simp [flattenDotted, isSid] at hs
    | nil => intro _ ho; cases ho
    | atom _ => intro _ ho; cases ho
  intro f hp ho hs
  simp only [formalList] at hs ⊢
  split
  · rename_i hl
    rw [if_pos hl] at hs
    exact h1 hp ho hl hs
  · rename_i hl
    rw [if_neg hl] at hs
    exact h2 hp ho hs

theorem nodup_renR {P : String → Prop} {x y : String} {l l' : List Sx} (hl : List.Forall₂ (SxRel (renR P x y)) l l')
    (hs : ∀ z ∈ l, isSid z = true) : l.Nodup ↔ l'.Nodup := by
  have hm : ∀ {z z' : Sx}, SxRel (renR P x y) z z' → isSid z = true → ∀ {m m' : List Sx}, List.Forall₂ (SxRel (renR P x y)) m m' →
      (z ∈ m ↔ z' ∈ m') := by
    intro z z' hz hs m m' hm
    induction hm with
    | nil => simp
    | cons q1 q2 ih =>
      simp only [List.mem_cons, ih]
      refine or_congr_left ?_
      cases hz with
      | sid r =>
        cases q1 with
        | sid q =>
          have := renR_ids r q
          obtain ⟨a, a', h1, h2, _⟩ := renR_sym r
          obtain ⟨b, b', h3, h4, _⟩ := renR_sym q
          cases h1; cases h2; cases h3; cases h4
          simp only [Key.sym.injEq] at this
          simp [this]
        | _ => simp
      | _ => simp [isSid] at hs
  induction hl with
  | nil => simp
  | cons q1 q2 ih =>
    simp only [List.nodup_cons, ih fun z hz => hs z (List.mem_cons_of_mem _ hz), hm q1 (hs _ List.mem_cons_self) q2]

/-- a `lambda` expression and the same with another name for the variable `x`. -/
theorem expandLambda_ren {P : String → Prop} (hP : gl = false → ∀ a, P a → Tame a) {any any' : AnyT} {x y : String}
    (ha : AnySim h (renamed x y) 0 gl any any') {f b : Sx} (hf : Plain P f) (hb : Plain P b) (hx : Occurs x f)
    (hyf : ¬ Occurs y f) (hyb : ¬ Occurs y b) {st st' : Store} {ln idn : Nat} (hs : StoreRel h (renamed x y) 0 gl st st') {o : Out}
    (ho : expandLambda any f b idn [] st ln = some o) :
    ∃ o', expandLambda any' (ren x y f) (ren x y b) idn [] st' ln = some o' ∧ OutRel h (renamed x y) o o' := by
  have rf : SxRel (renR P x y) f (ren x y f) := ren_rel hf hyf
  have rb : SxRel (renR P x y) b (ren x y b) := ren_rel hb hyb
  have hfs : List.Forall₂ (SxRel (renR P x y)) (formalList f) (formalList (ren x y f)) := by
    simp only [formalList, ren_isList]
    split
    · exact items_rel rf
    · exact flattenDotted_rel rf
  have hocc := occurs_mem hf hx
  simp only [expandLambda, ren_isList] at ho ⊢
  have e1 : (if isList f = true then items f else flattenDotted f) = formalList f := rfl
  have e2 : (if isList f = true then items (ren x y f) else flattenDotted (ren x y f)) = formalList (ren x y f) := by
    simp only [formalList, ren_isList]
  rw [e1] at ho
  rw [e2]
  clear e1 e2
  revert hfs ho hocc
  generalize formalList f = fs
  generalize formalList (ren x y f) = fs'
  intro hfs hocc ho
  split at ho
  · rename_i hc
    simp only [Bool.and_eq_true, decide_eq_true_eq, List.all_eq_true] at hc
    obtain ⟨hmem, hpx⟩ := hocc hc.1
    have hc' : (fs'.all isSid && decide fs'.Nodup) = true := by
      simp only [Bool.and_eq_true, decide_eq_true_eq]
      exact ⟨by rw [← all_isSid_rel hfs]; exact List.all_eq_true.mpr hc.1, (nodup_renR hfs hc.1).mp hc.2⟩
    rw [if_pos hc']
    have hname : ∀ s s', renR P x y s s' → renamed x y s s' := by
      rintro s s' (⟨⟨rfl, _⟩, _⟩ | ⟨rfl, rfl⟩)
      · exact Or.inl rfl
      · exact Or.inr ⟨rfl, rfl⟩
    obtain ⟨q1, q2, q3, q4⟩ := bindFormals_pairs (N := renamed x y) hname hfs ln .nil hs
    have hg := renR_good hP (y := y) hpx q2 (bindFormals_mem [] st ln hmem) idn
    cases hb : expandExpr any b idn (bindFormals fs [] st ln).2.1 (bindFormals fs [] st ln).2.2.1 (bindFormals fs [] st ln).2.2.2 with
    | none => rw [hb] at ho; cases ho
    | some o1 =>
      rw [hb] at ho
      obtain ⟨o2, h1, h2⟩ := expandExpr_sim ha hg rb q3 hb
      simp only [Nat.add_zero] at h1
      rw [← q4, h1]
      simp only at ho ⊢
      split at ho
      · rename_i hl
        cases ho
        rw [if_pos hl]
        exact ⟨_, rfl, .lam q1 .none h2⟩
      · rename_i hl
        cases ho
        rw [if_neg hl]
        exact ⟨_, rfl, .lam (dropLast_rel q1) (getLast_rel q1) h2⟩
  · cases ho

/-- a `lambda` expression at the top level. -/
theorem lambda_run {g : Bool} {st : Store} (hs : lookupLocation (.sym "lambda") st = some (.builtin "lambda")) (n ln i : Nat) (f b : Sx) :
    expandFrom h g (n + 3) [listOf [.sym "lambda", f, b]] st ln i =
      match expandLambda (recs h g (n + 1)).any f b i [] st ln with
      | none => none
      | some o => some (.prog [o] st ln) := by
  rw [expandFrom, topN, topF, recs]
  simp only [listOf, listS]
  rw [← show listOf [f, b] = .pair f (.pair b .nil) from rfl]
  have h1 : ∀ lsd ek sk, (recs h g (n + 1)).any (.sym "lambda") i [] st ln lsd ek (some sk) none none = sk (.builtin "lambda") (.sym "lambda") st ln := by
    intro lsd ek sk
    simp only [recs, anyF, Sx.sym, anySid, lookupSid, assv, Option.getD_none, hs]
  simp only [anyF, isList_listOf, if_true, h1, handleSyntaxUse, useBuiltin, exprBuiltin, items_listOf]
  cases expandLambda (recs h g (n + 1)).any f b i [] st ln with
  | none => simp
  | some o => simp [topN, topF]

theorem lambda_run_small {g : Bool} {st : Store} {n : Nat} (hn : n < 3) (ln i : Nat) (f b : Sx) :
    expandFrom h g n [listOf [.sym "lambda", f, b]] st ln i = none := by
  match n, hn with
  | 0, _ => rfl
  | 1, _ => rfl
  | 2, _ => rfl

end
end Verif.Expand

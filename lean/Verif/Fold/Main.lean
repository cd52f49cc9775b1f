import Verif.Fold.Pass
import Verif.Cps.Gen
/-
Constant folding is a sequence of folding steps (C36).
-/
namespace Verif.Fold
open Verif.Core
open Verif.Beta (free_app free_lam free_var free_set free_ite free_prim free_fix free_letcc free_withcc bc bcs bc_var bc_set bc_ite bc_prim bc_app bc_lam bc_fix bc_letcc bc_withcc
  bcs_nil bcs_cons bcs_le)
variable {τ : Type} [DecidableEq τ] {t : Types τ} {Γ : TEnv τ}
set_option linter.unusedSectionVars false

/-! ### steps inside applications -/

/-- in the operator. -/
theorem lift_appF {f f' : Exp} {es : List Exp} (h : FR t Γ f f') (hb : Fit Γ (fun y => bc y f + bcs y es)) : FR t Γ (.app f es) (.app f' es) := by
  have hs : FRs t Γ es es := FRs.refl es (hb.le (fun y => by omega))
  cases hl : isLet (.app f es) with
  | false => exact .app hl h hs
  | true =>
    cases f with
    | lam ids b =>
      have hl : ids.length = es.length := by simpa [isLet] using hl
      cases h with
      | lam h0 h1 =>
        simp only [bc_lam] at hb
        have h2 : ∀ y, ids.count y + bc y b + bcs y es ≤ 1 := fun y => (hb y).1
        have h3 : ∀ y, 0 < ids.count y + bc y b + bcs y es → y.isGlobal = false ∧ tlook y Γ = none := fun y => (hb y).2
        refine .letE hl (fun y hy => (h3 y (by have := count_pos hy; omega)).1) hs (h1.weaken (fun y => ?_) (fun y => by have := h2 y; omega) (fun y hy hn => ?_))
        · by_cases hm : y ∈ ids
          · intro T hT; rw [h0 y hm] at hT; cases hT
          · rw [tlook_exts hm]; exact fun _ h => h
        · rw [tlook_exts (not_mem_of_count (by have := h2 y; omega))]; exact hn
    | _ => simp [isLet] at hl

/-- in the operands. -/
theorem lift_appA {f : Exp} {es es' : List Exp} (h : FRs t Γ es es') (hb : Fit Γ (fun y => bc y f + bcs y es)) : FR t Γ (.app f es) (.app f es') := by
  cases hl : isLet (.app f es) with
  | false => exact .app hl (FR.refl f (hb.le (fun y => by omega))) h
  | true =>
    cases f with
    | lam ids b =>
      have hl : ids.length = es.length := by simpa [isLet] using hl
      simp only [bc_lam] at hb
      have h3 : ∀ y, 0 < ids.count y + bc y b + bcs y es → y.isGlobal = false ∧ tlook y Γ = none := fun y => (hb y).2
      exact .letE hl (fun y hy => (h3 y (by have := count_pos hy; omega)).1) h (FR.refl b (hb.exts (fun y => by omega)))
    | _ => simp [isLet] at hl

/-! ### cases of the pass -/

theorem degLet {f : Exp} {es : List Exp} (h : isDegLet (.app f es) = true) : (∃ b, f = .lam [] b ∧ es = []) ∨ (∃ x e, f = .lam [x] (.var x) ∧ es = [e]) := by
  simp only [isDegLet, Bool.or_eq_true] at h
  rcases h with h | h
  · unfold isNullLet at h
    split at h
    · rename_i b heq
      injection heq with h1 h2
      exact Or.inl ⟨b, h1, h2⟩
    · cases h
  · unfold isIdLet at h
    split at h
    · rename_i x y e heq
      injection heq with h1 h2
      have h : x = y := by simpa using h
      subst h
      exact Or.inr ⟨x, e, h1, h2⟩
    · cases h

theorem begLet {f : Exp} {es : List Exp} (h : isBegin (.app f es) = true) : ∃ d b e, f = .lam [d] b ∧ es = [e] ∧ ¬ Free d b := by
  unfold isBegin at h
  split at h
  · rename_i x b e heq
    injection heq with h1 h2
    refine ⟨x, b, e, h1, h2, fun hf => ?_⟩
    rw [Cps.referenced_iff.mpr hf] at h
    cases h
  · cases h

theorem letLet {f : Exp} {es : List Exp} (h : isLet (.app f es) = true) : ∃ ids b, f = .lam ids b ∧ ids.length = es.length := by
  unfold isLet at h
  split at h
  · rename_i ids b es' heq
    injection heq with h1 h2
    subst h2
    exact ⟨ids, b, h1, by simpa using h⟩
  · cases h

theorem assertFold {e : Exp} {x : Id} {T : τ} (h : foldAssert t Γ e = some (x, T)) : ∃ eff p, e = .prim eff p [.var x] ∧ t.assert p = some T := by
  unfold foldAssert at h
  split at h
  · rename_i eff p y
    split at h
    · rename_i U h1 h2
      injection h with h; injection h with h3 h4
      subst h3; subst h4
      exact ⟨eff, p, rfl, h1⟩
    · cases h
  · cases h

theorem cf_app (n k : Nat) (f : Exp) (es : List Exp) : cf t (n + 1) Γ k (.app f es) =
    (if isDegLet (.app f es) then
        match es with
        | [] => (match f with | .lam _ b => cf t n Γ k b | f => (.app f [], k))
        | e :: _ => cf t n Γ k e
      else if isBegin (.app f es) then
        match f, es with
        | .lam _ e2, e1 :: _ =>
          let r1 := cf t n Γ k e1
          let r2 := cf t n (match foldAssert t Γ r1.1 with | some (x, T) => (x, some T) :: Γ | none => Γ) r1.2 e2
          (beginExp r2.2 r1.1 r2.1, r2.2 + 1)
        | f, es => (.app f es, k)
      else if isLet (.app f es) then
        match f with
        | .lam ids b =>
          let rs := mapK (cf t n Γ) k es
          let r := cf t n (exts ids (ctypes t Γ rs.1) Γ) rs.2 b
          (.app (.lam ids r.1) rs.1, r.2)
        | f => (.app f es, k)
      else
        let rf := cf t n Γ k f
        let rs := mapK (cf t n Γ) rf.2 es
        if isLet (.app rf.1 rs.1) then cf t n Γ rs.2 (.app rf.1 rs.1) else (.app rf.1 rs.1, rs.2)) := by rfl

/-- the main part: a sequence of folding steps. -/
theorem cf_does : ∀ (n : Nat) (Γ : TEnv τ) (k : Nat) (e : Exp), Pre t Γ k e → Does t Γ k e (cf t n Γ k e) := by
  intro n
  induction n with
  | zero => intro Γ k e _; exact ⟨Nat.le_refl _, .refl (fun y => by omega)⟩
  | succ n ih =>
    intro Γ k e h
    cases e with
    | var x => exact ⟨Nat.le_refl _, .refl (fun y => by omega)⟩
    | set x e =>
      obtain ⟨k1, s1⟩ := ih Γ k e (h.sub (fun y => Nat.le_refl _) (fun y hy => .set x hy) (by simpa [LocalAsserts] using h.la))
      exact ⟨k1, s1.map (.set x) (fun _ => True) (fun a ha y => ha y) (fun a a' h _ _ => .set h) (fun _ _ => trivial)⟩
    | ite a b c =>
      have hb : ∀ y, bc y (.ite a b c) = bc y a + (bc y b + bc y c) := fun y => bc_ite y a b c
      have pa : Pre t Γ k a := h.sub (fun y => by simp only [hb]; omega) (fun y hy => .iteA _ _ hy) h.la.1
      have pb : Pre t Γ k b := h.sub (fun y => by simp only [hb]; omega) (fun y hy => .iteB _ _ hy) h.la.2.1
      have pc : Pre t Γ k c := h.sub (fun y => by simp only [hb]; omega) (fun y hy => .iteC _ _ hy) h.la.2.2
      obtain ⟨k1, s1⟩ := ih Γ k a pa
      have hcf : cf t (n + 1) Γ k (.ite a b c) =
        (match foldTest t Γ (cf t n Γ k a).1 with
        | some true => (beginExp (cf t n Γ (cf t n Γ (cf t n Γ k a).2 b).2 c).2 (cf t n Γ k a).1 (cf t n Γ (cf t n Γ k a).2 b).1, (cf t n Γ (cf t n Γ (cf t n Γ k a).2 b).2 c).2 + 1)
        | some false => (beginExp (cf t n Γ (cf t n Γ (cf t n Γ k a).2 b).2 c).2 (cf t n Γ k a).1 (cf t n Γ (cf t n Γ (cf t n Γ k a).2 b).2 c).1, (cf t n Γ (cf t n Γ (cf t n Γ k a).2 b).2 c).2 + 1)
        | none => (.ite (cf t n Γ k a).1 (cf t n Γ (cf t n Γ k a).2 b).1 (cf t n Γ (cf t n Γ (cf t n Γ k a).2 b).2 c).1, (cf t n Γ (cf t n Γ (cf t n Γ k a).2 b).2 c).2)) := rfl
      rw [hcf]
      clear hcf
      generalize cf t n Γ k a = ra at *
      obtain ⟨k2, s2⟩ := ih Γ ra.2 b (pb.later k1)
      generalize cf t n Γ ra.2 b = rb at *
      obtain ⟨k3, s3⟩ := ih Γ rb.2 c (pc.later (Nat.le_trans k1 k2))
      generalize cf t n Γ rb.2 c = rc at *
      have qa := pa.out k1 s1
      have qb := (pb.later k1).out k2 s2
      have qc := (pc.later (Nat.le_trans k1 k2)).out k3 s3
      have f1 := fr_add k1 (Nat.le_trans k2 k3)
      have f2 := fr_add k2 k3
      have S : FStar t Γ (fun y => bc y (.ite a b c) + fr k rc.2 y) (.ite a b c) (.ite ra.1 rb.1 rc.1) := by
        refine (s1.map (fun z => .ite z b c) (fun _ => True) (fun z hz y => ?_) (fun z z' hz _ _ => .ite hz (FR.refl b pb.fit) (FR.refl c pc.fit)) (fun _ _ => trivial)).trans
          ((s2.map (fun z => .ite ra.1 z c) (fun _ => True) (fun z hz y => ?_) (fun z z' hz _ _ => .ite (FR.refl _ qa.fit) hz (FR.refl c pc.fit)) (fun _ _ => trivial)).trans
          (s3.map (fun z => .ite ra.1 rb.1 z) (fun _ => True) (fun z hz y => ?_) (fun z z' hz _ _ => .ite (FR.refl _ qa.fit) (FR.refl _ qb.fit) hz) (fun _ _ => trivial)))
        · simp only [bc_ite, f1 y, f2 y]; have := hz y; omega
        · simp only [bc_ite, f1 y, f2 y]; have := hz y; have := s1.last y; omega
        · simp only [bc_ite, f1 y, f2 y]; have := hz y; have := s1.last y; have := s2.last y; omega
      have hk : k ≤ rc.2 := Nat.le_trans k1 (Nat.le_trans k2 k3)
      have fld : ∀ (β : Bool) (x : Exp), foldTest t Γ ra.1 = some β → x = (if β then rb.1 else rc.1) → Pre t Γ rc.2 x →
          Does t Γ k (.ite a b c) (beginExp rc.2 ra.1 x, rc.2 + 1) := by
        intro β x ht hx px
        refine ⟨by show k ≤ rc.2 + 1; omega, ?_⟩
        have f3 := fr_add hk (Nat.le_add_right rc.2 1)
        refine (S.mono (fun y => by rw [f3 y]; omega)).trans (.step (fun y => ?_) (.fold (d := lexId rc.2) (x := x) ht hx ?_ (FR.refl _ qa.fit) (FR.refl x px.fit)) (.refl (fun y => ?_)))
        · have := S.last y
          rw [f3 y]; omega
        · intro hf
          have := px.fre _ hf
          simp [lexId] at this
        · simp only [bc_app, bc_lam, bcs_cons, bcs_nil, bc_ite, f3 y, f1 y, f2 y]
          have := fr_new rc.2 y
          have := s1.last y; have := s2.last y; have := s3.last y
          have : bc y x ≤ bc y rb.1 + bc y rc.1 := by subst hx; cases β <;> simp
          omega
      cases ht : foldTest t Γ ra.1 with
      | none => exact ⟨hk, S⟩
      | some β =>
        cases β with
        | true => exact fld true rb.1 ht rfl (qb.later k3)
        | false => exact fld false rc.1 ht rfl qc
    | prim eff p es =>
      obtain ⟨k1, s1⟩ := mapK_does (fun k e => ih Γ k e) es k (h.subs (fun y => Nat.le_refl _) (fun y ⟨e, he, hy⟩ => .prim _ _ he hy) h.la.2)
      exact ⟨k1, s1.map (.prim eff p) (fun a ha y => ha y) (fun a a' h _ _ => .prim h)⟩
    | lam ids b =>
      have hb : ∀ y, bc y (.lam ids b) = ids.count y + bc y b := fun y => bc_lam y ids b
      have pb : Pre t Γ k b := h.under (fun y => by rw [hb]) (fun y hy hm => .lam hm hy) (by simpa [LocalAsserts] using h.la)
      obtain ⟨k1, s1⟩ := ih Γ k b pb
      refine ⟨k1, s1.map (.lam ids) (fun _ => True) (fun a ha y => ?_) (fun a a' hf _ _ => .lam (fun y hy => ((h.fit y).2 ?_).2) hf) (fun _ _ => trivial)⟩
      · simp only [bc_lam]; have := ha y; show _ + _ ≤ _ + fr k (cf t n Γ k b).2 y; omega
      · simp only [hb]; have := count_pos hy; omega
    | fix ids lams b =>
      have hb : ∀ y, bc y (.fix ids lams b) = ids.count y + (bcs y lams + bc y b) := fun y => bc_fix y ids lams b
      have pb : Pre t Γ k b := h.under (ids := ids) (fun y => by simp only [hb]; omega) (fun y hy hm => .fixB _ hm hy) h.la.2
      have pl : Pres t Γ k lams := by
        refine ⟨h.fit.le (fun y => by simp only [hb]; omega), fun y hy => h.old y (by simp only [hb]; omega), h.new, fun y ⟨l, hl, hy⟩ => ?_, fun y hy ⟨l, hl, hf⟩ => ?_, h.la.1⟩
        · by_cases hm : y ∈ ids
          · exact h.old y (by simp only [hb]; have := count_pos hm; omega)
          · exact h.fre y (.fixL _ hm hl hy)
        · have h2 := (h.fit y).1
          simp only [hb] at h2
          exact h.sep y (by simp only [hb]; omega) (.fixL _ (not_mem_of_count (by omega)) hl hf)
      obtain ⟨k1, s1⟩ := mapK_does (fun k e => ih Γ k e) lams k pl
      have hcf : cf t (n + 1) Γ k (.fix ids lams b) = (.fix ids (mapK (cf t n Γ) k lams).1 (cf t n Γ (mapK (cf t n Γ) k lams).2 b).1, (cf t n Γ (mapK (cf t n Γ) k lams).2 b).2) := rfl
      rw [hcf]
      clear hcf
      generalize mapK (cf t n Γ) k lams = rs at *
      obtain ⟨k2, s2⟩ := ih Γ rs.2 b (pb.later k1)
      generalize cf t n Γ rs.2 b = r at *
      have f1 := fr_add k1 k2
      have hn : ∀ y ∈ ids, tlook y Γ = none := fun y hy => ((h.fit y).2 (by simp only [hb]; have := count_pos hy; omega)).2
      refine ⟨Nat.le_trans k1 k2, (s1.map (fun z => .fix ids z b) (fun z hz y => ?_) (fun z z' hz _ _ => .fix hn hz (FR.refl b pb.fit))).trans
        (s2.map (fun z => .fix ids rs.1 z) (fun _ => True) (fun z hz y => ?_) (fun z z' hz _ _ => .fix hn (FRs.refl _ (pl.out k1 s1).fit) hz) (fun _ _ => trivial))⟩
      · simp only [bc_fix, f1 y]; have := hz y; omega
      · simp only [bc_fix, f1 y]; have := hz y; have := s1.last y; omega
    | letcc x b =>
      have hb : ∀ y, bc y (.letcc x b) = [x].count y + bc y b := fun y => bc_letcc y x b
      have pb : Pre t Γ k b := h.under (ids := [x]) (fun y => by rw [hb]) (fun y hy hm => .letcc (by simpa using hm) hy) (by simpa [LocalAsserts] using h.la)
      obtain ⟨k1, s1⟩ := ih Γ k b pb
      refine ⟨k1, s1.map (.letcc x) (fun _ => True) (fun a ha y => ?_) (fun a a' hf _ _ => .letcc ((h.fit x).2 ?_).2 hf) (fun _ _ => trivial)⟩
      · simp only [bc_letcc]; have := ha y; show _ + _ ≤ _ + fr k (cf t n Γ k b).2 y; omega
      · simp only [hb]; have := count_pos (y := x) (ids := [x]) (by simp); omega
    | withcc a b =>
      have hb : ∀ y, bc y (.withcc a b) = bc y a + bc y b := fun y => bc_withcc y a b
      have pa : Pre t Γ k a := h.sub (fun y => by simp only [hb]; omega) (fun y hy => .withccK _ hy) h.la.1
      have pb : Pre t Γ k b := h.sub (fun y => by simp only [hb]; omega) (fun y hy => .withccE _ hy) h.la.2
      obtain ⟨k1, s1⟩ := ih Γ k a pa
      have hcf : cf t (n + 1) Γ k (.withcc a b) = (.withcc (cf t n Γ k a).1 (cf t n Γ (cf t n Γ k a).2 b).1, (cf t n Γ (cf t n Γ k a).2 b).2) := rfl
      rw [hcf]
      clear hcf
      generalize cf t n Γ k a = ra at *
      obtain ⟨k2, s2⟩ := ih Γ ra.2 b (pb.later k1)
      generalize cf t n Γ ra.2 b = rb at *
      have f1 := fr_add k1 k2
      refine ⟨Nat.le_trans k1 k2, (s1.map (fun z => .withcc z b) (fun _ => True) (fun z hz y => ?_) (fun z z' hz _ _ => .withcc hz (FR.refl b pb.fit)) (fun _ _ => trivial)).trans
        (s2.map (fun z => .withcc ra.1 z) (fun _ => True) (fun z hz y => ?_) (fun z z' hz _ _ => .withcc (FR.refl _ (pa.out k1 s1).fit) hz) (fun _ _ => trivial))⟩
      · simp only [bc_withcc, f1 y]; have := hz y; omega
      · simp only [bc_withcc, f1 y]; have := hz y; have := s1.last y; omega
    | app f es =>
      have hb : ∀ y, bc y (.app f es) = bc y f + bcs y es := fun y => bc_app y f es
      have pf : Pre t Γ k f := h.sub (fun y => by simp only [hb]; omega) (fun y hy => .appF _ hy) h.la.1
      have pe : Pres t Γ k es := h.subs (fun y => by simp only [hb]; omega) (fun y ⟨e, he, hy⟩ => .appA _ he hy) h.la.2
      cases hd : isDegLet (.app f es) with
      | true =>
        rcases degLet hd with ⟨b, rfl, rfl⟩ | ⟨x, e, rfl, rfl⟩
        · have hbb : ∀ y, bc y (.app (.lam [] b) []) = bc y b := fun y => by simp [bc_app, bc_lam, bcs_nil]
          have pb : Pre t Γ k b := h.sub (fun y => by rw [hbb]) (fun y hy => .appF _ (.lam (by simp) hy)) (by simpa [LocalAsserts] using h.la.1)
          obtain ⟨k1, s1⟩ := ih Γ k b pb
          refine ⟨k1, .step (fun y => by omega) (.null (FR.refl b pb.fit)) (s1.mono (fun y => ?_))⟩
          simp only [hbb]; exact Nat.le_refl _
        · have hbb : ∀ y, bc y (.app (.lam [x] (.var x)) [e]) = [x].count y + bc y e := fun y => by simp [bc_app, bc_lam, bcs_nil, bcs_cons, bc_var]
          have pb : Pre t Γ k e := h.sub (fun y => by simp only [hbb]; omega) (fun y hy => .appA _ (by simp) hy) h.la.2.1
          have hcf : cf t (n + 1) Γ k (.app (.lam [x] (.var x)) [e]) = cf t n Γ k e := by rw [cf_app, if_pos hd]
          rw [hcf]
          obtain ⟨k1, s1⟩ := ih Γ k e pb
          refine ⟨k1, .step (fun y => by omega) (.idl ((h.fit x).2 ?_).1 (FR.refl e pb.fit)) (s1.mono (fun y => ?_))⟩
          · simp only [hbb]; have := count_pos (y := x) (ids := [x]) (by simp); omega
          · simp only [hbb]; omega
      | false =>
        cases hbg : isBegin (.app f es) with
        | true =>
          obtain ⟨d, e2, e1, rfl, rfl, hdf⟩ := begLet hbg
          have hbb : ∀ y, bc y (.app (.lam [d] e2) [e1]) = [d].count y + bc y e2 + bc y e1 := fun y => by simp [bc_app, bc_lam, bcs_nil, bcs_cons]
          have p1 : Pre t Γ k e1 := h.sub (fun y => by simp only [hbb]; omega) (fun y hy => .appA _ (by simp) hy) h.la.2.1
          have p2 : Pre t Γ k e2 := h.under (ids := [d]) (fun y => by simp only [hbb]; omega) (fun y hy hm => .appF _ (.lam hm hy)) (by simpa [LocalAsserts] using h.la.1)
          have hd0 : tlook d Γ = none := ((h.fit d).2 (by simp only [hbb]; have := count_pos (y := d) (ids := [d]) (by simp); omega)).2
          have hcf : cf t (n + 1) Γ k (.app (.lam [d] e2) [e1]) =
            (beginExp (cf t n (match foldAssert t Γ (cf t n Γ k e1).1 with | some (x, T) => (x, some T) :: Γ | none => Γ) (cf t n Γ k e1).2 e2).2 (cf t n Γ k e1).1
              (cf t n (match foldAssert t Γ (cf t n Γ k e1).1 with | some (x, T) => (x, some T) :: Γ | none => Γ) (cf t n Γ k e1).2 e2).1,
             (cf t n (match foldAssert t Γ (cf t n Γ k e1).1 with | some (x, T) => (x, some T) :: Γ | none => Γ) (cf t n Γ k e1).2 e2).2 + 1) := by
            rw [cf_app, if_neg (by rw [hd]; simp), if_pos hbg]
          rw [hcf]
          clear hcf
          obtain ⟨k1, s1⟩ := ih Γ k e1 p1
          generalize cf t n Γ k e1 = r1 at *
          have q1 := p1.out k1 s1
          have p2' : ∀ x T, foldAssert t Γ r1.1 = some (x, T) → Pre t ((x, some T) :: Γ) r1.2 e2 := by
            intro x T hx
            obtain ⟨eff, p, he, _⟩ := assertFold hx
            have hfx : Free x r1.1 := by rw [he]; exact .prim _ _ (List.mem_singleton.mpr rfl) .var
            have p2l := p2.later k1
            refine ⟨fun y => ⟨(p2.fit y).1, fun hy => ⟨((p2.fit y).2 hy).1, ?_⟩⟩, p2l.old, fun y hy => ?_, p2l.fre, p2l.sep, p2l.la⟩
            · have : y ≠ x := by
                rintro rfl
                exact h.sep y (by simp only [hbb]; have : 0 < bc y e2 := hy; omega) (.appA _ (List.mem_singleton.mpr rfl) (s1.free y hfx))
              simp only [tlook, if_neg this]; exact ((p2.fit y).2 hy).2
            · have : y ≠ x := by
                rintro rfl
                have := q1.fre y hfx; omega
              simp only [tlook, if_neg this]; exact p2l.new y hy
          have go : ∀ (Γ2 : TEnv τ), Pre t Γ2 r1.2 e2 → (∀ (D : Id) (a a' : Exp), (r1.2 : Int) ≤ D.ts → tlook D Γ = none → ¬ Free D a → FR t Γ2 a a' →
                FR t Γ (.app (.lam [D] a) [r1.1]) (.app (.lam [D] a') [r1.1])) →
              Does t Γ k (.app (.lam [d] e2) [e1]) (beginExp (cf t n Γ2 r1.2 e2).2 r1.1 (cf t n Γ2 r1.2 e2).1, (cf t n Γ2 r1.2 e2).2 + 1) := by
            intro Γ2 pp hF
            obtain ⟨k2, s2⟩ := ih Γ2 r1.2 e2 pp
            generalize cf t n Γ2 r1.2 e2 = r2 at *
            have hk : k ≤ r2.2 := Nat.le_trans k1 k2
            have f1 := fr_add hk (Nat.le_add_right r2.2 1)
            have f2 := fr_add k1 k2
            have nfree : ∀ a, (∀ y, Free y a → Free y e2) → ¬ Free (lexId r2.2) a := by
              intro a ha hf
              have := p2.fre _ (ha _ hf)
              simp [lexId] at this; omega
            have hD0 : tlook (lexId r2.2) Γ = none := h.new _ (by simp [lexId]; omega)
            refine ⟨by show k ≤ r2.2 + 1; omega, ?_⟩
            refine .step (fun y => by omega) (.beg (d' := lexId r2.2) hd0 hdf (nfree e2 (fun _ h => h)) (FR.refl e1 p1.fit) (FR.refl e2 p2.fit)) ?_
            refine (s1.map (fun z => .app (.lam [lexId r2.2] e2) [z]) (fun _ => True) (fun z hz y => ?_)
              (fun z z' hz _ _ => .beg hD0 (nfree e2 (fun _ h => h)) (nfree e2 (fun _ h => h)) hz (FR.refl e2 p2.fit)) (fun _ _ => trivial)).trans
              (s2.map (fun z => .app (.lam [lexId r2.2] z) [r1.1]) (Free · e2) (fun z hz y => ?_)
              (fun z z' hz _ hf => hF _ z z' (by simp [lexId]; omega) hD0 (nfree z hf) hz) (fun _ h => h))
            · simp only [bc_app, bc_lam, bcs_cons, bcs_nil, f1 y, f2 y]
              have := hz y; have := fr_new r2.2 y; omega
            · simp only [bc_app, bc_lam, bcs_cons, bcs_nil, f1 y, f2 y]
              have := hz y; have := fr_new r2.2 y; have := s1.last y; omega
          cases hx : foldAssert t Γ r1.1 with
          | none => exact go Γ (p2.later k1) (fun D a a' _ h1 h2 h3 => .beg h1 h2 h2 (FR.refl _ q1.fit) h3)
          | some xT =>
            obtain ⟨x, T⟩ := xT
            obtain ⟨eff, p, he, ht⟩ := assertFold hx
            have hfx : Free x r1.1 := by rw [he]; exact .prim _ _ (List.mem_singleton.mpr rfl) .var
            refine go _ (p2' x T hx) (fun D a a' h0 h1 h2 h3 => ?_)
            have hla := q1.la
            have hfr := q1.fre x hfx
            rw [he] at hla ⊢
            refine .asrt h1 (fun e => ?_) h2 h2 ht (hla.1 (by rw [ht]; simp) x ⟨_, List.mem_singleton.mpr rfl, .var⟩) h3
            subst e; omega
        | false =>
          cases hl : isLet (.app f es) with
          | true =>
            obtain ⟨ids, b, rfl, hlen⟩ := letLet hl
            have hbb : ∀ y, bc y (.app (.lam ids b) es) = ids.count y + bc y b + bcs y es := fun y => by simp [bc_app, bc_lam]
            have hcf : cf t (n + 1) Γ k (.app (.lam ids b) es) =
              (.app (.lam ids (cf t n (exts ids (ctypes t Γ (mapK (cf t n Γ) k es).1) Γ) (mapK (cf t n Γ) k es).2 b).1) (mapK (cf t n Γ) k es).1,
                (cf t n (exts ids (ctypes t Γ (mapK (cf t n Γ) k es).1) Γ) (mapK (cf t n Γ) k es).2 b).2) := by
              rw [cf_app, if_neg (by rw [hd]; simp), if_neg (by rw [hbg]; simp), if_pos hl]
            rw [hcf]
            clear hcf
            obtain ⟨k1, s1⟩ := mapK_does (fun k e => ih Γ k e) es k pe
            generalize mapK (cf t n Γ) k es = rs at *
            have pb : Pre t (exts ids (ctypes t Γ rs.1) Γ) k b := h.exts (fun y => by simp only [hbb]; omega) (fun y hy hm => .appF _ (.lam hm hy)) (by simpa [LocalAsserts] using h.la.1)
            have pbl : Pre t (exts ids (ctypes t Γ rs.1) Γ) rs.2 b := by
              refine ⟨pb.fit, fun y hy => ?_, fun y hy => pb.new y (by omega), fun y hy => ?_, pb.sep, pb.la⟩
              · have := pb.old y hy; omega
              · have := pb.fre y hy; omega
            obtain ⟨k2, s2⟩ := ih _ rs.2 b pbl
            generalize cf t n (exts ids (ctypes t Γ rs.1) Γ) rs.2 b = r at *
            have f1 := fr_add k1 k2
            have hfit := fit_new (k' := rs.2) h.fit h.old h.new
            have hlen' : ids.length = rs.1.length := hlen.trans s1.length
            refine ⟨Nat.le_trans k1 k2, (s1.map (fun z => .app (.lam ids b) z) (fun z hz y => ?_) (fun z z' hz hz2 _ => lift_appA hz (hfit.le (fun y => ?_)))).trans
              (s2.map (fun z => .app (.lam ids z) rs.1) (fun _ => True) (fun z hz y => ?_)
                (fun z z' hz _ _ => .letE hlen' (fun y hy => ((h.fit y).2 ?_).1) (FRs.refl _ (pe.out k1 s1).fit) hz) (fun _ _ => trivial))⟩
            · simp only [bc_app, bc_lam, f1 y]; have := hz y; omega
            · simp only [hbb]; simp only [bc_lam]; have := hz2 y; omega
            · simp only [bc_app, bc_lam, f1 y]; have := hz y; have := s1.last y; omega
            · simp only [hbb]; have := count_pos hy; omega
          | false =>
            have hcf : cf t (n + 1) Γ k (.app f es) =
              if isLet (.app (cf t n Γ k f).1 (mapK (cf t n Γ) (cf t n Γ k f).2 es).1) then
                cf t n Γ (mapK (cf t n Γ) (cf t n Γ k f).2 es).2 (.app (cf t n Γ k f).1 (mapK (cf t n Γ) (cf t n Γ k f).2 es).1)
              else (.app (cf t n Γ k f).1 (mapK (cf t n Γ) (cf t n Γ k f).2 es).1, (mapK (cf t n Γ) (cf t n Γ k f).2 es).2) := by
              rw [cf_app, if_neg (by rw [hd]; simp), if_neg (by rw [hbg]; simp), if_neg (by rw [hl]; simp)]
            rw [hcf]
            clear hcf
            obtain ⟨k1, s1⟩ := ih Γ k f pf
            generalize cf t n Γ k f = rf at *
            obtain ⟨k2, s2⟩ := mapK_does (fun k e => ih Γ k e) es rf.2 (pe.later k1)
            generalize mapK (cf t n Γ) rf.2 es = rs at *
            have f1 := fr_add k1 k2
            have hfit := fit_new (k' := rs.2) h.fit h.old h.new
            have S : FStar t Γ (fun y => bc y (.app f es) + fr k rs.2 y) (.app f es) (.app rf.1 rs.1) := by
              refine (s1.map (fun z => .app z es) (fun _ => True) (fun z hz y => ?_) (fun z z' hz hz2 _ => lift_appF hz (hfit.le (fun y => ?_))) (fun _ _ => trivial)).trans
                (s2.map (fun z => .app rf.1 z) (fun z hz y => ?_) (fun z z' hz hz2 _ => lift_appA hz (hfit.le (fun y => ?_))))
              · simp only [bc_app, f1 y]; have := hz y; omega
              · simp only [hb]; simp only [f1 y]; have := hz2 y; omega
              · simp only [bc_app, f1 y]; have := hz y; have := s1.last y; omega
              · simp only [hb]; simp only [f1 y]; have := hz2 y; have := s1.last y; omega
            have hk := Nat.le_trans k1 k2
            split
            · obtain ⟨k3, s3⟩ := ih Γ rs.2 (.app rf.1 rs.1) (h.out hk S)
              refine ⟨Nat.le_trans hk k3, (S.mono (fun y => ?_)).trans (s3.mono (fun y => ?_))⟩
              · rw [fr_add hk k3 y]; omega
              · rw [fr_add hk k3 y]; have := S.last y; omega
            · exact ⟨hk, S⟩

end Verif.Fold

import Verif.Parse.Expr
import Verif.Letrec.Props
/-
C61: `parse-program` makes the tree of a program.
-/
namespace Verif.Parse
open Verif.Core
open Verif.Fold (beginExp)
open Verif.Expand (Var Out)

variable {h : Nat → S} {pn : List Char → PrimName}

theorem inv_init : Inv h pn ⟨1, [], []⟩ := ⟨Nat.le_refl _, .nil, .nil, by simp, .nil, by simp, .nil, by simp⟩

/-! ### references -/

theorem literals_mem {g cs} (H : Literals h pn g cs) {c} (hc : c ∈ cs) :
    ∃ cs' o e, Literals h pn g cs' ∧ Shape h o ∧ Reads h pn g (cs'.map fun c => (c.1, c.2.2)) [] o e ∧ c.1 = render h o := by
  induction H with
  | nil => cases hc
  | @snoc cs o e x h1 h2 h3 _ ih =>
    rcases List.mem_append.mp hc with hc | hc
    · exact ih hc
    · simp only [List.mem_singleton] at hc
      subst hc
      exact ⟨cs, o, e, h1, h2, h3, rfl⟩

theorem readsAll_mem {g q Γ} : ∀ {os : List Out} {es : List Exp} {o : Out}, ReadsAll h pn g q Γ os es → o ∈ os → ∃ e, Reads h pn g q Γ o e
  | _ :: os, _, o, .cons a b, ho => by
    rcases List.mem_cons.mp ho with rfl | ho
    · exact ⟨_, a⟩
    · exact readsAll_mem b ho

theorem shape_form {o : Out} (H : Shape h o) {kw os} (e : o = .form kw os) : ∀ o ∈ os, Shape h o := by
  cases H <;> cases e <;> simp_all

theorem refers_form {vs t s} (H : Refers vs t s) {kw os} (e : t = .form kw os) (hk : kw ≠ "%quote") : ∃ o ∈ os, Refers vs o s := by
  cases H with
  | form _ ho hs => obtain ⟨_, rfl⟩ := Out.form.inj e; exact ⟨_, ho, hs⟩
  | quote _ => exact absurd (Out.form.inj e).1.symm hk
  | _ => cases e

theorem refers_quote {vs t s} (H : Refers vs t s) {c} (e : t = .form "%quote" [c]) : Refers [] c s := by
  cases H with
  | form hk _ _ => exact absurd (Out.form.inj e).1 hk
  | quote hs => obtain ⟨_, e⟩ := Out.form.inj e; cases e; exact hs
  | _ => cases e

theorem refers_mem (hh : Atoms h) : ∀ (n : Nat) {o : Out} {Γ e g cs s}, (render h o).size ≤ n → Shape h o → Literals h pn g cs →
    Reads h pn g (cs.map fun c => (c.1, c.2.2)) Γ o e → Refers (Γ.map (·.1)) o s → s ∈ g.map (·.1) := by
  intro n
  induction n with
  | zero => intro o Γ e g cs s hn; have := size_pos (render h o); omega
  | succ n IH =>
    intro o Γ e g cs s hn hS hL hr hs
    cases hr with
    | «local» hf =>
      generalize hvs : Γ.map (·.1) = vs at hs
      cases hs with
      | var hv => rw [← hvs] at hv; exact absurd (List.mem_map.mpr ⟨_, find_mem hf, rfl⟩) hv
    | global _ hg =>
      generalize hvs : Γ.map (·.1) = vs at hs
      cases hs with
      | var hv => exact List.mem_map.mpr ⟨_, hg, rfl⟩
    | @lam _ vs b ids e hl hb =>
      cases hS with
      | lam _ hSb =>
      generalize hvs : Γ.map (·.1) = ws at hs
      cases hs with
      | lam hs =>
        have hsz : (render h b).size < (render h (.lam vs none b)).size := by simp only [render, lst, list, S.size]; omega
        refine IH (by omega) hSb hL hb ?_
        rw [List.map_append, List.map_fst_zip (by omega), hvs]; exact hs
    | @letcc _ v b x e hb =>
      cases hS with
      | letcc _ hSb =>
      generalize hvs : Γ.map (·.1) = ws at hs
      cases hs with
      | letcc hs =>
        have hsz : (render h b).size < (render h (.letcc v b)).size := by simp only [render, lst, list, S.size]; omega
        exact IH (by omega) hSb hL hb (by rw [List.map_cons, hvs]; exact hs)
    | @set _ v a x e hv ha =>
      cases hS with
      | set hov hSa =>
      have hsz : (render h a).size + (render h (.var v)).size < (render h (.set v a)).size := by simp only [render, lst, list, S.size]; omega
      generalize hvs : Γ.map (·.1) = ws at hs
      cases hs with
      | setv hs => exact IH (by omega) (.var hov) hL hv (by rw [hvs]; exact hs)
      | seta hs => exact IH (by omega) hSa hL ha (by rw [hvs]; exact hs)
    | @if3 _ a b c a' b' c' ha hb hc =>
      have hsz : (render h (.form "if" [a, b, c])).size = (list (renderAll h [a, b, c]) .nil).size + 2 := by
        simp only [render, lst, list, renderAll, S.size, y]; omega
      have h1 := shape_form hS rfl
      replace hs := refers_form hs rfl (by decide)
      obtain ⟨o, ho, hs⟩ := hs
      · have := size_all (h := h) ho
        have hSo := h1 o ho
        simp only [List.mem_cons, List.not_mem_nil, or_false] at ho
        rcases ho with rfl | rfl | rfl
        · exact IH (by omega) hSo hL ha hs
        · exact IH (by omega) hSo hL hb hs
        · exact IH (by omega) hSo hL hc hs
    | @if2 _ a b a' b' ha hb =>
      have hsz : (render h (.form "if" [a, b])).size = (list (renderAll h [a, b]) .nil).size + 2 := by
        simp only [render, lst, list, renderAll, S.size, y]; omega
      have h1 := shape_form hS rfl
      replace hs := refers_form hs rfl (by decide)
      obtain ⟨o, ho, hs⟩ := hs
      · have := size_all (h := h) ho
        have hSo := h1 o ho
        simp only [List.mem_cons, List.not_mem_nil, or_false] at ho
        rcases ho with rfl | rfl
        · exact IH (by omega) hSo hL ha hs
        · exact IH (by omega) hSo hL hb hs
    | @withcc _ a b a' b' ha hb =>
      have hsz : (render h (.form "withcc" [a, b])).size = (list (renderAll h [a, b]) .nil).size + 2 := by
        simp only [render, lst, list, renderAll, S.size, y]; omega
      have h1 := shape_form hS rfl
      replace hs := refers_form hs rfl (by decide)
      obtain ⟨o, ho, hs⟩ := hs
      · have := size_all (h := h) ho
        have hSo := h1 o ho
        simp only [List.mem_cons, List.not_mem_nil, or_false] at ho
        rcases ho with rfl | rfl
        · exact IH (by omega) hSo hL ha hs
        · exact IH (by omega) hSo hL hb hs
    | begin0 =>
      replace hs := refers_form hs rfl (by decide)
      obtain ⟨o, ho, hs⟩ := hs
      cases ho
    | @begin _ os a es a' e h1 h2 h3 =>
      have hsz : (render h (.form "begin" (os ++ [a]))).size = (list (renderAll h (os ++ [a])) .nil).size + 2 := by
        simp only [render, lst, S.size, y]; omega
      have hos := shape_form hS rfl
      replace hs := refers_form hs rfl (by decide)
      obtain ⟨o, ho, hs⟩ := hs
      · have := size_all (h := h) ho
        have hSo := hos _ ho
        rcases List.mem_append.mp ho with ho | ho
        · obtain ⟨e, he⟩ := readsAll_mem h1 ho
          exact IH (by omega) hSo hL he hs
        · simp only [List.mem_singleton] at ho
          subst ho
          exact IH (by omega) hSo hL h2 hs
    | @cheap _ c _ hc _ =>
      · replace hs := refers_quote hs rfl
        unfold Cheap at hc
        split at hc
        · exact absurd hs no_refers
        · cases hc
    | @quote _ c x hc hq =>
      have hSc := shape_form hS rfl c (by simp)
      · replace hs := refers_quote hs rfl
        have hsz : (render h c).size < (render h (.form "%quote" [c])).size := by
          simp only [render, renderAll, lst, list, S.size]; omega
        obtain ⟨p, hp, e⟩ := List.mem_map.mp hq
        simp only [Prod.mk.injEq] at e
        obtain ⟨cs', o', e', k1, k2, k3, k4⟩ := literals_mem hL hp
        rw [e.1] at k4
        have hnil : EnvOk [] := by intro p hp; cases hp
        obtain ⟨e1, st1, a1, a2, a3, _⟩ := psexp_ok (pn := pn) hh n c [] (by omega) hSc hnil _ inv_init
        obtain ⟨e2, st2, b1, b2, b3, _⟩ := psexp_ok (pn := pn) hh n o' [] (by rw [← k4]; omega) k2 hnil _ inv_init
        rw [← k4, a1] at b1
        simp only [Option.some.injEq, Prod.mk.injEq] at b1
        obtain ⟨rfl, rfl⟩ := b1
        have hm := IH (cs := st1.consts.reverse) (by omega) hSc a2.inv.lits a3 hs
        obtain ⟨p', hp', rfl⟩ := List.mem_map.mp hm
        rcases b2.new p' hp' with hx | hx
        · cases hx
        · exact IH (by rw [← k4]; omega) k2 k1 k3 hx
    | @prim _ kw eff sf os es hk h1 =>
      have hsz : (list (renderAll h os) .nil).size + 2 ≤ (render h (.prim kw sf os)).size := by
        simp only [render, lst, S.size, y]; omega
      generalize hvs : Γ.map (·.1) = ws at hs
      cases hS with
      | prim _ _ hos =>
      cases hs with
      | prim ho hs =>
        have := size_all (h := h) ho
        rw [← hvs] at hs
        obtain ⟨e, he⟩ := readsAll_mem h1 ho
        exact IH (by omega) (hos _ ho) hL he hs
    | @letrec _ vs os b _ _ _ _ _ _ hl _ h1 h2 _ _ =>
      cases hS with
      | letrec _ hlen hos hSb =>
      have hl' : vs.length = (renderAll h os).length := by rw [length_renderAll, hlen]
      generalize hvs : Γ.map (·.1) = ws at hs
      cases hs with
      | letrec ho hs =>
        have := size_bindings hl' (mem_renderAll (h := h) ho)
        obtain ⟨e, he⟩ := readsAll_mem h1 ho
        refine IH (by simp only [render, lst, list, S.size] at this hn ⊢; omega) (hos _ ho) hL he ?_
        rw [List.map_append, List.map_fst_zip (by omega), hvs]; exact hs
      | letrecb hs =>
        refine IH (by simp only [render, lst, list, S.size] at hn ⊢; omega) hSb hL h2 ?_
        rw [List.map_append, List.map_fst_zip (by omega), hvs]; exact hs
    | @app _ f os f' es h1 h2 =>
      have hsz : (render h (.app f os)).size = (render h f).size + (list (renderAll h os) .nil).size + 1 := by
        simp only [render, lst, S.size]
      cases hS with
      | app hf hos =>
      generalize hvs : Γ.map (·.1) = ws at hs
      cases hs with
      | appf hs => exact IH (by have := size_pos (list (renderAll h os) .nil); omega) hf hL h1 (by rw [hvs]; exact hs)
      | appa ho hs =>
        have := size_all (h := h) ho
        obtain ⟨e, he⟩ := readsAll_mem h2 ho
        exact IH (by omega) (hos _ ho) hL he (by rw [hvs]; exact hs)

/-! ### programs -/

theorem not_define {o : Out} (hS : Shape h o) : sexpMatch (lst [y "define", y "*", y "*"]) (render h o) = false := by
  have pair : ∀ x d : S, x ≠ y "define" → sexpMatch (lst [y "define", y "*", y "*"]) (.pair x d) = false := by
    intro x d hx
    simp only [lst, list]
    rw [match_pair (by simp [y]) (by simp [y]), y, match_sym (by decide) (by decide) (by decide) (by decide) (by decide) (by decide),
      decide_eq_false (by exact hx), Bool.false_and]
  cases hS with
  | var hv => simp [render, lst, list, sexpMatch, y, isList1]
  | @prim kw eff sf os hk _ _ =>
    refine pair _ _ ?_
    intro e
    have : kw = "define" := String.toList_inj.mp (by simpa [y] using e)
    subst this
    revert hk
    simp [prim_iff, prims]
  | @app f os _ _ =>
    rw [render]
    refine pair _ _ ?_
    intro e
    cases f with
    | var v => exact name_not_define v (by simpa [render, y] using e)
    | _ => simp [render, y, lst, list] at e
  | _ => exact pair _ _ (by simp [y])

theorem ptop_ok (hh : Atoms h) {n : Nat} {o : Out} (hn : (render h o).size ≤ n) (hS : TopShape h o) {st : St} (H : Inv h pn st) :
    ∃ e st', ptop pn n (render h o) st = some (e, st') ∧ Step h pn n (Refers [] o) st st' (binders e) ∧
      TopReads h pn st'.globals (qs st') o e ∧ ∀ x, Free x e → Neg st' x := by
  have hnil : EnvOk [] := by intro p hp; cases hp
  cases hS with
  | @define v a hv ha =>
    have hsz : (render h a).size < (render h (.define v a)).size := by simp only [render, lst, list, S.size]; omega
    obtain ⟨a1, _, a3, a4⟩ := makeId_ok (sz := n) (Γ := []) hv hnil H
    obtain ⟨e, st', b1, b2, b3, b4⟩ := psexp_ok (pn := pn) hh n a [] (by omega) ha hnil _ a1.inv
    refine ⟨.set _ e, st', ?_, ?_, .define (b2.gmem _ (a4 rfl)) b3, ?_⟩
    · have b1' : psexp pn n [] (render h a) (makeId (name v) [] st).2 = some (e, st') := b1
      simp only [ptop, render, lst, list, sexpMatch, y, isList1, items]
      simp [b1', env]
    · refine (a1.weaken (Nat.le_refl _) ?_ fun _ => Nat.le_refl _).trans (b2.weaken (by omega) (fun s hs => .define hs) fun _ => Nat.le_refl _)
      intro s hs
      cases hs with
      | var _ => exact .defv
    · intro x hx
      cases hx with
      | setTarget =>
        rcases a3 with hm | hm
        · cases hm
        · exact hm.mono b2.le
      | set _ hx =>
        rcases b4 x hx with hm | hm
        · cases hm
        · exact hm
  | expr hS =>
    obtain ⟨e, st', b1, b2, b3, b4⟩ := psexp_ok (pn := pn) hh n o [] hn hS hnil _ H
    have b1' : psexp pn n [] (render h o) st = some (e, st') := b1
    refine ⟨e, st', by rw [ptop, not_define hS]; simpa using b1', b2.weaken hn (fun s hs => hs) fun _ => Nat.le_refl _, .expr b3, ?_⟩
    intro x hx
    rcases b4 x hx with hm | hm
    · cases hm
    · exact hm

theorem TopReads.mono {g g' : List (Sym × Id)} {q q' : List (S × Id)} {o e} (hg : ∀ p ∈ g, p ∈ g') (hq : ∀ p ∈ q, p ∈ q') :
    TopReads h pn g q o e → TopReads h pn g' q' o e
  | .define a b => .define (hg _ a) (b.mono hg hq)
  | .expr a => .expr (a.mono hg hq)

theorem ptops_ok (hh : Atoms h) {n : Nat} {R : Sym → Prop} : ∀ {os : List Out} {st : St}, Inv h pn st → (∀ o ∈ os, (render h o).size ≤ n) →
    (∀ o ∈ os, TopShape h o) → (∀ o ∈ os, ∀ s, Refers [] o s → R s) →
    ∃ es st', mapP (ptop pn n) (renderAll h os) st = some (es, st') ∧ Step h pn n R st st' (bindersAll es) ∧
      List.Forall₂ (TopReads h pn st'.globals (qs st')) os es ∧ ∀ e ∈ es, ∀ x, Free x e → Neg st' x
  | [], st, H, _, _, _ => ⟨[], st, rfl, .refl H, .nil, by simp⟩
  | o :: os, st, H, hn, hS, hR => by
    obtain ⟨e, st1, a1, a2, a3, a4⟩ := ptop_ok (pn := pn) hh (hn o (by simp)) (hS o (by simp)) H
    obtain ⟨es, st2, b1, b2, b3, b4⟩ := ptops_ok hh (os := os) a2.inv (fun o ho => hn o (by simp [ho])) (fun o ho => hS o (by simp [ho]))
      (fun o ho => hR o (by simp [ho]))
    refine ⟨e :: es, st2, by simp [mapP, renderAll, a1, b1], ?_, .cons (a3.mono b2.gmem b2.qmem) b3, ?_⟩
    · exact (a2.weaken (Nat.le_refl _) (hR o (by simp)) fun _ => Nat.le_refl _).trans b2
    · intro e' he x hx
      rcases List.mem_cons.mp he with rfl | he
      · exact (a4 x hx).mono b2.le
      · exact b4 e' he x hx

theorem size_sum : ∀ {xs : List S} {x : S}, x ∈ xs → x.size ≤ (xs.map S.size).sum
  | a :: xs, x, hx => by
    rcases List.mem_cons.mp hx with rfl | hx
    · simp
    · have := size_sum hx; simp only [List.map_cons, List.sum_cons]; omega

/-- the parser on programs. -/
theorem parse_ok (hh : Atoms h) {prog : List Out} (hS : ∀ o ∈ prog, TopShape h o) :
    ∃ e g cs k, parseProgram pn (renderAll h prog) = some (e, g.map (·.1), k) ∧ Program h pn prog e g cs ∧ Letrec.FixProg k e ∧
      (∀ s, s ∈ g.map (·.1) ↔ ∃ o ∈ prog, Refers [] o s) ∧ ∀ x, Free x e → x.isGlobal = true := by
  obtain ⟨es, st, a1, a2, a3, a4⟩ := ptops_ok (pn := pn) (n := ((renderAll h prog).map S.size).sum + 1) hh (os := prog) inv_init
    (R := fun s => ∃ o ∈ prog, Refers [] o s)
    (fun o ho => by have := size_sum (mem_renderAll (h := h) ho); omega) hS (fun o ho s hs => ⟨o, ho, hs⟩)
  obtain ⟨s1, s2, ⟨l, s3, s4⟩, s5⟩ := seqAll_spec (es := es) st.next
  obtain ⟨t1, t2, ⟨l', t3, t4⟩, t5⟩ := addConsts_spec (cs := st.consts) (seqAll st.next es).2 s1
  obtain ⟨cs, ec, _, hf⟩ := a2.c
  have I := a2.inv
  simp only [List.append_nil] at ec
  rw [← ec] at hf
  have hF : Fresh 1 (addConsts (seqAll st.next es).2 st.consts (seqAll st.next es).1).2 (binders (addConsts (seqAll st.next es).2 st.consts (seqAll st.next es).1).1) := by
    refine (hf.append (s3.append t3 s2 t2) a2.le (by omega)).le fun x => ?_
    have := s4 x
    have := t4 x
    simp only [List.count_append]
    omega
  have hfree : ∀ x, Free x (addConsts (seqAll st.next es).2 st.consts (seqAll st.next es).1).1 → Neg st x := by
    intro x hx
    rcases t5 x hx with ⟨c, hc, rfl | hx⟩ | hx
    · exact (I.cids c hc).1
    · exact I.closed c hc x hx
    · obtain ⟨e, he, hx⟩ := s5 x hx
      exact a4 e he x hx
  have hin : ∀ x ∈ binders (addConsts (seqAll st.next es).2 st.consts (seqAll st.next es).1).1,
      InR 1 (addConsts (seqAll st.next es).2 st.consts (seqAll st.next es).1).2 x := by
    intro x hx
    have h1 := hF x
    have h2 := List.count_pos_iff.mpr hx
    by_contra hc
    rw [if_neg hc] at h1
    omega
  refine ⟨(addConsts (seqAll st.next es).2 st.consts (seqAll st.next es).1).1, st.globals, st.consts.reverse,
    (addConsts (seqAll st.next es).2 st.consts (seqAll st.next es).1).2, ?_, ⟨I.lits, ⟨es, ?_, ?_⟩, I.syms, ?_, ?_, ?_⟩, ⟨⟨?_, ?_⟩, ?_, ?_⟩, ?_, ?_⟩
  · rw [parseProgram, a1]
  · exact a3
  · exact t1
  · rw [List.nodup_append]
    refine ⟨I.gnodup, by rw [List.map_reverse]; exact List.nodup_reverse.mpr I.cnodup, ?_⟩
    intro x hx y hy e
    subst e
    obtain ⟨p, hp, rfl⟩ := List.mem_map.mp hx
    obtain ⟨c, hc, e⟩ := List.mem_map.mp hy
    have h1 := (I.gids p hp).2
    have h2 := (I.cids c (by simpa using hc)).2
    rw [e, h1] at h2
    cases h2
  · intro p hp
    have h1 := I.gids p hp
    have h2 := h1.1.2
    simp [Id.isGlobal, Id.isGlobalConst, h1.2, h2]
  · intro c hc
    have h1 := I.cids c (by simpa using hc)
    have h2 := h1.1.2
    simp [Id.isGlobal, Id.isGlobalConst, h1.2, h2]
  · rw [List.nodup_iff_count_le_one]
    intro x
    have := hF x
    split at this <;> omega
  · intro x hx hfr
    have h1 := hin x hx
    have h2 := (hfree x hfr).2
    unfold InR at h1
    omega
  · intro x hx
    have h1 := hin x hx
    unfold InR at h1
    simp only [Id.isGlobal, decide_eq_false_iff_not, not_lt]
    omega
  · rintro x (hx | hx)
    · have h1 := hin x hx
      unfold InR at h1
      omega
    · have := (hfree x hx).2
      omega
  · intro s
    constructor
    · intro hs
      obtain ⟨p, hp, rfl⟩ := List.mem_map.mp hs
      rcases a2.new p hp with hx | hx
      · cases hx
      · exact hx
    · rintro ⟨o, ho, hs⟩
      have : ∃ e, TopReads h pn st.globals (qs st) o e := by
        clear * - a3 ho
        induction a3 with
        | nil => cases ho
        | cons a _ ih =>
          rcases List.mem_cons.mp ho with rfl | ho
          · exact ⟨_, a⟩
          · exact ih ho
      obtain ⟨e, he⟩ := this
      cases he with
      | define hg hr =>
        cases hS _ ho with
        | expr hS => cases hS
        | define _ ha =>
        cases hs with
        | define hs => exact refers_mem hh _ (Nat.le_refl _) ha I.lits hr hs
        | defv => exact List.mem_map.mpr ⟨_, hg, rfl⟩
      | expr hr =>
        cases hS _ ho with
        | expr hS => exact refers_mem hh _ (Nat.le_refl _) hS I.lits hr hs
        | define _ _ => cases hr
  · intro x hx
    have := (hfree x hx).2
    simp [Id.isGlobal, this]

end Verif.Parse

import Verif.Parse.Main
/-
C61: `psexp` makes the tree of an expression (all cases).
-/
namespace Verif.Parse
open Verif.Core
open Verif.Fold (beginExp)
open Verif.Expand (Var Out)

variable {h : Nat → S} {pn : List Char → PrimName}

/-- atoms are strings or other atoms. -/
def Atoms (h : Nat → S) : Prop := ∀ n, (∃ s, h n = .str s) ∨ ∃ m, h n = .atom m

theorem cheap_render (hh : Atoms h) {c : Out} (hc : Shape h c) : cheap (render h c) = Cheap c := by
  have pair : ∀ x d : S, sexpMatch (lst [y "%prim", y "<string-forest>"]) (.pair x d) =
      (decide (x = y "%prim") && sexpMatch (lst [y "<string-forest>"]) d) := by
    intro x d
    simp only [lst, list]
    rw [match_pair (by simp [y]) (by simp [y]), y, match_sym (by decide) (by decide) (by decide) (by decide) (by decide) (by decide)]
  cases hc with
  | @prim kw eff sf os hk hsf _ =>
    have hk' : kw.toList = "%prim".toList ↔ kw = "%prim" := String.toList_inj
    cases os with
    | cons o os =>
      have : sexpMatch (lst [y "%prim", y "<string-forest>"]) (render h (.prim kw sf (o :: os))) = false := by
        rw [render, pair]
        simp [lst, list, renderAll, sexpMatch, y, isList1]
      simp [cheap, this, Cheap]
    | nil =>
      have : sexpMatch (lst [y "%prim", y "<string-forest>"]) (render h (.prim kw sf [])) = decide (kw = "%prim") := by
        rw [render, pair]
        simp [lst, list, renderAll, sexpMatch, y, isList1, text_iff.2 hsf, ← String.toList_inj]
      rw [cheap, this]
      unfold Cheap
      congr 1
      simp only [render, renderAll, lst, list, items]
      cases sf with
      | atom n => rcases hh n with ⟨s, e⟩ | ⟨m, e⟩ <;> simp [conv, e]
      | _ => rfl
  | @app f os hf _ =>
    have : sexpMatch (lst [y "%prim", y "<string-forest>"]) (render h (.app f os)) = false := by
      rw [render, pair, decide_eq_false, Bool.false_and]
      intro e
      cases f with
      | var v => exact name_not_head v (by simp only [render, y, S.sym.injEq] at e; rw [e]; decide)
      | _ => simp [render, y, lst, list] at e
    simp [cheap, this, Cheap]
  | _ => simp [cheap, Cheap, render, lst, list, sexpMatch, y, isList1]

theorem size_pos (x : S) : 1 ≤ x.size := by cases x <;> simp [S.size]

theorem size_list : ∀ {xs : List S} {x : S}, x ∈ xs → x.size < (list xs .nil).size
  | [], _, hx => by cases hx
  | a :: xs, x, hx => by
    rcases List.mem_cons.mp hx with rfl | hx
    · simp only [list, S.size]; omega
    · have := size_list hx; simp only [list, S.size]; omega

theorem mem_renderAll : ∀ {os : List Out} {o : Out}, o ∈ os → render h o ∈ renderAll h os
  | _ :: os, o, ho => by
    rcases List.mem_cons.mp ho with rfl | ho
    · simp [renderAll]
    · simp [renderAll, mem_renderAll ho]

theorem length_renderAll : ∀ os : List Out, (renderAll h os).length = os.length
  | [] => rfl
  | _ :: os => by simp [renderAll, length_renderAll os]

theorem size_all {os : List Out} {o : Out} (ho : o ∈ os) : (render h o).size < (list (renderAll h os) .nil).size := size_list (mem_renderAll ho)

theorem size_bindings : ∀ {vs : List Var} {xs : List S} {x : S}, vs.length = xs.length → x ∈ xs →
    x.size < (list (List.zipWith (fun v e => lst [.sym (name v), e]) vs xs) .nil).size
  | _, [], _, _, hx => by cases hx
  | [], _ :: _, _, hl, _ => by cases hl
  | v :: vs, a :: xs, x, hl, hx => by
    rcases List.mem_cons.mp hx with rfl | hx
    · simp only [List.zipWith_cons_cons, lst, list, S.size]; omega
    · have := size_bindings (vs := vs) (by simpa using hl) hx
      simp only [List.zipWith_cons_cons, list, S.size]; omega

theorem readsAll_snoc {g q Γ} : ∀ {os : List Out} {o : Out} {es : List Exp}, ReadsAll h pn g q Γ (os ++ [o]) es →
    ∃ es' e, es = es' ++ [e] ∧ ReadsAll h pn g q Γ os es' ∧ Reads h pn g q Γ o e
  | [], o, es, H => by
    cases H with
    | cons a b => cases b with | nil => exact ⟨[], _, rfl, .nil, a⟩
  | o' :: os, o, es, H => by
    cases H with
    | cons a b =>
      obtain ⟨es', e, rfl, b1, b2⟩ := readsAll_snoc b
      exact ⟨_ :: es', e, rfl, .cons a b1, b2⟩

theorem readsAll_length {g q Γ} : ∀ {os : List Out} {es : List Exp}, ReadsAll h pn g q Γ os es → es.length = os.length
  | [], _, H => by cases H; rfl
  | _ :: _, _, H => by cases H with | cons _ b => simp [readsAll_length b]

theorem count_append_le {l b c : List Id} (hb : ∀ x, b.count x ≤ c.count x + l.count x) :
    ∀ x, b.count x ≤ (c ++ l).count x := fun x => by rw [List.count_append]; exact hb x

theorem free_void {x : Id} : ¬ Free x voidExp := by
  intro H
  cases H with
  | prim _ _ he _ => cases he

theorem find_lits {c : S} : ∀ {l : List (S × Exp × Id)}, l.find? (fun p => decide (p.1 = c)) = none → ∀ p ∈ l, p.1 ≠ c := by
  intro l hl p hp e
  have := List.find?_eq_none.mp hl p hp
  simp [e] at this

theorem no_refers {vs : List Var} {kw sf s} : ¬ Refers vs (.prim kw sf []) s := by
  intro H
  cases H with
  | prim hm _ => cases hm

theorem psexp_ok (hh : Atoms h) : ∀ (n : Nat) (o : Out) (Γ : List (Var × Id)), (render h o).size ≤ n → Shape h o → EnvOk Γ → Good h pn n Γ o := by
  intro n
  induction n with
  | zero => intro o Γ hn; have := size_pos (render h o); omega
  | succ n IH =>
    intro o Γ hn hS hΓ st H
    have one : ∀ {os : List Out}, (list (renderAll h os) .nil).size ≤ n → (∀ o ∈ os, Shape h o) → ∀ o ∈ os, Good h pn n Γ o :=
      fun hn hS o ho => IH o Γ (by have := size_all (h := h) ho; omega) (hS o ho) hΓ
    cases hS with
    | @var v hv =>
      obtain ⟨a, b, c, _⟩ := makeId_ok (sz := (render h (.var v)).size) hv hΓ H
      refine ⟨_, _, psexp_var hv.2, ?_, b, ?_⟩
      · simpa [binders] using a
      · intro x hx; cases hx; exact c
    | @lam vs b hv hb =>
      have hsz : (render h b).size < (render h (.lam vs none b)).size := by
        simp only [render, lst, list, S.size]; omega
      have hΓ' : EnvOk (vs.zip (ids st.next vs.length) ++ Γ) := by
        intro p hp
        rcases List.mem_append.mp hp with hp | hp
        · exact (hv _ (List.of_mem_zip hp).1).1
        · exact hΓ p hp
      have hle : st.next ≤ st.next + vs.length := by omega
      obtain ⟨e, st', a1, a2, a3, a4⟩ := IH b (vs.zip (ids st.next vs.length) ++ Γ) (by omega) hb hΓ' _ (H.bump hle)
      have hfst : (vs.zip (ids st.next vs.length) ++ Γ).map (·.1) = vs ++ Γ.map (·.1) := by
        rw [List.map_append, List.map_fst_zip]; simp [ids_length]
      have hsnd : (vs.zip (ids st.next vs.length) ++ Γ).map (·.2) = ids st.next vs.length ++ Γ.map (·.2) := by
        rw [List.map_append, List.map_snd_zip]; simp [ids_length]
      refine ⟨.lam (ids st.next vs.length) e, st', ?_, ?_, .lam (ids_length _ _) a3, ?_⟩
      · have := psexp_lambda (pn := pn) (n := n) (e := env Γ) (st := st) (st' := st') (ss := vs.map name) (b := render h b) (b' := e)
          (by intro s hs; obtain ⟨v, hv', rfl⟩ := List.mem_map.mp hs; exact (hv v hv').2)
          (by
            rw [newIds_length, newIds_env, List.length_map, env, env, ← List.map_append]
            exact a1)
        rw [newIds_snd, List.length_map, List.map_map] at this
        exact this
      · refine ((Step.bump H hle (ids_fresh st.next vs.length)).trans (a2.weaken hsz.le (R' := Refers (Γ.map (·.1)) (.lam vs none b)) ?_ fun _ => Nat.le_refl _)).weaken
          (Nat.le_refl _) (fun _ hs => hs) fun _ => Nat.le_refl _
        intro s hs
        rw [hfst] at hs
        exact .lam hs
      · intro x hx
        cases hx with
        | lam hn hx =>
          rw [hsnd] at a4
          rcases a4 x hx with hm | hm
          · rcases List.mem_append.mp hm with hm | hm
            · exact absurd hm hn
            · exact .inl hm
          · exact .inr hm
    | @letcc v b hv hb =>
      have hsz : (render h b).size < (render h (.letcc v b)).size := by
        simp only [render, lst, list, S.size]; omega
      have hΓ' : EnvOk ((v, lexId st.next) :: Γ) := by
        intro p hp
        rcases List.mem_cons.mp hp with rfl | hp
        · exact hv.1
        · exact hΓ p hp
      obtain ⟨e, st', a1, a2, a3, a4⟩ := IH b ((v, lexId st.next) :: Γ) (by omega) hb hΓ' _ (H.bump (k := st.next + 1) (by omega))
      refine ⟨.letcc (lexId st.next) e, st', psexp_letcc hv.2 a1, ?_, .letcc a3, ?_⟩
      · exact (Step.bump H (by omega) Fresh.one).trans (a2.weaken hsz.le (fun s hs => .letcc hs) fun _ => Nat.le_refl _)
      · intro x hx
        cases hx with
        | letcc hne hx =>
          rcases a4 x hx with hm | hm
          · rcases List.mem_cons.mp hm with rfl | hm
            · exact absurd rfl hne
            · exact .inl hm
          · exact .inr hm
    | @set v a hv ha =>
      have hsz : (render h a).size < (render h (.set v a)).size := by
        simp only [render, lst, list, S.size]; omega
      obtain ⟨a1, a2, a3, _⟩ := makeId_ok (sz := (render h (.set v a)).size) hv hΓ H
      obtain ⟨e, st', b1, b2, b3, b4⟩ := IH a Γ (by omega) ha hΓ _ a1.inv
      refine ⟨_, st', psexp_set hv.2 b1, ?_, .set (a2.mono b2.gmem b2.qmem) b3, ?_⟩
      · exact (a1.weaken (Nat.le_refl _) (fun s hs => .setv hs) fun _ => Nat.le_refl _).trans
          (b2.weaken hsz.le (fun s hs => .seta hs) fun _ => Nat.le_refl _)
      · intro x hx
        cases hx with
        | setTarget => exact a3.imp_right fun hN => hN.mono b2.le
        | set _ hx => exact b4 x hx
    | @if3 a b c ha hb hc =>
      have hsz : (render h (.form "if" [a, b, c])).size = (list (renderAll h [a, b, c]) .nil).size + 2 := by
        simp only [render, lst, list, renderAll, S.size, y]; omega
      obtain ⟨es, st', a1, a2, a3, a4⟩ := mapP_ok (n := n) (Γ := Γ) (sz := (render h (.form "if" [a, b, c])).size)
        (R := Refers (Γ.map (·.1)) (.form "if" [a, b, c])) (os := [a, b, c]) H (one (by omega) (by simp [ha, hb, hc]))
        (fun o ho => by have := size_all (h := h) ho; omega) (fun o ho s hs => .form (by decide) ho hs)
      cases a3 with | cons r1 a3 => cases a3 with | cons r2 a3 => cases a3 with | cons r3 a3 => cases a3 with | nil =>
      rename_i e1 e2 e3
      refine ⟨.ite e1 e2 e3, st', psexp_if3 a1, a2.weaken (Nat.le_refl _) (fun _ hs => hs) (fun x => by simp [binders, bindersAll]), .if3 r1 r2 r3, ?_⟩
      intro x hx
      cases hx with
      | iteA _ _ hx => exact a4 e1 (by simp) x hx
      | iteB _ _ hx => exact a4 e2 (by simp) x hx
      | iteC _ _ hx => exact a4 e3 (by simp) x hx
    | @if2 a b ha hb =>
      have hsz : (render h (.form "if" [a, b])).size = (list (renderAll h [a, b]) .nil).size + 2 := by
        simp only [render, lst, list, renderAll, S.size, y]; omega
      obtain ⟨es, st', a1, a2, a3, a4⟩ := mapP_ok (n := n) (Γ := Γ) (sz := (render h (.form "if" [a, b])).size)
        (R := Refers (Γ.map (·.1)) (.form "if" [a, b])) (os := [a, b]) H (one (by omega) (by simp [ha, hb]))
        (fun o ho => by have := size_all (h := h) ho; omega) (fun o ho s hs => .form (by decide) ho hs)
      cases a3 with | cons r1 a3 => cases a3 with | cons r2 a3 => cases a3 with | nil =>
      rename_i e1 e2
      refine ⟨.ite e1 e2 voidExp, st', psexp_if2 a1, a2.weaken (Nat.le_refl _) (fun _ hs => hs) (fun x => by simp [binders, bindersAll, voidExp]),
        .if2 r1 r2, ?_⟩
      intro x hx
      cases hx with
      | iteA _ _ hx => exact a4 e1 (by simp) x hx
      | iteB _ _ hx => exact a4 e2 (by simp) x hx
      | iteC _ _ hx => exact absurd hx free_void
    | @withcc a b ha hb =>
      have hsz : (render h (.form "withcc" [a, b])).size = (list (renderAll h [a, b]) .nil).size + 2 := by
        simp only [render, lst, list, renderAll, S.size, y]; omega
      obtain ⟨es, st', a1, a2, a3, a4⟩ := mapP_ok (n := n) (Γ := Γ) (sz := (render h (.form "withcc" [a, b])).size)
        (R := Refers (Γ.map (·.1)) (.form "withcc" [a, b])) (os := [a, b]) H (one (by omega) (by simp [ha, hb]))
        (fun o ho => by have := size_all (h := h) ho; omega) (fun o ho s hs => .form (by decide) ho hs)
      cases a3 with | cons r1 a3 => cases a3 with | cons r2 a3 => cases a3 with | nil =>
      rename_i e1 e2
      refine ⟨.withcc e1 e2, st', psexp_withcc a1, a2.weaken (Nat.le_refl _) (fun _ hs => hs) (fun x => by simp [binders, bindersAll]),
        .withcc r1 r2, ?_⟩
      intro x hx
      cases hx with
      | withccK _ hx => exact a4 e1 (by simp) x hx
      | withccE _ hx => exact a4 e2 (by simp) x hx
    | @begin os hos =>
      have hsz : (render h (.form "begin" os)).size = (list (renderAll h os) .nil).size + 2 := by
        simp only [render, lst, S.size, y]; omega
      obtain ⟨es, st', a1, a2, a3, a4⟩ := mapP_ok (n := n) (Γ := Γ) (sz := (render h (.form "begin" os)).size)
        (R := Refers (Γ.map (·.1)) (.form "begin" os)) (os := os) H (one (by omega) hos)
        (fun o ho => by have := size_all (h := h) ho; omega) (fun o ho s hs => .form (by decide) ho hs)
      rcases List.eq_nil_or_concat os with rfl | ⟨os', o, rfl⟩
      · cases a3
        exact ⟨voidExp, st', psexp_begin a1, a2.weaken (Nat.le_refl _) (fun _ hs => hs) (fun x => by simp [voidExp, binders]), .begin0,
          fun x hx => absurd hx free_void⟩
      · rw [List.concat_eq_append] at *
        obtain ⟨es', e, rfl, r1, r2⟩ := readsAll_snoc a3
        obtain ⟨s1, s2, ⟨l, s3, s4⟩, s5⟩ := beginAll_spec (es := es') (a := e) st'.next
        refine ⟨_, _, psexp_begin a1, (a2.trans (Step.bump a2.inv s2 s3)).weaken (Nat.le_refl _) (fun _ hs => hs) (count_append_le s4),
          .begin r1 r2 s1, ?_⟩
        intro x hx
        obtain ⟨e', he, hx⟩ := s5 x hx
        exact (a4 e' he x hx).imp_right fun hN => hN.mono s2
    | @quote c hc =>
      have hsz : (render h c).size < (render h (.form "%quote" [c])).size := by
        simp only [render, renderAll, lst, list, S.size]; omega
      cases hch : Cheap c with
      | true =>
        obtain ⟨e, st', a1, a2, a3, a4⟩ := IH c Γ (by omega) hc hΓ st H
        have a2' : Step h pn (render h (.form "%quote" [c])).size (Refers (Γ.map (·.1)) (.form "%quote" [c])) st st' (binders e) := by
          refine a2.weaken hsz.le ?_ fun _ => Nat.le_refl _
          intro s hs
          unfold Cheap at hch
          split at hch
          · exact absurd hs no_refers
          · cases hch
        exact ⟨e, st', psexp_cheap ((cheap_render hh hc).trans hch) a1, a2', .cheap hch a3, a4⟩
      | false =>
        have hch' := (cheap_render hh hc).trans hch
        cases hfd : st.consts.find? (fun p => decide (p.1 = render h c)) with
        | some p =>
          have hp := List.mem_of_find?_eq_some hfd
          have hpc : p.1 = render h c := by simpa using List.find?_some hfd
          refine ⟨_, st, psexp_shared hch' hfd, .refl H, .quote hch ?_, ?_⟩
          · simp only [qs, List.map_reverse, List.mem_reverse]
            exact List.mem_map.mpr ⟨p, hp, by rw [hpc]⟩
          · intro x hx; cases hx; exact .inr (H.cids p hp).1
        | none =>
          obtain ⟨e, st', a1, a2, a3, a4⟩ := IH c [] (by omega) hc (by intro p hp; cases hp) st H
          have hN : Neg { st' with next := st'.next + 1 } ⟨-(st'.next : Int), true⟩ := by
            have := a2.inv.pos
            unfold Neg
            constructor <;> simp only <;> omega
          have hcl : ∀ x, Free x e → Neg { st' with next := st'.next + 1 } x := fun x hx => by
            rcases a4 x hx with hm | hm
            · cases hm
            · exact hm.mono (Nat.le_succ _)
          obtain ⟨cs, ecs, k1, k2⟩ := a2.c
          have hnew : ∀ p ∈ st'.consts, p.1 ≠ render h c := by
            intro p hp e
            rw [ecs] at hp
            rcases List.mem_append.mp hp with hp | hp
            · have := k1 p hp; rw [e] at this; omega
            · exact find_lits hfd p hp e
          have hb := a2.inv.bump (k := st'.next + 1) (by omega)
          refine ⟨_, _, psexp_lift hch' hfd a1, ?_, .quote hch (by simp [qs]), ?_⟩
          · refine ⟨by have := a2.le; simp only; omega, a2.g, ⟨(render h c, e, ⟨-(st'.next : Int), true⟩) :: cs, by simp [ecs], ?_, ?_⟩, ?_, ?_⟩
            · intro p hp
              rcases List.mem_cons.mp hp with rfl | hp
              · exact hsz
              · have := k1 p hp; omega
            · refine (k2.append (Fresh.nil (lo := st'.next) (hi := st'.next + 1)) a2.le (by omega)).le fun x => ?_
              simp [binders, bindersAll]
            · refine ⟨hb.pos, ?_, hb.syms, hb.gids, hb.gnodup, ?_, ?_, ?_⟩
              · simp only [List.reverse_cons]
                exact .snoc a2.inv.lits hc a3 fun p hp => hnew p (by simpa using hp)
              · intro p hp
                rcases List.mem_cons.mp hp with rfl | hp
                · exact ⟨hN, rfl⟩
                · exact hb.cids p hp
              · simp only [List.map_cons, List.nodup_cons]
                refine ⟨fun hm => ?_, hb.cnodup⟩
                obtain ⟨p, hp, e⟩ := List.mem_map.mp hm
                have := (a2.inv.cids p hp).1.1
                rw [e] at this
                simp only at this
                omega
              · intro p hp x hx
                rcases List.mem_cons.mp hp with rfl | hp
                · exact hcl x hx
                · exact hb.closed p hp x hx
            · intro p hp
              exact (a2.new p hp).imp_right fun hs => .quote hs
          · intro x hx; cases hx; exact .inr hN
    | @prim kw eff sf os hk hsf hos =>
      have hsz : (list (renderAll h os) .nil).size + 2 ≤ (render h (.prim kw sf os)).size := by
        simp only [render, lst, S.size, y]; omega
      obtain ⟨es, st', a1, a2, a3, a4⟩ := mapP_ok (n := n) (Γ := Γ) (sz := (render h (.prim kw sf os)).size)
        (R := Refers (Γ.map (·.1)) (.prim kw sf os)) (os := os) H (one (by omega) hos)
        (fun o ho => by have := size_all (h := h) ho; omega) (fun o ho s hs => .prim ho hs)
      refine ⟨_, st', psexp_prim hk hsf (Lit.c49_string_forest _) a1, a2, .prim hk a3, ?_⟩
      intro x hx
      cases hx with
      | prim _ _ he hx => exact a4 _ he x hx
    | @letrec vs os b hv hl hos hb =>
      have hl' : vs.length = (renderAll h os).length := by rw [length_renderAll, hl]
      have hszb : (render h b).size < (render h (.letrec vs os b)).size := by
        simp only [render, lst, list, S.size]; omega
      have hszo : ∀ o ∈ os, (render h o).size < (render h (.letrec vs os b)).size := by
        intro o ho
        have := size_bindings hl' (mem_renderAll (h := h) ho)
        simp only [render, lst, list, S.size] at this ⊢
        omega
      have hΓ' : EnvOk (vs.zip (ids st.next vs.length) ++ Γ) := by
        intro p hp
        rcases List.mem_append.mp hp with hp | hp
        · exact (hv _ (List.of_mem_zip hp).1).1
        · exact hΓ p hp
      have hle : st.next ≤ st.next + vs.length := by omega
      have hfst : (vs.zip (ids st.next vs.length) ++ Γ).map (·.1) = vs ++ Γ.map (·.1) := by
        rw [List.map_append, List.map_fst_zip]; simp [ids_length]
      have hsnd : (vs.zip (ids st.next vs.length) ++ Γ).map (·.2) = ids st.next vs.length ++ Γ.map (·.2) := by
        rw [List.map_append, List.map_snd_zip]; simp [ids_length]
      obtain ⟨es, st1, a1, a2, a3, a4⟩ := mapP_ok (n := n) (Γ := vs.zip (ids st.next vs.length) ++ Γ) (sz := (render h (.letrec vs os b)).size)
        (R := Refers (Γ.map (·.1)) (.letrec vs os b)) (os := os) (H.bump hle) (fun o ho => IH o _ (by have := hszo o ho; omega) (hos o ho) hΓ')
        (fun o ho => (hszo o ho).le) (fun o ho s hs => .letrec ho (by rw [hfst] at hs; exact hs))
      obtain ⟨e, st', b1, b2, b3, b4⟩ := IH b (vs.zip (ids st.next vs.length) ++ Γ) (by omega) hb hΓ' _ a2.inv
      have hes : es.length = vs.length := by rw [readsAll_length a3, hl]
      obtain ⟨s1, s2, ⟨l, s3, s4⟩, s5⟩ := begins_spec (es := List.zipWith (fun x t => Exp.set x (.var t)) (ids st.next vs.length) (ids st'.next vs.length))
        (b := voidExp) (st'.next + vs.length)
      have htm : (List.range (ids st.next vs.length).length).map (fun i => lexId (st'.next + i)) = ids st'.next vs.length := by
        rw [ids_length, ids, List.range'_eq_map_range, List.map_map]; rfl
      have hr : letrecExp st'.next (ids st.next vs.length) es e =
          (letExp (ids st.next vs.length) (es.map fun _ => voidExp)
            (letExp [lexId (Letrec.begins (st'.next + vs.length) (List.zipWith (fun x t => Exp.set x (.var t)) (ids st.next vs.length) (ids st'.next vs.length)) voidExp).2]
              [letExp (ids st'.next vs.length) es (Letrec.begins (st'.next + vs.length)
                (List.zipWith (fun x t => Exp.set x (.var t)) (ids st.next vs.length) (ids st'.next vs.length)) voidExp).1] e),
            (Letrec.begins (st'.next + vs.length) (List.zipWith (fun x t => Exp.set x (.var t)) (ids st.next vs.length) (ids st'.next vs.length)) voidExp).2 + 1) := by
        rw [← htm]
        simp only [letrecExp, Letrec.assignsExp, ids_length]
        rfl
      have hall : ∀ (xs ts : List Id), bindersAll (List.zipWith (fun x t => Exp.set x (.var t)) xs ts) = [] := by
        intro xs
        induction xs with
        | nil => intro ts; rfl
        | cons x xs ih => intro ts; cases ts with | nil => rfl | cons t ts => simp [bindersAll, binders, ih]
      have hvoid : ∀ es : List Exp, bindersAll (es.map fun _ => voidExp) = [] := by
        intro es
        induction es with
        | nil => rfl
        | cons x xs ih => simp only [List.map_cons, bindersAll, ih]; rfl
      generalize hB : Letrec.begins (st'.next + vs.length) (List.zipWith (fun x t => Exp.set x (.var t)) (ids st.next vs.length) (ids st'.next vs.length)) voidExp = B at *
      refine ⟨(letrecExp st'.next (ids st.next vs.length) es e).1, { st' with next := (letrecExp st'.next (ids st.next vs.length) es e).2 }, ?_, ?_, ?_, ?_⟩
      · have := psexp_letrec (pn := pn) (n := n) (e := env Γ) (st := st) (st' := st') (st1 := st1) (ss := vs.map name) (xs := renderAll h os)
          (b := render h b) (b' := e) (es := es)
          (by intro s hs; obtain ⟨v, hv', rfl⟩ := List.mem_map.mp hs; exact (hv v hv').2) (by simpa using hl')
          (by
            rw [newIds_length, newIds_env, List.length_map, env, env, ← List.map_append]
            exact a1)
          (by
            rw [newIds_env, env, env, ← List.map_append]
            exact b1)
        rw [newIds_snd, List.length_map] at this
        rw [← this]
        simp only [render, bindings, List.zipWith_map_left]
      · rw [hr]
        have hf := (ids_fresh st'.next vs.length).append (s3.append (Fresh.one (k := B.2)) s2 (by omega)) (by omega) (by omega)
        refine (((Step.bump H hle (ids_fresh st.next vs.length)).trans (a2.trans (b2.weaken hszb.le (fun s hs => .letrecb (by rw [hfst] at hs; exact hs))
          fun _ => Nat.le_refl _))).trans (Step.bump b2.inv (by omega) hf)).weaken (Nat.le_refl _) (fun _ hs => hs) ?_
        intro x
        have := s4 x
        simp only [hall, voidExp, binders, bindersAll, List.count_nil, letExp, List.count_append, List.append_nil, List.count_cons] at this ⊢
        have h0 := hvoid es
        simp only [voidExp] at h0
        simp only [h0, List.count_nil]
        omega
      · rw [hr]
        have e : (es.map fun _ => voidExp) = os.map fun _ => voidExp := by
          rw [List.map_const', List.map_const', readsAll_length a3]
        simp only [e]
        exact .letrec (ids_length _ _) (ids_length _ _) (a3.mono b2.gmem b2.qmem) b3 s1 (.cons .nil)
      · rw [hr]
        have hle' : st'.next ≤ B.2 + 1 := by omega
        have inner : ∀ x, x ∉ ids st.next vs.length → (x ∈ (vs.zip (ids st.next vs.length) ++ Γ).map (·.2) ∨ Neg st' x) →
            x ∈ Γ.map (·.2) ∨ Neg { st' with next := B.2 + 1 } x := by
          intro x hn hx
          rw [hsnd] at hx
          rcases hx with hm | hm
          · rcases List.mem_append.mp hm with hm | hm
            · exact absurd hm hn
            · exact .inl hm
          · exact .inr (hm.mono hle')
        intro x hx
        simp only [letExp] at hx
        cases hx with
        | appA _ he hx =>
          obtain ⟨_, _, rfl⟩ := List.mem_map.mp he
          exact absurd hx free_void
        | appF _ hx =>
          cases hx with
          | lam hn hx =>
            cases hx with
            | appF _ hx =>
              cases hx with
              | lam _ hx => exact inner x hn (b4 x hx)
            | appA _ he hx =>
              simp only [List.mem_singleton] at he
              subst he
              cases hx with
              | appA _ he hx => exact inner x hn ((a4 _ he x hx).imp_right fun hN => hN.mono b2.le)
              | appF _ hx =>
                cases hx with
                | lam hn2 hx =>
                  rcases s5 x hx with ⟨e', he, hx⟩ | hx
                  · obtain ⟨i, hi, rfl⟩ := List.mem_iff_getElem.mp he
                    rw [List.getElem_zipWith] at hx
                    cases hx with
                    | setTarget => exact absurd (List.getElem_mem _) hn
                    | set _ hx => cases hx; exact absurd (List.getElem_mem _) hn2
                  · exact absurd hx free_void
    | @app f os hf hos =>
      have hsz : (render h (.app f os)).size = (render h f).size + (list (renderAll h os) .nil).size + 1 := by
        simp only [render, lst, S.size]
      have hall : ∀ o ∈ f :: os, (render h o).size < (render h (.app f os)).size := by
        intro o ho
        rcases List.mem_cons.mp ho with rfl | ho
        · have := size_pos (list (renderAll h os) .nil); omega
        · have := size_all (h := h) ho; omega
      have hR : ∀ o ∈ f :: os, ∀ s, Refers (Γ.map (·.1)) o s → Refers (Γ.map (·.1)) (.app f os) s := by
        intro o ho s hs
        rcases List.mem_cons.mp ho with rfl | ho
        · exact .appf hs
        · exact .appa ho hs
      obtain ⟨es, st', a1, a2, a3, a4⟩ := mapP_ok (n := n) (Γ := Γ) (sz := (render h (.app f os)).size)
        (R := Refers (Γ.map (·.1)) (.app f os)) (os := f :: os) H
        (fun o ho => IH o Γ (by have := hall o ho; omega) (by rcases List.mem_cons.mp ho with rfl | ho; exacts [hf, hos o ho]) hΓ)
        (fun o ho => (hall o ho).le) hR
      cases a3 with
      | cons r1 a3 =>
        rename_i f' es
        refine ⟨.app f' es, st', psexp_app ?_ a1, a2, .app r1 a3, ?_⟩
        · intro s hs e
          cases f with
          | var v => exact name_not_head v (by simp only [render, S.sym.injEq] at e; rw [e]; exact hs)
          | _ => simp [render, lst, list] at e
        · intro x hx
          cases hx with
          | appF _ hx => exact a4 f' (by simp) x hx
          | appA _ he hx => exact a4 _ (by simp [he]) x hx

end Verif.Parse

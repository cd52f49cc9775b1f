import Verif.Letrec.Stores
/-
The variables of a `letrec`: a cell for each in the program; cells and procedures in the fixed program (C35).
-/
namespace Verif.Letrec
open Verif.Core
open Verif.Boxes (bindCells_none bindCells_get idxOf_none lt_of_get)
variable {W : Type} {P : Par} {φ : List Slot} {σ σt : Store W} {M : Sem W} {ord : Op → Nat → List Nat} {U : Id → Bool}

theorem LR.lam_inv {ids : List Id} {b e' : Exp} (h : LR P (.lam ids b) e') : ∃ b', e' = .lam ids b' ∧ LR P b b' := by
  cases h with
  | lam h => exact ⟨_, rfl, h⟩

theorem LR.isLam {e e' : Exp} (h : LR P e e') (hl : isLam e = true) : isLam e' = true := by
  cases e with
  | lam ids b => obtain ⟨b', rfl, _⟩ := h.lam_inv; rfl
  | _ => cases hl

theorem LR.quick_cases {e e' : Exp} (h : LR P e e') (hq : quick P.K e = true) :
    (∃ ids b b', e = .lam ids b ∧ e' = .lam ids b' ∧ LR P b b') ∨ (e' = e ∧ ∃ n, ∀ ρ, qval P.K ρ e = .atom n) := by
  unfold quick at hq
  split at hq
  · obtain ⟨b', rfl, h'⟩ := h.lam_inv
    exact Or.inl ⟨_, _, _, rfl, rfl, h'⟩
  · cases h with
    | prim h => cases h; exact Or.inr ⟨rfl, 1, fun ρ => rfl⟩
  · cases h with
    | prim h => cases h; exact Or.inr ⟨rfl, _, fun ρ => rfl⟩
  · cases hq

theorem LR.quick {e e' : Exp} (h : LR P e e') (hq : quick P.K e = true) : quick P.K e' = true := by
  rcases h.quick_cases hq with ⟨_, _, _, rfl, rfl, _⟩ | ⟨rfl, _⟩
  · rfl
  · exact hq

/-- what became of the variable `x` of a `letrec`. -/
def slotOf (ρ : Env) (heap : List Val) (cs bs : List Id) (x : Id) : Slot :=
  if x ∈ cs then match ρ.lookup x with
    | some (.box a) => .live a
    | _ => .dead
  else if x ∈ bs then match ρ.lookup x with
    | some (.box a) => .cell a (heap[a]?.getD .trap)
    | some w => .dir w
    | none => .dead
  else .dead

theorem get_nodup_id {ids : List Id} (h : ids.Nodup) {i j : Nat} {x : Id} (hi : ids[i]? = some x) (hj : ids[j]? = some x) : i = j := by
  have h1 := lt_of_get hi
  have h2 := lt_of_get hj
  rw [List.getElem?_eq_getElem h1, Option.some.injEq] at hi
  rw [List.getElem?_eq_getElem h2, Option.some.injEq] at hj
  exact (List.Nodup.getElem_inj_iff h).mp (hi.trans hj.symm)

theorem map_out_fst (bs : List Pair) : (bs.map Pair.out).map (·.1) = bs.map Pair.id := by
  simp [Function.comp_def]

theorem block (hf : FairPos ord) (hK : Const M P.K) {ids : List Id} {ss ls : List Pair} {cs us : List Id} {S A S0 A0 : Id → Prop} {ρ ρt : Env} {vs : List Val}
    (sh : Shape P ids ss ls cs S A) (hu : ∀ x ∈ us, x ∈ ids ∧ x ∉ ss.map Pair.id ++ ls.map Pair.id ++ cs)
    (he : ER P φ S0 A0 ρ ρt) (hS : ∀ y, S y → y ∉ ids → S0 y) (hA : ∀ y, A y → y ∉ ids → A0 y)
    (hss : ∀ b ∈ ss, LR P b.src b.tgt) (hls : ∀ b ∈ ls, LR P b.src b.tgt) (hs : SR P φ σ σt) (hvl : vs.length = ids.length) (hvs : ∀ v ∈ vs, v = .atom 1) (inner : Exp) (κ : Kont) :
    ∃ ρt' ext φ', Move (rstep U M (positional ord)) (.ev (aroundOf (ss.map Pair.out) cs (ls.map Pair.out) inner) ρt κ σt) (.ev inner ρt' κ { σt with heap := σt.heap ++ ext }) ∧
      Ext φ φ' ∧ SR P φ' { σ with heap := σ.heap ++ vs } { σt with heap := σt.heap ++ ext } ∧
      ER P φ' S A (bindCells ids σ.heap.length ρ) ρt' ∧ Pend P φ' (bindCells ids σ.heap.length ρ) (ss ++ ls) us := by
  obtain ⟨ρ', ext, hm, h1, h2, h3, h4⟩ := around_run (U := U) hf hK (ss := ss.map Pair.out) (ls := ls.map Pair.out) (cs := cs) (inner := inner) (κ := κ) ρt σt
    (by rw [map_out_fst, map_out_fst]; exact sh.nodup')
    (fun b hb => by obtain ⟨q, hq, rfl⟩ := List.mem_map.mp hb; exact (hss q hq).quick (sh.simple q hq).1)
    (fun b hb => by obtain ⟨q, hq, rfl⟩ := List.mem_map.mp hb; exact (hls q hq).isLam (sh.lams q hq).1)
  rw [map_out_fst, map_out_fst] at h1 h2
  obtain ⟨slot, hslot⟩ : ∃ slot, slotOf ρ' (σt.heap ++ ext) cs (ss.map Pair.id ++ ls.map Pair.id) = slot := ⟨_, rfl⟩
  have nd := sh.nodup'
  rw [List.nodup_append, List.nodup_append] at nd
  obtain ⟨⟨nds, ndl, ndsl⟩, ndc, ndslc⟩ := nd
  -- slots
  have slc : ∀ x ∈ cs, ∃ j : Nat, cs[j]? = some x ∧ ρ'.lookup x = some (.box (σt.heap.length + ss.length + j)) ∧
      (σt.heap ++ ext)[σt.heap.length + ss.length + j]? = some (.atom 1) ∧ slot x = .live (σt.heap.length + ss.length + j) := by
    intro x hx
    obtain ⟨j, g1, g2, g3⟩ := h4 x hx
    simp only [List.length_map] at g2 g3
    refine ⟨j, g1, g2, g3, ?_⟩
    rw [← hslot, slotOf, if_pos hx, g2]
  have hbc : ∀ b ∈ ss ++ ls, b.id ∉ cs ∧ b.id ∈ ss.map Pair.id ++ ls.map Pair.id := by
    intro b hb
    have hm : b.id ∈ ss.map Pair.id ++ ls.map Pair.id := by rw [← List.map_append]; exact List.mem_map.mpr ⟨b, hb, rfl⟩
    exact ⟨fun hc => ndslc b.id hm _ hc rfl, hm⟩
  have slb : ∀ b ∈ ss ++ ls, (∃ a ρw, ρ'.lookup b.id = some (.box a) ∧ σt.heap.length ≤ a ∧ (a < σt.heap.length + ss.length ∨ σt.heap.length + ss.length + cs.length ≤ a) ∧
      (σt.heap ++ ext)[a]? = some (qval P.K ρw b.tgt) ∧ (∀ y, Free y b.src → ρw.lookup y = ρ'.lookup y) ∧
      slot b.id = .cell a (qval P.K ρw b.tgt)) ∨
      (∃ is lams i ρw, isLam b.tgt = true ∧ ρ'.lookup b.id = some (.rclos is lams i ρw) ∧ lams[i]? = some b.tgt ∧
        (∀ y, Free y b.src → (Env.fix is lams ρw).lookup y = ρ'.lookup y) ∧ slot b.id = .dir (.rclos is lams i ρw)) := by
    intro b hb
    obtain ⟨hc1, hc2⟩ := hbc b hb
    have fin : ∀ {L : Nat → Prop} {F : Id → Prop}, Placed P.K ρ' (σt.heap ++ ext) L b.id b.tgt F → (∀ y, Free y b.src → F y) →
        (∀ a, L a → σt.heap.length ≤ a ∧ (a < σt.heap.length + ss.length ∨ σt.heap.length + ss.length + cs.length ≤ a)) →
        (∃ a ρw, ρ'.lookup b.id = some (.box a) ∧ σt.heap.length ≤ a ∧ (a < σt.heap.length + ss.length ∨ σt.heap.length + ss.length + cs.length ≤ a) ∧
          (σt.heap ++ ext)[a]? = some (qval P.K ρw b.tgt) ∧ (∀ y, Free y b.src → ρw.lookup y = ρ'.lookup y) ∧
          slot b.id = .cell a (qval P.K ρw b.tgt)) ∨
        (∃ is lams i ρw, isLam b.tgt = true ∧ ρ'.lookup b.id = some (.rclos is lams i ρw) ∧ lams[i]? = some b.tgt ∧
          (∀ y, Free y b.src → (Env.fix is lams ρw).lookup y = ρ'.lookup y) ∧ slot b.id = .dir (.rclos is lams i ρw)) := by
      intro L F hp hF hL
      cases hp with
      | cell g1 g2 g3 g4 =>
        refine Or.inl ⟨_, _, g1, (hL _ g2).1, (hL _ g2).2, g3, fun y hy => g4 y (hF y hy), ?_⟩
        rw [← hslot, slotOf, if_neg hc1, if_pos hc2, g1]
        simp only [g3, Option.getD_some]
      | fix g1 g2 g3 g4 =>
        refine Or.inr ⟨_, _, _, _, g1, g2, g3, fun y hy => g4 y (hF y hy), ?_⟩
        rw [← hslot, slotOf, if_neg hc1, if_pos hc2, g2]
    rcases List.mem_append.mp hb with hb | hb
    · have := h2 b.out (List.mem_map.mpr ⟨b, hb, rfl⟩)
      exact fin this (fun y hy hm => (sh.simple b hb).2 y (sh.sub y hm) hy) (fun a ha => by simp only [List.length_map] at ha; omega)
    · have := h3 b.out (List.mem_map.mpr ⟨b, hb, rfl⟩)
      exact fin this (fun y hy => (sh.lams b hb).2 y hy) (fun a ha => by simp only [List.length_map] at ha; omega)
  have sld : ∀ x, x ∉ ss.map Pair.id ++ ls.map Pair.id ++ cs → slot x = .dead := by
    intro x hx
    simp only [List.mem_append, not_or] at hx
    rw [← hslot, slotOf, if_neg hx.2, if_neg (by simp only [List.mem_append, not_or]; exact hx.1)]
  -- variables in the program
  have src : ∀ x ∈ ids, ∃ j : Nat, ids[j]? = some x ∧ (bindCells ids σ.heap.length ρ).lookup x = some (.box (σ.heap.length + j)) ∧
      (φ ++ ids.map slot)[σ.heap.length + j]? = some (slot x) := by
    intro x hx
    obtain ⟨j, g1, g2⟩ := bindCells_get (a := σ.heap.length) (ρ := ρ) hx
    refine ⟨j, g1, g2, ?_⟩
    rw [List.getElem?_append_right (by rw [hs.len]; omega), hs.len, Nat.add_sub_cancel_left, List.getElem?_map, g1]
    rfl
  have any : ∀ x, x ∈ cs ∨ (∃ b ∈ ss ++ ls, b.id = x) ∨ x ∉ ss.map Pair.id ++ ls.map Pair.id ++ cs := by
    intro x
    by_cases hm : x ∈ ss.map Pair.id ++ ls.map Pair.id ++ cs
    · rcases List.mem_append.mp hm with hm | hm
      · rw [← List.map_append] at hm
        obtain ⟨b, hb, e⟩ := List.mem_map.mp hm
        exact Or.inr (Or.inl ⟨b, hb, e⟩)
      · exact Or.inl hm
    · exact Or.inr (Or.inr hm)
  have hget : ∀ {i : Nat} {s : Slot}, (ids.map slot)[i]? = some s → ∃ x, ids[i]? = some x ∧ s = slot x := by
    intro i s h
    rw [List.getElem?_map] at h
    cases hx : ids[i]? with
    | none => rw [hx] at h; cases h
    | some x => rw [hx] at h; injection h with h; exact ⟨x, rfl, h.symm⟩
  have hER : ER P (φ ++ ids.map slot) S A (bindCells ids σ.heap.length ρ) ρ' := by
    refine ⟨fun y r hy hl => ?_, fun y r hy hl => ?_⟩
    · by_cases hm : y ∈ ids
      · obtain ⟨j, _, g2, g3⟩ := src y hm
        rw [g2] at hl; injection hl with hl; subst hl
        rcases any y with hc | ⟨b, hb, rfl⟩ | hd
        · obtain ⟨j', _, k2, _, k4⟩ := slc y hc
          rw [k4] at g3
          exact ⟨_, _, rfl, k2, .live g3⟩
        · rcases slb b hb with ⟨a, ρw, k1, _, _, _, _, k4⟩ | ⟨is, lams, i, ρw, _, k1, _, _, k4⟩
          · rw [k4] at g3
            exact ⟨_, _, rfl, k1, .cell (sh.rec' _ hm).1 (sh.rec' _ hm).2 g3⟩
          · rw [k4] at g3
            exact ⟨_, _, rfl, k1, .dir (sh.rec' _ hm).1 (sh.rec' _ hm).2 g3 (fun b h => by cases h)⟩
        · exact absurd (sh.used y hm hy) hd
      · rw [bindCells_none hm] at hl
        rw [h1 y (fun hc => hm (sh.sub y hc))]
        obtain ⟨a, r', g1, g2, g3⟩ := he.look y r (hS y hy hm) hl
        exact ⟨a, r', g1, g2, g3.mono (Ext.append _ _)⟩
    · by_cases hm : y ∈ ids
      · obtain ⟨j, _, g2, g3⟩ := src y hm
        rw [g2] at hl; injection hl with hl; subst hl
        rcases any y with hc | ⟨b, hb, rfl⟩ | hd
        · obtain ⟨j', _, k2, _, k4⟩ := slc y hc
          rw [k4] at g3
          exact ⟨_, _, rfl, g3⟩
        · exact absurd hy (sh.fixed _ (hbc b hb).2)
        · exact absurd (sh.used y hm (sh.asg y hy)) hd
      · rw [bindCells_none hm] at hl
        obtain ⟨a, a', g1, g2⟩ := he.live y r (hA y hy hm) hl
        exact ⟨a, a', g1, Ext.append _ _ _ _ g2⟩
  refine ⟨ρ', ext, φ ++ ids.map slot, hm, Ext.append _ _, ?_, hER, fun q hq => ?_, fun x hx => ?_⟩
  · refine hs.grow (by simp [hvl]) (fun i v s hi hi' => ?_) (fun i s a hi ha => ?_) (fun i j s a' hi hj hij => ?_)
    · obtain ⟨x, hx, rfl⟩ := hget hi'
      have hv := hvs v (List.mem_of_getElem? hi)
      subst hv
      rcases any x with hc | ⟨b, hb, rfl⟩ | hd
      · obtain ⟨j', _, k2, k3, k4⟩ := slc x hc
        rw [k4]
        exact ⟨_, k3, .atom 1⟩
      · rcases slb b hb with ⟨a, ρw, k1, _, _, k3, _, k4⟩ | ⟨is, lams, i, ρw, _, k1, _, _, k4⟩
        · rw [k4]; exact ⟨k3, Or.inl rfl⟩
        · rw [k4]; exact Or.inl rfl
      · rw [sld x hd]; trivial
    · obtain ⟨x, hx, rfl⟩ := hget hi
      rcases any x with hc | ⟨b, hb, rfl⟩ | hd
      · obtain ⟨j', _, k2, k3, k4⟩ := slc x hc
        rw [k4] at ha; injection ha with ha; omega
      · rcases slb b hb with ⟨a, ρw, k1, k2, _, k3, _, k4⟩ | ⟨is, lams, i, ρw, _, k1, _, _, k4⟩
        · rw [k4] at ha; injection ha with ha; omega
        · rw [k4] at ha; cases ha
      · rw [sld x hd] at ha; cases ha
    · obtain ⟨x, hx, hsx⟩ := hget hi
      obtain ⟨x', hx', rfl⟩ := hget hj
      have hne : x ≠ x' := by
        intro e; subst e; exact hij (get_nodup_id sh.nodup hx hx')
      rcases any x with hc | ⟨b, hb, rfl⟩ | hd
      · obtain ⟨k, k1, k2, k3, k4⟩ := slc x hc
        have hk := lt_of_get k1
        rw [k4] at hsx; injection hsx with hsx; subst hsx
        rcases any x' with hc | ⟨b, hb, rfl⟩ | hd
        · obtain ⟨k', k1', k2', k3', k4'⟩ := slc x' hc
          rw [k4']
          intro e
          injection e with e
          have e : k' = k := by omega
          subst e
          rw [k1] at k1'; injection k1' with k1'; exact hne k1'
        · rcases slb b hb with ⟨a, ρw, _, _, k5, _, _, k6⟩ | ⟨is, lams, i, ρw, _, _, _, _, k6⟩
          · rw [k6]; intro e; injection e with e; omega
          · rw [k6]; intro e; cases e
        · rw [sld x' hd]; intro e; cases e
      · rcases slb b hb with ⟨a, ρw, k1, _, _, k3, _, k4⟩ | ⟨is, lams, i, ρw, _, k1, _, _, k4⟩
        · rw [k4] at hsx; cases hsx
        · rw [k4] at hsx; cases hsx
      · rw [sld x hd] at hsx; cases hsx
  · have hqi : q.id ∈ ids := sh.sub _ (List.mem_append_left _ (hbc q hq).2)
    obtain ⟨j, _, g2, g3⟩ := src q.id hqi
    have hlr : LR P q.src q.tgt := by
      rcases List.mem_append.mp hq with h | h
      · exact hss q h
      · exact hls q h
    have hqk : Letrec.quick P.K q.src = true := by
      rcases List.mem_append.mp hq with h | h
      · exact (sh.simple q h).1
      · exact quick_of_lam (sh.lams q h).1
    have hEq : EE P (φ ++ ids.map slot) q.src (bindCells ids σ.heap.length ρ) ρ' := hER.weaken (sh.free q hq).1 (sh.free q hq).2
    rcases slb q hq with ⟨a, ρw, k1, _, _, _, k3, k4⟩ | ⟨is, lams, i, ρw, k0, k1, k2, k3, k4⟩
    · rw [k4] at g3
      refine ⟨_, _, g2, Or.inr ⟨a, g3⟩, ?_⟩
      rcases hlr.quick_cases hqk with ⟨ps, b, b', e1, e2, hb⟩ | ⟨e1, n, hn⟩
      · rw [e1, e2]
        rw [e1] at hEq k3
        exact .clos hb (hEq.congr (fun y hy => assigned_free hy) (fun _ _ => rfl) k3)
      · rw [e1, hn]
        exact .atom hqk hn
    · rw [k4] at g3
      refine ⟨_, _, g2, Or.inl g3, ?_⟩
      rcases hlr.quick_cases hqk with ⟨ps, b, b', e1, e2, hb⟩ | ⟨e1, n, hn⟩
      · rw [e1]
        rw [e1] at hEq k3
        rw [e2] at k2
        exact .rclos k2 hb (hEq.congr (fun y hy => assigned_free hy) (fun _ _ => rfl) k3)
      · rw [e1] at k0
        cases hq : q.src with
        | lam ps b => have := hn .nil; rw [hq] at this; cases this
        | _ => rw [hq] at k0; cases k0
  · obtain ⟨hx1, hx2⟩ := hu x hx
    obtain ⟨j, _, g2, g3⟩ := src x hx1
    rw [sld x hx2] at g3
    exact ⟨_, g2, g3⟩

end Verif.Letrec

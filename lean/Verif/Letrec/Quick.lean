import Verif.Letrec.Rel
import Verif.Boxes.Sim
/-
Evaluation of expressions without effects, and of the outer part of a fixed `letrec` (C35).
-/
namespace Verif.Letrec
open Verif.Core
open Verif.Boxes (fair_one fair_two bindCells_none bindCells_get idxOf_none lt_of_get)
variable {W : Type} {U : Id → Bool} {M : Sem W} {ord : Op → Nat → List Nat} {K : Nat → Option Nat}

/-- the constants are constants. -/
def Const (M : Sem W) (K : Nat → Option Nat) : Prop := ∀ n m, K n = some m → ∀ w, M.op n [] w = some (m, w)

theorem fair_zero (hf : FairPos ord) (op : Op) : ord op 0 = [] := List.perm_nil.mp (hf op 0)

theorem q_ev (hf : FairPos ord) (hK : Const M K) {e : Exp} (h : quick K e = true) (ρ : Env) (κ : Kont) (σ : Store W) :
    Quiet (rstep U M (positional ord)) (.ev e ρ κ σ) (.ret (qval K ρ e) κ σ) := by
  unfold quick at h
  split at h
  · exact .one rfl rfl
  · rename_i eff
    refine .step (b := .args (.prim eff .void) [] (fun _ => .trap) [] ρ κ σ) ?_ rfl (.one rfl rfl)
    simp [rstep, cstep, step, positional, fair_zero hf]
  · rename_i eff n
    obtain ⟨m, hm⟩ := Option.isSome_iff_exists.mp h
    refine .step (b := .args (.prim eff (.op n)) [] (fun _ => .trap) [] ρ κ σ) ?_ rfl (.one ?_ rfl)
    · simp [rstep, cstep, step, positional, fair_zero hf]
    · simp [rstep, cstep, step, doPrim, vals, hK n m hm, qval, hm]
  · cases h

theorem q_args (hf : FairPos ord) (hK : Const M K) {op : Op} {es : List Exp} {ρ : Env} {κ : Kont} {σ : Store W} :
    ∀ (todo : List Nat) (d : Nat → Val), (∀ i ∈ todo, ∃ e, es[i]? = some e ∧ quick K e = true) →
    ∃ d', Quiet (rstep U M (positional ord)) (.args op es d todo ρ κ σ) (.args op es d' [] ρ κ σ) ∧
      ∀ i, (i ∈ todo → ∀ e, es[i]? = some e → d' i = qval K ρ e) ∧ (i ∉ todo → d' i = d i) := by
  intro todo
  induction todo with
  | nil => intro d _; exact ⟨d, .refl _, fun i => ⟨fun h => by simp at h, fun _ => rfl⟩⟩
  | cons i todo ih =>
    intro d h
    obtain ⟨e, he, hq⟩ := h i (by simp)
    obtain ⟨d', q, hd⟩ := ih (upd d i (qval K ρ e)) (fun j hj => h j (by simp [hj]))
    refine ⟨d', .step (b := .ev e ρ (.args op es d i todo ρ κ) σ) ?_ rfl ((q_ev hf hK hq ρ _ σ).trans (.step rfl rfl q)), fun j => ⟨fun hj e' he' => ?_, fun hj => ?_⟩⟩
    · cases op <;> simp [rstep, cstep, step, he]
    · by_cases hm : j ∈ todo
      · exact (hd j).1 hm e' he'
      · rw [(hd j).2 hm]
        rcases List.mem_cons.mp hj with rfl | hj
        · rw [he] at he'; injection he' with he'; subst he'
          simp [upd]
        · exact absurd hj hm
    · simp only [List.mem_cons, not_or] at hj
      rw [(hd j).2 hj.2]
      simp [upd, hj.1]

theorem vals_eq {d : Nat → Val} {es : List Exp} {f : Exp → Val} (h : ∀ (i : Nat) e, es[i]? = some e → d i = f e) : vals d es.length = es.map f := by
  refine List.ext_getElem? (fun i => ?_)
  simp only [vals, List.getElem?_map]
  by_cases hi : i < es.length
  · rw [List.getElem?_range hi, List.getElem?_eq_getElem hi]
    simp only [Option.map_some]
    rw [h i _ (List.getElem?_eq_getElem hi)]
  · simp [hi]

/-- A `let` of expressions without effects. -/
theorem q_let (hf : FairPos ord) (hK : Const M K) {ids : List Id} {es : List Exp} {b : Exp} (hl : ids.length = es.length) (hq : ∀ e ∈ es, quick K e = true)
    (ρ : Env) (κ : Kont) (σ : Store W) :
    Move (rstep U M (positional ord)) (.ev (letExp ids es b) ρ κ σ)
      (.ev b (bindCells ids σ.heap.length ρ) κ { σ with heap := σ.heap ++ es.map (qval K ρ) }) := by
  have hq' : ∀ e ∈ (Exp.lam ids b :: es), quick K e = true := by
    intro e he
    rcases List.mem_cons.mp he with rfl | he
    · rfl
    · exact hq e he
  obtain ⟨d, q, hd⟩ := q_args (U := U) hf hK (op := .call) (es := .lam ids b :: es) (ρ := ρ) (κ := κ) (σ := σ) (ord .call (es.length + 1)) (fun _ => .trap) (by
    intro i hi
    have hi := ((hf .call (es.length + 1)).mem_iff (a := i)).mp hi
    have hi : i < (Exp.lam ids b :: es).length := by simpa using hi
    exact ⟨_, List.getElem?_eq_getElem hi, hq' _ (List.getElem_mem hi)⟩)
  have hv : vals d (Exp.lam ids b :: es).length = (Exp.lam ids b :: es).map (qval K ρ) := by
    refine vals_eq (fun i e he => (hd i).1 ?_ e he)
    have hi := lt_of_get he
    exact ((hf .call (es.length + 1)).mem_iff (a := i)).mpr (by simpa using hi)
  refine ⟨.ap (.clos ids b ρ) (es.map (qval K ρ)) κ σ, .step (b := .args .call (.lam ids b :: es) (fun _ => .trap) (ord .call (es.length + 1)) ρ κ σ) rfl rfl (q.trans (.one ?_ rfl)), ?_⟩
  · simp only [rstep, cstep, step]
    rw [hv]
    rfl
  · simp [rstep, cstep, hl]

/-! ### a `let` with one variable -/

theorem beg_in (hf : FairPos ord) (x : Id) (b e : Exp) (ρ : Env) (κ : Kont) (σ : Store W) :
    ∃ d todo, Wait x b ρ d todo ∧ Quiet (rstep U M (positional ord)) (.ev (letExp [x] [e] b) ρ κ σ) (.ev e ρ (.args .call [.lam [x] b, e] d 1 todo ρ κ) σ) ∧
      Move (rstep U M (positional ord)) (.ev (letExp [x] [e] b) ρ κ σ) (.ev e ρ (.args .call [.lam [x] b, e] d 1 todo ρ κ) σ) := by
  rcases fair_two hf .call with h | h
  · refine ⟨upd (fun _ => .trap) 0 (.clos [x] b ρ), [], Or.inr ⟨rfl, rfl⟩, ?_⟩
    have h0 : rstep U M (positional ord) (.ev (letExp [x] [e] b) ρ κ σ) = some (.args .call [.lam [x] b, e] (fun _ => .trap) [0, 1] ρ κ σ) := by
      simp [rstep, cstep, step, letExp, positional, h]
    have m : Move (rstep U M (positional ord)) (.ev (letExp [x] [e] b) ρ κ σ) (.ev e ρ (.args .call [.lam [x] b, e] (upd (fun _ => .trap) 0 (.clos [x] b ρ)) 1 [] ρ κ) σ) :=
      ⟨_, .step h0 rfl (.step rfl rfl (.step rfl rfl (.one rfl rfl))), rfl⟩
    exact ⟨m.quiet rfl, m⟩
  · refine ⟨fun _ => .trap, [0], Or.inl rfl, ?_⟩
    have h0 : rstep U M (positional ord) (.ev (letExp [x] [e] b) ρ κ σ) = some (.args .call [.lam [x] b, e] (fun _ => .trap) [1, 0] ρ κ σ) := by
      simp [rstep, cstep, step, letExp, positional, h]
    have m : Move (rstep U M (positional ord)) (.ev (letExp [x] [e] b) ρ κ σ) (.ev e ρ (.args .call [.lam [x] b, e] (fun _ => .trap) 1 [0] ρ κ) σ) :=
      ⟨_, .one h0 rfl, rfl⟩
    exact ⟨m.quiet rfl, m⟩

theorem beg_out {x : Id} {b e : Exp} {ρ : Env} {d : Nat → Val} {todo : List Nat} (hw : Wait x b ρ d todo) (κ : Kont) (σ : Store W) (v : Val) :
    Move (rstep U M (positional ord)) (.ret v (.args .call [.lam [x] b, e] d 1 todo ρ κ) σ)
      (.ev b (.bind x (.box σ.heap.length) ρ) κ { σ with heap := σ.heap ++ [v] }) := by
  rcases hw with rfl | ⟨rfl, h0⟩
  · exact ⟨_, .step rfl rfl (.step rfl rfl (.step rfl rfl (.step rfl rfl (.step rfl rfl (.refl _))))), rfl⟩
  · have h1 : rstep U M (positional ord) (.args .call [.lam [x] b, e] (upd d 1 v) [] ρ κ σ) = some (.ap (.clos [x] b ρ) [v] κ σ) := by
      simp [rstep, cstep, step, vals, List.range_succ, upd, h0]
    exact ⟨_, .step rfl rfl (.one h1 rfl), rfl⟩

/-! ### the outer part of a fixed `letrec` -/

theorem mentionsNone_iff {ids : List Id} {e : Exp} : mentionsNone ids e = true ↔ ∀ y ∈ ids, ¬ Free y e := by
  simp only [mentionsNone, List.all_eq_true]
  refine forall_congr' fun y => forall_congr' fun _ => ?_
  rw [← vinfo_free y e]
  simp only [Bool.not_eq_true', List.any_eq_false, decide_eq_true_eq]
  constructor
  · rintro h ⟨u, hu⟩; exact h _ hu rfl
  · intro h u hu e; exact h ⟨u.2, by rw [← e]; exact hu⟩

/-- The variable `x` of the fixed program has the value of the expression `e`, evaluated where the variables `F` had the same
values as now. -/
inductive Placed (K : Nat → Option Nat) (ρ : Env) (heap : List Val) (L : Nat → Prop) (x : Id) (e : Exp) (F : Id → Prop) : Prop
  | cell {a : Nat} {ρw : Env} : ρ.lookup x = some (.box a) → L a → heap[a]? = some (qval K ρw e) → (∀ y, F y → ρw.lookup y = ρ.lookup y) →
      Placed K ρ heap L x e F
  | fix {ids : List Id} {lams : List Exp} {i : Nat} {ρw : Env} : isLam e = true → ρ.lookup x = some (.rclos ids lams i ρw) → lams[i]? = some e →
      (∀ y, F y → (Env.fix ids lams ρw).lookup y = ρ.lookup y) → Placed K ρ heap L x e F

theorem eq_of_fst {bs : List (Id × Exp)} (hn : (bs.map (·.1)).Nodup) {b c : Id × Exp} (hb : b ∈ bs) (hc : c ∈ bs) (h : b.1 = c.1) : b = c := by
  induction bs with
  | nil => simp at hb
  | cons a bs ih =>
    simp only [List.map_cons, List.nodup_cons] at hn
    rcases List.mem_cons.mp hb with hb | hb <;> rcases List.mem_cons.mp hc with hc | hc
    · rw [hb, hc]
    · exact absurd (List.mem_map.mpr ⟨c, hc, by rw [← h, hb]⟩) hn.1
    · exact absurd (List.mem_map.mpr ⟨b, hb, by rw [h, hc]⟩) hn.1
    · exact ih hn.2 hb hc

theorem idxOf_get {x : Id} : ∀ {ids : List Id} {i : Nat}, idxOf x ids = some i → ids[i]? = some x := by
  intro ids
  induction ids with
  | nil => intro i h; simp [idxOf] at h
  | cons y ys ih =>
    intro i h
    simp only [idxOf] at h
    split at h
    · rename_i e; injection h with h; subst h; subst e; rfl
    · cases hy : idxOf x ys with
      | none => rw [hy] at h; cases h
      | some j =>
        rw [hy] at h
        simp only [Option.map_some, Option.some.injEq] at h
        subst h
        simpa using ih hy

theorem quick_of_lam {K : Nat → Option Nat} {e : Exp} (h : isLam e = true) : quick K e = true := by
  cases e <;> first | rfl | cases h

theorem refix_run (hf : FairPos ord) (hK : Const M K) {body : Exp} {κ : Kont} : ∀ (n : Nat) (bs : List (Id × Exp)) (ρ : Env) (σ : Store W),
    bs.length ≤ n → (bs.map (·.1)).Nodup → (∀ b ∈ bs, isLam b.2 = true) →
    ∃ ρ' ext, Quiet (rstep U M (positional ord)) (.ev (refix n bs body) ρ κ σ) (.ev body ρ' κ { σ with heap := σ.heap ++ ext }) ∧
      (∀ y, y ∉ bs.map (·.1) → ρ'.lookup y = ρ.lookup y) ∧
      (∀ b ∈ bs, Placed K ρ' (σ.heap ++ ext) (σ.heap.length ≤ ·) b.1 b.2 (Free · b.2)) := by
  intro n
  induction n with
  | zero =>
    intro bs ρ σ hl _ _
    have : bs = [] := List.eq_nil_of_length_eq_zero (by omega)
    subst this
    exact ⟨ρ, [], by simp only [refix, List.append_nil]; exact .refl _, fun _ _ => rfl, fun b hb => by simp at hb⟩
  | succ n ih =>
    intro bs ρ σ hl hn hlam
    obtain ⟨new, hnew⟩ : ∃ new : Id × Exp → Bool, (fun (b : Id × Exp) => mentionsNone (bs.map (·.1)) b.2) = new := ⟨_, rfl⟩
    have he : refix (n + 1) bs body = if (bs.filter new).isEmpty then if (bs.filter (fun b => !new b)).isEmpty then body
        else .fix (bs.map (·.1)) (bs.map (·.2)) body
        else letExp ((bs.filter new).map (·.1)) ((bs.filter new).map (·.2)) (refix n (bs.filter (fun b => !new b)) body) := by subst hnew; rfl
    rw [he]
    clear he
    split
    · rename_i hs
      split
      · rename_i hs'
        have hbs : bs = [] := by
          cases bs with
          | nil => rfl
          | cons b bs =>
            rw [List.isEmpty_iff, List.filter_eq_nil_iff] at hs hs'
            have h1 := hs b (by simp)
            have h2 := hs' b (by simp)
            simp only [Bool.not_eq_true, Bool.not_eq_false] at h1 h2
            simp [h1] at h2
        subst hbs
        exact ⟨ρ, [], by simp only [List.append_nil]; exact .refl _, fun _ _ => rfl, fun b hb => by simp at hb⟩
      · refine ⟨.fix (bs.map (·.1)) (bs.map (·.2)) ρ, [], by simp only [List.append_nil]; exact .one rfl rfl, fun y hy => ?_, fun b hb => ?_⟩
        · rw [Env.lookup, idxOf_none.mpr hy]
        · cases hi : idxOf b.1 (bs.map (·.1)) with
          | none => exact absurd (List.mem_map.mpr ⟨b, hb, rfl⟩) (idxOf_none.mp hi)
          | some i =>
            have hg := idxOf_get hi
            rw [List.getElem?_map] at hg
            cases hgi : bs[i]? with
            | none => rw [hgi] at hg; cases hg
            | some c =>
              rw [hgi] at hg
              simp only [Option.map_some, Option.some.injEq] at hg
              have := eq_of_fst hn (List.mem_of_getElem? hgi) hb hg
              subst this
              exact .fix (i := i) (ρw := ρ) (hlam _ hb) (by rw [Env.lookup, hi]) (by rw [List.getElem?_map, hgi]; rfl) (fun _ _ => rfl)
    · rename_i hs
      have hlen : (bs.filter (fun b => !new b)).length ≤ n := by
        have : (bs.filter new).length + (bs.filter (fun b => !new b)).length = bs.length := by
          clear hl hn hlam hnew hs ih
          induction bs with
          | nil => rfl
          | cons b bs ih => by_cases h : new b = true <;> simp [h] <;> omega
        have h2 : (bs.filter new).length ≠ 0 := by
          intro e; exact hs (by rw [List.isEmpty_iff]; exact List.eq_nil_of_length_eq_zero e)
        omega
      have hsub : ∀ b ∈ bs.filter new, b ∈ bs ∧ ∀ y ∈ bs.map (·.1), ¬ Free y b.2 := by
        intro b hb
        rw [List.mem_filter] at hb
        refine ⟨hb.1, ?_⟩
        rw [← mentionsNone_iff]
        rw [← hnew] at hb; exact hb.2
      have hsub' : ∀ b ∈ bs.filter (fun b => !new b), b ∈ bs := fun b hb => (List.mem_filter.mp hb).1
      have hns : ((bs.filter new).map (·.1)).Nodup := (List.Sublist.map _ (List.filter_sublist (l := bs))).nodup hn
      have hnl : ((bs.filter (fun b => !new b)).map (·.1)).Nodup := (List.Sublist.map _ (List.filter_sublist (l := bs))).nodup hn
      have hdisj : ∀ b ∈ bs.filter new, b.1 ∉ (bs.filter (fun b => !new b)).map (·.1) := by
        intro b hb hm
        obtain ⟨c, hc, e⟩ := List.mem_map.mp hm
        have := eq_of_fst hn (hsub' c hc) (hsub b hb).1 e
        rw [this] at hc
        rw [List.mem_filter] at hb hc
        have h2 := hc.2
        rw [hb.2] at h2
        cases h2
      have m := q_let (U := U) hf hK (ids := (bs.filter new).map (·.1)) (es := (bs.filter new).map (·.2)) (b := refix n (bs.filter (fun b => !new b)) body) (by simp)
        (fun e he => by obtain ⟨b, hb, rfl⟩ := List.mem_map.mp he; exact quick_of_lam (hlam b (hsub b hb).1)) ρ κ σ
      obtain ⟨ρ', ext, q, h1, h2⟩ := ih (bs.filter (fun b => !new b)) (bindCells ((bs.filter new).map (·.1)) σ.heap.length ρ)
        { σ with heap := σ.heap ++ ((bs.filter new).map (·.2)).map (qval K ρ) } hlen hnl (fun b hb => hlam b (hsub' b hb))
      refine ⟨ρ', ((bs.filter new).map (·.2)).map (qval K ρ) ++ ext, ?_, fun y hy => ?_, fun b hb => ?_⟩
      · rw [← List.append_assoc]
        exact (m.quiet rfl).trans q
      · rw [h1 y, bindCells_none]
        · intro hc; obtain ⟨c, hc, e⟩ := List.mem_map.mp hc; exact hy (List.mem_map.mpr ⟨c, (hsub c hc).1, e⟩)
        · intro hc; obtain ⟨c, hc, e⟩ := List.mem_map.mp hc; exact hy (List.mem_map.mpr ⟨c, hsub' c hc, e⟩)
      · by_cases hb' : new b = true
        · have hbf : b ∈ bs.filter new := List.mem_filter.mpr ⟨hb, hb'⟩
          obtain ⟨j, hj, hlk⟩ := bindCells_get (a := σ.heap.length) (ρ := ρ) (List.mem_map.mpr ⟨b, hbf, rfl⟩ : b.1 ∈ (bs.filter new).map (·.1))
          have hbj : (bs.filter new)[j]? = some b := by
            rw [List.getElem?_map] at hj
            cases hc : (bs.filter new)[j]? with
            | none => rw [hc] at hj; cases hj
            | some c =>
              rw [hc] at hj
              simp only [Option.map_some, Option.some.injEq] at hj
              rw [eq_of_fst hns (List.mem_of_getElem? hc) hbf hj]
          refine .cell (a := σ.heap.length + j) (ρw := ρ) ?_ (Nat.le_add_right _ _) ?_ (fun y hy => ?_)
          · rw [h1 b.1 (hdisj b hbf), hlk]
          · rw [List.getElem?_append_right (Nat.le_add_right _ _), Nat.add_sub_cancel_left, List.getElem?_append_left]
            · simp only [List.getElem?_map, hbj, Option.map_some]
            · simpa using lt_of_get hbj
          · have hy' : y ∉ bs.map (·.1) := fun hc => (hsub b hbf).2 y hc hy
            rw [h1 y, bindCells_none]
            · intro hc; obtain ⟨c, hc, e⟩ := List.mem_map.mp hc; exact hy' (List.mem_map.mpr ⟨c, (hsub c hc).1, e⟩)
            · intro hc; obtain ⟨c, hc, e⟩ := List.mem_map.mp hc; exact hy' (List.mem_map.mpr ⟨c, hsub' c hc, e⟩)
        · have hbl : b ∈ bs.filter (fun b => !new b) := List.mem_filter.mpr ⟨hb, by simp [hb']⟩
          have := h2 b hbl
          rw [← List.append_assoc]
          cases this with
          | cell g1 g2 g3 g4 => exact .cell g1 (by simp only [List.length_append] at g2; omega) g3 g4
          | fix g1 g2 g3 g4 => exact .fix g1 g2 g3 g4

/-- the result of the outer part: simple and complex variables in new cells, procedures anywhere. -/
theorem around_run (hf : FairPos ord) (hK : Const M K) {ss ls : List (Id × Exp)} {cs : List Id} {inner : Exp} {κ : Kont} (ρ : Env) (σ : Store W)
    (hn : (ss.map (·.1) ++ ls.map (·.1) ++ cs).Nodup) (hs : ∀ b ∈ ss, quick K b.2 = true) (hl : ∀ b ∈ ls, isLam b.2 = true) :
    ∃ ρ' ext, Move (rstep U M (positional ord)) (.ev (aroundOf ss cs ls inner) ρ κ σ) (.ev inner ρ' κ { σ with heap := σ.heap ++ ext }) ∧
      (∀ y, y ∉ ss.map (·.1) ++ ls.map (·.1) ++ cs → ρ'.lookup y = ρ.lookup y) ∧
      (∀ b ∈ ss, Placed K ρ' (σ.heap ++ ext) (fun a => σ.heap.length ≤ a ∧ a < σ.heap.length + ss.length) b.1 b.2
        (fun y => y ∉ ss.map (·.1) ++ ls.map (·.1) ++ cs)) ∧
      (∀ b ∈ ls, Placed K ρ' (σ.heap ++ ext) (σ.heap.length + ss.length + cs.length ≤ ·) b.1 b.2 (Free · b.2)) ∧
      (∀ x ∈ cs, ∃ j, cs[j]? = some x ∧ ρ'.lookup x = some (.box (σ.heap.length + ss.length + j)) ∧
        (σ.heap ++ ext)[σ.heap.length + ss.length + j]? = some (.atom 1)) := by
  rw [List.nodup_append, List.nodup_append] at hn
  obtain ⟨⟨hns, hnl, hsl⟩, hnc, hslc⟩ := hn
  have m := q_let (U := U) hf hK (ids := ss.map (·.1) ++ cs) (es := ss.map (·.2) ++ cs.map (fun _ => voidExp)) (b := refix ls.length ls inner) (by simp)
    (fun e he => by
      rcases List.mem_append.mp he with he | he
      · obtain ⟨b, hb, rfl⟩ := List.mem_map.mp he; exact hs b hb
      · obtain ⟨b, hb, rfl⟩ := List.mem_map.mp he; rfl) ρ κ σ
  obtain ⟨ρ', ext, q, h1, h2⟩ := refix_run (U := U) hf hK (body := inner) (κ := κ) ls.length ls (bindCells (ss.map (·.1) ++ cs) σ.heap.length ρ)
    { σ with heap := σ.heap ++ (ss.map (·.2) ++ cs.map (fun _ => voidExp)).map (qval K ρ) } (Nat.le_refl _) hnl hl
  generalize hvs : (ss.map (·.2) ++ cs.map (fun _ => voidExp)).map (qval K ρ) = vs at m q h2
  have hvl : vs.length = ss.length + cs.length := by rw [← hvs]; simp
  refine ⟨ρ', vs ++ ext, ?_, fun y hy => ?_, fun b hb => ?_, fun b hb => ?_, fun x hx => ?_⟩
  · rw [← List.append_assoc]
    exact m.after rfl q
  · simp only [List.mem_append, not_or] at hy
    rw [h1 y hy.1.2, bindCells_none (by simp only [List.mem_append, not_or]; exact ⟨hy.1.1, hy.2⟩)]
  · obtain ⟨j, hj, hlk⟩ := bindCells_get (a := σ.heap.length) (ρ := ρ) (List.mem_append_left cs (List.mem_map.mpr ⟨b, hb, rfl⟩) : b.1 ∈ ss.map (·.1) ++ cs)
    have hjl : j < ss.length := by
      refine Classical.byContradiction fun hc => ?_
      rw [List.getElem?_append_right (by simpa using hc)] at hj
      exact hslc b.1 (List.mem_append_left _ (List.mem_map.mpr ⟨b, hb, rfl⟩)) _ (List.mem_of_getElem? hj) rfl
    have hbj : ss[j]? = some b := by
      rw [List.getElem?_append_left (by simpa using hjl), List.getElem?_map] at hj
      cases hc : ss[j]? with
      | none => rw [hc] at hj; cases hj
      | some c =>
        rw [hc] at hj
        simp only [Option.map_some, Option.some.injEq] at hj
        rw [eq_of_fst hns (List.mem_of_getElem? hc) hb hj]
    refine .cell (a := σ.heap.length + j) (ρw := ρ) ?_ ⟨Nat.le_add_right _ _, by omega⟩ ?_ (fun y hy => ?_)
    · rw [h1 b.1, hlk]
      intro hc
      exact hsl b.1 (List.mem_map.mpr ⟨b, hb, rfl⟩) _ hc rfl
    · rw [List.getElem?_append_right (Nat.le_add_right _ _), Nat.add_sub_cancel_left, List.getElem?_append_left (by omega), ← hvs]
      rw [List.getElem?_map, List.getElem?_append_left (by simpa using hjl), List.getElem?_map, hbj]
      rfl
    · simp only [List.mem_append, not_or] at hy
      rw [h1 y hy.1.2, bindCells_none (by simp only [List.mem_append, not_or]; exact ⟨hy.1.1, hy.2⟩)]
  · have := h2 b hb
    rw [← List.append_assoc]
    cases this with
    | cell g1 g2 g3 g4 => exact .cell g1 (by simp only [List.length_append, hvl] at g2; omega) g3 g4
    | fix g1 g2 g3 g4 => exact .fix g1 g2 g3 g4
  · obtain ⟨j, hj, hlk⟩ := bindCells_get (a := σ.heap.length) (ρ := ρ) (List.mem_append_right (ss.map (·.1)) hx)
    have hjl : ss.length ≤ j := by
      refine Classical.byContradiction fun hc => ?_
      rw [List.getElem?_append_left (by simpa using hc)] at hj
      exact hslc x (List.mem_append_left _ (List.mem_of_getElem? hj)) _ hx rfl
    have hj' : cs[j - ss.length]? = some x := by
      rw [List.getElem?_append_right (by simpa using hjl)] at hj
      simpa using hj
    refine ⟨j - ss.length, hj', ?_, ?_⟩
    · rw [h1 x, hlk]
      · congr 2; omega
      · intro hc; exact hslc x (List.mem_append_right _ hc) _ hx rfl
    · have : j - ss.length < cs.length := lt_of_get hj'
      rw [Nat.add_assoc, List.getElem?_append_right (Nat.le_add_right _ _), Nat.add_sub_cancel_left, List.getElem?_append_left (by omega), ← hvs]
      rw [List.getElem?_map, List.getElem?_append_right (by simp), List.length_map, Nat.add_sub_cancel_left, List.getElem?_map, hj']
      rfl

end Verif.Letrec

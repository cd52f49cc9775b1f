import Verif.Letrec.Block
import Verif.Beta.Syntax
/-
A program and its fixed form run in step (C35).
-/
namespace Verif.Letrec
open Verif.Core
open Verif.Boxes (bindCells_none bindCells_get idxOf_none lt_of_get)
open Verif.Beta (free_app free_lam free_set)
variable {W : Type} {P : Par} {M : Sem W} {ord : Op → Nat → List Nat}

/-- the machine of the program. -/
abbrev MS (P : Par) (M : Sem W) (ord : Op → Nat → List Nat) : State W → Option (State W) := rstep P.U M (positional ord)
/-- the machine of the fixed program. -/
abbrev MT (M : Sem W) (ord : Op → Nat → List Nat) : State W → Option (State W) := rstep (fun _ => false) M (positional ord)

/-- `s` fails, both finish alike, or both get to related states. -/
def Out (P : Par) (M : Sem W) (ord : Op → Nat → List Nat) (s t : State W) : Prop :=
  Fails (MS P M ord) s ∨ (∃ v v' w, Quiet (MS P M ord) s (.done v w) ∧ Quiet (MT M ord) t (.done v' w) ∧ v.view = v'.view) ∨
  (∃ s' t', Move (MS P M ord) s s' ∧ Move (MT M ord) t t' ∧ Sync P s' t')

theorem Out.src {s s' t : State W} (h : Quiet (MS P M ord) s s') (ho : Out P M ord s' t) : Out P M ord s t := by
  rcases ho with hf | ⟨v, v', w, h1, h2, hv⟩ | ⟨a, b, h1, h2, hs⟩
  · exact Or.inl (hf.of_reach h.reach)
  · exact Or.inr (Or.inl ⟨v, v', w, h.trans h1, h2, hv⟩)
  · exact Or.inr (Or.inr ⟨a, b, h1.before h, h2, hs⟩)

theorem Out.sync {s s' t t' : State W} (h1 : MS P M ord s = some s') (h2 : MT M ord t = some t') (hs : Sync P s' t') : Out P M ord s t :=
  Or.inr (Or.inr ⟨s', t', .one h1, .one h2, hs⟩)

theorem Out.moves {s s' t t' : State W} (h1 : Move (MS P M ord) s s') (h2 : Move (MT M ord) t t') (hs : Sync P s' t') : Out P M ord s t :=
  Or.inr (Or.inr ⟨s', t', h1, h2, hs⟩)

theorem Out.fail {s t : State W} (h : MS P M ord s = none) (hd : ∀ v w, s ≠ .done v w) : Out P M ord s t := Or.inl (Fails.now h hd)

/-! ### parts of a `letrec` -/

theorem lookup_skip {x y : Id} {v : Val} {ρ : Env} (h : y ≠ x) : (Env.bind x v ρ).lookup y = ρ.lookup y := by
  rw [Env.lookup, if_neg h]

/-- an assignment to a local variable, up to its operand. -/
theorem set_in {U : Id → Bool} {x : Id} {e : Exp} {ρ : Env} {a : Nat} (hx : x.isGlobal = false) (hl : ρ.lookup x = some (.box a)) (κ : Kont) (σ : Store W) :
    rstep U M (positional ord) (.ev (.set x e) ρ κ σ) =
      some (.ev e ρ (.args (.prim noEffect .boxset) [.var x, e] (upd (fun _ => .trap) 0 (.box a)) 1 [] ρ κ) σ) := by
  simp [rstep, cstep, hx, hl]

/-- and the rest. -/
theorem set_out {U : Id → Bool} {eff : Effect} {x : Id} {e : Exp} {ρ : Env} {d : Nat → Val} {a : Nat} {κ : Kont} {σ : Store W} {v : Val} (hd : d 0 = .box a) (ha : a < σ.heap.length) :
    Quiet (rstep U M (positional ord)) (.ret v (.args (.prim eff .boxset) [.var x, e] d 1 [] ρ κ) σ)
      (.ret v κ { σ with heap := σ.heap.set a v }) := by
  refine .step (b := .args (.prim eff .boxset) [.var x, e] (upd d 1 v) [] ρ κ σ) rfl rfl (.one ?_ rfl)
  simp [rstep, cstep, step, vals, List.range_succ, upd, hd, doPrim, ha]

/-- both. -/
theorem set_run {U : Id → Bool} {x : Id} {e : Exp} {ρ : Env} {a : Nat} {κ : Kont} {σ : Store W} {v : Val} (hx : x.isGlobal = false) (hl : ρ.lookup x = some (.box a))
    (ha : a < σ.heap.length) (he : ∀ κ, Quiet (rstep U M (positional ord)) (.ev e ρ κ σ) (.ret v κ σ)) :
    Quiet (rstep U M (positional ord)) (.ev (.set x e) ρ κ σ) (.ret v κ { σ with heap := σ.heap.set a v }) :=
  .step (set_in hx hl κ σ) rfl ((he _).trans (set_out rfl ha))

/-- the assignments of a `letrec`. -/
theorem asg_run (hf : FairPos ord) {σt : Store W} {N : Nat} {κ : Kont} : {ids ts : List Id} → {asg : Exp} → Asg P ids ts asg → ∀ {φ : List Slot} {σ : Store W} {ρ : Env}, SR P φ σ σt →
    (∀ (i : Nat) x t, ids[i]? = some x → ts[i]? = some t → ∃ a at' v, ρ.lookup x = some (.box a) ∧ ρ.lookup t = some (.box at') ∧ a < N ∧ N ≤ at' ∧ σ.heap[at']? = some v ∧
      (φ[a]? = some .dead ∨ ∃ w, Frz φ a w ∧ VR P φ v w)) →
    ∃ φ' σ', Quiet (MS P M ord) (.ev asg ρ κ σ) (.ret (.atom 1) κ σ') ∧ Ext φ φ' ∧ SR P φ' σ' σt
  | _, _, _, .nil eff, φ, σ, ρ, hs, _ => by
    refine ⟨φ, σ, .step (b := .args (.prim eff .void) [] (fun _ => .trap) [] ρ κ σ) ?_ rfl (.one rfl rfl), .refl _, hs⟩
    simp [rstep, cstep, step, positional, fair_zero hf]
  | _, _, _, .cons (x := x) (t := t) (d := d) (ids := ids) (ts := ts) (b := b) hx ht hU hd1 hd2 h, φ, σ, ρ, hs, hh => by
    obtain ⟨a, at', v, g1, g2, g3, g4, g5, g6⟩ := hh 0 x t rfl rfl
    have ha : a < σ.heap.length := by have := lt_of_get g5; omega
    obtain ⟨dd, todo, hw, q1, _⟩ := beg_in (U := P.U) (M := M) hf d b (.set x (.var t)) ρ κ σ
    have q2 : Quiet (MS P M ord) (.ev (.set x (.var t)) ρ (.args .call [.lam [d] b, .set x (.var t)] dd 1 todo ρ κ) σ)
        (.ev b (.bind d (.box σ.heap.length) ρ) κ { σ with heap := σ.heap.set a v ++ [v] }) := by
      refine (set_run (v := v) hx g1 ha (fun κ => .one ?_ rfl)).trans ?_
      · simp [rstep, cstep, hU, ht, fetch, g2, g5]
      · have := (beg_out (U := P.U) (M := M) (ord := ord) hw κ { σ with heap := σ.heap.set a v } v (e := .set x (.var t))).quiet rfl
        simpa using this
    have s1 := (hs.set_src (v := v) g6).junkS [v]
    obtain ⟨φ', σ', q3, he, hs'⟩ := asg_run hf (κ := κ) h (φ := φ ++ [.dead]) (ρ := .bind d (.box σ.heap.length) ρ) s1 (by
      intro i x' t' hx' ht'
      obtain ⟨a', at'', v', k1, k2, k3, k4, k5, k6⟩ := hh (i + 1) x' t' (by simpa using hx') (by simpa using ht')
      refine ⟨a', at'', v', ?_, ?_, k3, k4, ?_, ?_⟩
      · rw [lookup_skip (fun (e : x' = d) => hd1 (e ▸ List.mem_of_getElem? hx'))]; exact k1
      · rw [lookup_skip (fun (e : t' = d) => hd2 (e ▸ List.mem_of_getElem? ht'))]; exact k2
      · simp only
        rw [List.getElem?_append_left (by rw [List.length_set]; exact lt_of_get k5), List.getElem?_set_ne (by omega)]
        exact k5
      · rcases k6 with k6 | ⟨w, k6, k7⟩
        · exact Or.inl (Ext.append _ _ _ _ k6)
        · exact Or.inr ⟨w, k6.mono (Ext.append _ _), k7.mono (Ext.append _ _)⟩)
    exact ⟨φ', σ', q1.trans (q2.trans q3), fun b c hb => he _ _ (Ext.append _ _ _ _ hb), hs'⟩

/-- unused procedures. -/
theorem dead_run {U : Id → Bool} (hf : FairPos ord) (hK : Const M P.K) {κ : Kont} : {S : Id → Prop} → {b inner : Exp} → Dead P S b inner → ∀ (ρ : Env) (σ : Store W),
    ∃ ρ' ext, Quiet (rstep U M (positional ord)) (.ev inner ρ κ σ) (.ev b ρ' κ { σ with heap := σ.heap ++ ext }) ∧ ∀ y, S y → ρ'.lookup y = ρ.lookup y
  | _, _, _, .done b, ρ, σ => ⟨ρ, [], by simp only [List.append_nil]; exact .refl _, fun _ _ => rfl⟩
  | _, _, _, .cons (S := S) (b := b) (e := e) (inner := inner) (d := d) hq hd h, ρ, σ => by
    have m := (q_let (U := U) hf hK (ids := [d]) (es := [e]) (b := inner) rfl (fun e' he => by rw [List.mem_singleton.mp he]; exact hq) ρ κ σ).quiet rfl
    obtain ⟨ρ', ext, q, hl⟩ := dead_run (U := U) hf hK (κ := κ) h (bindCells [d] σ.heap.length ρ) { σ with heap := σ.heap ++ [e].map (qval P.K ρ) }
    refine ⟨ρ', [e].map (qval P.K ρ) ++ ext, ?_, fun y hy => ?_⟩
    · rw [← List.append_assoc]; exact m.trans q
    · rw [hl y hy, bindCells_none]
      intro e; rw [List.mem_singleton.mp e] at hy; exact hd hy

/-! ### evaluation -/

theorem ev_ok (hf : FairPos ord) (hK : Const M P.K) : ∀ (n : Nat) {e e' : Exp} {φ : List Slot} {ρ ρt : Env} {κ κ' : Kont} {σ σt : Store W}, sizeOf e < n →
    LR P e e' → EE P φ e ρ ρt → KR P φ κ κ' → SR P φ σ σt → Out P M ord (.ev e ρ κ σ) (.ev e' ρt κ' σt) := by
  intro n
  induction n with
  | zero => intro e e' φ ρ ρt κ κ' σ σt h; omega
  | succ n ih =>
    intro e e' φ ρ ρt κ κ' σ σt hn hl he hk hs
    cases hl with
    | var x =>
      cases hg : x.isGlobal with
      | true =>
        rcases hs.glob x with ⟨h1, _⟩ | ⟨v, w, h1, h2, h3⟩
        · exact .fail (by simp [rstep, cstep, hg, h1]) (fun _ _ => by simp)
        · exact .sync (s' := .ret v κ σ) (t' := .ret w κ' σt) (by simp [rstep, cstep, hg, h1]) (by simp [rstep, cstep, hg, h2]) (.ret h3 hk hs)
      | false =>
        cases hl : ρ.lookup x with
        | none => exact .fail (by simp [rstep, cstep, hg, fetch, hl]) (fun _ _ => by simp)
        | some r =>
          obtain ⟨a, r', rfl, h2, h3⟩ := he.look x r .var hl
          have hslot : ∃ s, φ[a]? = some s := by cases h3 <;> exact ⟨_, by assumption⟩
          obtain ⟨s, hs'⟩ := hslot
          obtain ⟨v, hv, hok⟩ := hs.val hs'
          by_cases hb : P.U x = true ∧ blank v = true
          · exact .fail (by simp [rstep, hg, fetch, hl, hv, hb.1, hb.2]) (fun _ _ => by simp)
          · have h1 : MS P M ord (.ev (.var x) ρ κ σ) = some (.ret v κ σ) := by
              simp only [rstep, cstep, fetch, hl, hv, hg]
              cases hu : P.U x with
              | false => simp
              | true => simp [hu] at hb; simp [hb]
            have fin : ∀ w, fetch x ρt σt.heap = some w → VR P φ v w → Out P M ord (.ev (.var x) ρ κ σ) (.ev (.var x) ρt κ' σt) := by
              intro w hw hr
              exact .sync (s' := .ret v κ σ) (t' := .ret w κ' σt) h1 (by simp [rstep, cstep, hg, hw]) (.ret hr hk hs)
            cases h3 with
            | live h =>
              rw [h] at hs'; injection hs' with hs'; subst hs'
              obtain ⟨w, g1, g2⟩ := hok
              exact fin w (by simp [fetch, h2, g1]) g2
            | dir hU hg' h hb' =>
              rw [h] at hs'; injection hs' with hs'; subst hs'
              rcases hok with hbl | hr
              · exact absurd ⟨hU, hbl⟩ hb
              · refine fin r' ?_ hr
                unfold fetch
                rw [h2]
                cases r' <;> first | rfl | exact absurd rfl (hb' _)
            | cell hU hg' h =>
              rw [h] at hs'; injection hs' with hs'; subst hs'
              rcases hok with ⟨g1, hbl | hr⟩
              · exact absurd ⟨hU, hbl⟩ hb
              · exact fin _ (by simp [fetch, h2, g1]) hr
    | set h =>
      rename_i x e e'
      cases hg : x.isGlobal with
      | true =>
        exact .sync (s' := .ev e ρ (.set x κ) σ) (t' := .ev e' ρt (.set x κ') σt) (by simp [rstep, cstep, hg]) (by simp [rstep, cstep, hg])
          (.ev h (he.weaken (fun y hy => .set x hy) (fun y hy => .set x hy)) (.set hk) hs)
      | false =>
        cases hl : ρ.lookup x with
        | none => exact .fail (by simp [rstep, cstep, hg, hl]) (fun _ _ => by simp)
        | some r =>
          obtain ⟨a, a', rfl, h2⟩ := he.live x r (.setTarget e) hl
          obtain ⟨b, r', h3, h4, h5⟩ := he.look x _ (.setTarget e) hl
          injection h3 with h3; subst h3
          have : r' = .box a' := by
            cases h5 with
            | live h => rw [h2] at h; injection h with h; injection h with h; rw [h]
            | dir _ _ h => rw [h2] at h; injection h with h; cases h
            | cell _ _ h => rw [h2] at h; injection h with h; cases h
          subst this
          refine .sync (set_in hg hl κ σ) (set_in hg h4 κ' σt) (.ev h (he.weaken (fun y hy => .set x hy) (fun y hy => .set x hy))
            (.args (.cons (.var x) (.cons h .nil)) (he.weaken ?_ ?_) (fun j => ?_) hk) hs)
          · rintro y ⟨e0, h0, hy⟩
            rcases List.mem_cons.mp h0 with rfl | h0
            · cases hy; exact .setTarget e
            · rw [List.mem_singleton.mp h0] at hy; exact .set x hy
          · rintro y ⟨e0, h0, hy⟩
            rcases List.mem_cons.mp h0 with rfl | h0
            · cases hy
            · rw [List.mem_singleton.mp h0] at hy; exact .set x hy
          · simp only [upd]; split
            · exact .box h2
            · exact .trap
    | ite h1 h2 h3 =>
      rename_i a b c a' b' c'
      refine .sync (s' := .ev a ρ (.ite b c ρ κ) σ) (t' := .ev a' ρt (.ite b' c' ρt κ') σt) rfl rfl
        (.ev h1 (he.weaken (fun y hy => .iteA _ _ hy) (fun y hy => .iteA _ _ hy)) (.ite h2 h3 (he.weaken ?_ ?_) hk) hs)
      · rintro y ⟨e0, h0, hy⟩
        rcases List.mem_cons.mp h0 with rfl | h0
        · exact .iteB _ _ hy
        · rw [List.mem_singleton.mp h0] at hy; exact .iteC _ _ hy
      · rintro y ⟨e0, h0, hy⟩
        rcases List.mem_cons.mp h0 with rfl | h0
        · exact .iteB _ _ hy
        · rw [List.mem_singleton.mp h0] at hy; exact .iteC _ _ hy
    | prim h1 =>
      rename_i eff p es es'
      exact .sync (s' := .args (.prim eff p) es (fun _ => .trap) (ord (.prim eff p) es.length) ρ κ σ)
        (t' := .args (.prim eff p) es' (fun _ => .trap) (ord (.prim eff p) es.length) ρt κ' σt) rfl (by rw [h1.length]; rfl)
        (.args h1 (he.weaken (fun y ⟨e, h, hy⟩ => .prim _ _ h hy) (fun y ⟨e, h, hy⟩ => .prim _ _ h hy)) (fun _ => .trap) hk hs)
    | app h1 h2 =>
      rename_i f f' es es'
      refine .sync (s' := .args .call (f :: es) (fun _ => .trap) (ord .call (es.length + 1)) ρ κ σ)
        (t' := .args .call (f' :: es') (fun _ => .trap) (ord .call (es.length + 1)) ρt κ' σt) rfl (by rw [h2.length]; rfl)
        (.args (.cons h1 h2) (he.weaken ?_ ?_) (fun _ => .trap) hk hs)
      · rintro y ⟨e0, h0, hy⟩
        rcases List.mem_cons.mp h0 with rfl | h0
        · exact .appF _ hy
        · exact .appA _ h0 hy
      · rintro y ⟨e0, h0, hy⟩
        rcases List.mem_cons.mp h0 with rfl | h0
        · exact .appF _ hy
        · exact .appA _ h0 hy
    | null h1 =>
      rename_i b
      have m := (q_let (U := P.U) hf hK (ids := []) (es := []) (b := b) rfl (fun e he => by simp at he) ρ κ σ).quiet rfl
      simp only [List.map_nil, List.append_nil] at m
      exact .src m (ih (by simp at hn ⊢; omega) h1 (he.weaken (fun y hy => .appF _ (.lam (by simp) hy)) (fun y hy => .appF _ (.lam (by simp) hy))) hk hs)
    | idl hx h1 =>
      rename_i x e
      obtain ⟨d, todo, hw, q, _⟩ := beg_in (U := P.U) (M := M) hf x (.var x) e ρ κ σ
      exact .src q (ih (by simp at hn ⊢; omega) h1 (he.weaken (fun y hy => .appA _ (List.mem_singleton.mpr rfl) hy) (fun y hy => .appA _ (List.mem_singleton.mpr rfl) hy)) (.idl hx hw hk) hs)
    | lam h1 => exact .sync rfl rfl (.ret (.clos h1 he) hk hs)
    | letcc h1 =>
      rename_i x b b'
      have hk' := hk.mono (Ext.append φ (lives σt.heap.length 1))
      refine .sync rfl rfl (.ev (φ := φ ++ lives σt.heap.length 1) h1 ?_ hk' (hs.alloc (vs := [.cont κ]) (ws := [.cont κ']) (.cons (.cont hk) .nil)))
      exact he.bind (ids := [x]) hs 1 rfl (fun y hy hm => .letcc (by simpa using hm) hy) (fun y hy hm => .letcc (by simpa using hm) hy)
    | withcc h1 h2 =>
      exact .sync rfl rfl (.ev h1 (he.weaken (fun y hy => .withccK _ hy) (fun y hy => .withccK _ hy))
        (.withcc h2 (he.weaken (fun y hy => .withccE _ hy) (fun y hy => .withccE _ hy))) hs)
    | star sh hvl hv hu hS hA hss hls hc =>
      rename_i ids voids chain inner ss ls cs us S A
      have hq : ∀ e ∈ voids, quick P.K e = true := fun e he => by obtain ⟨eff, rfl⟩ := hv e he; rfl
      have m := q_let (U := P.U) hf hK (ids := ids) (es := voids) (b := chain) hvl.symm hq ρ κ σ
      obtain ⟨ρt', ext, φ', m', hE, hs', he', hp⟩ := block (U := fun _ => false) hf hK sh hu he hS hA hss hls hs (vs := voids.map (qval P.K ρ)) (by simpa using hvl)
        (fun v h => by obtain ⟨e, h1, rfl⟩ := List.mem_map.mp h; obtain ⟨eff, rfl⟩ := hv e h1; rfl) inner κ'
      exact .moves m m' (.chain (fun q hq => (sh.free q hq).1) hc sh.asg he' hp (hk.mono hE) hs')
    | rec' sh hvl hv hS hA hss hls hr hrl htl htn hasg hsr ht hd hbS hbA hb hdead =>
      rename_i ids voids rands tmps asg body body' inner d ss ls S A
      have hq : ∀ e ∈ voids, quick P.K e = true := fun e he => by obtain ⟨eff, rfl⟩ := hv e he; rfl
      have m := q_let (U := P.U) hf hK (ids := ids) (es := voids) (b := letExp [d] [letExp tmps rands asg] body) hvl.symm hq ρ κ σ
      obtain ⟨ρt', ext, φ', m', hE, hs', he', hp⟩ := block (U := fun _ => false) (us := ids.filter (fun x => decide (x ∉ ss.map Pair.id ++ ls.map Pair.id))) hf hK sh
        (fun x hx => by rw [List.mem_filter] at hx; simpa using hx) he hS hA hss hls hs (vs := voids.map (qval P.K ρ)) (by simpa using hvl)
        (fun v h => by obtain ⟨e, h1, rfl⟩ := List.mem_map.mp h; obtain ⟨eff, rfl⟩ := hv e h1; rfl) inner κ'
      generalize hρ1 : bindCells ids σ.heap.length ρ = ρ1 at m he' hp
      generalize hσ1 : ({ σ with heap := σ.heap ++ voids.map (qval P.K ρ) } : Store W) = σ1 at m hs'
      have hw1 : σ1.world = σ.world := by rw [← hσ1]
      have hl1 : σ1.heap.length = σ.heap.length + ids.length := by rw [← hσ1]; simp [hvl]
      generalize hσt1 : ({ σt with heap := σt.heap ++ ext } : Store W) = σt1 at m' hs'
      have hwt1 : σt1.world = σt.world := by rw [← hσt1]
      obtain ⟨dd, todo, hw, q1, _⟩ := beg_in (U := P.U) (M := M) hf d body (letExp tmps rands asg) ρ1 κ σ1
      have q2 := (q_let (U := P.U) hf hK (ids := tmps) (es := rands) (b := asg) (by omega) hr ρ1 (.args .call [.lam [d] body, letExp tmps rands asg] dd 1 todo ρ1 κ) σ1).quiet rfl
      obtain ⟨φ2, σ2, q3, hE2, hs2⟩ := asg_run (M := M) hf (N := σ1.heap.length) (κ := .args .call [.lam [d] body, letExp tmps rands asg] dd 1 todo ρ1 κ) hasg
          (ρ := bindCells tmps σ1.heap.length ρ1) (hs'.junkS (rands.map (qval P.K ρ1))) (by
        intro i x t hx ht'
        have hxi := List.mem_of_getElem? hx
        have hti := List.mem_of_getElem? ht'
        have hxt : x ∉ tmps := fun h => ht x h hxi
        obtain ⟨j, hj, hlk⟩ := bindCells_get (a := σ.heap.length) (ρ := ρ) hxi
        obtain ⟨k, hk, hlk'⟩ := bindCells_get (a := σ1.heap.length) (ρ := ρ1) hti
        have hki := get_nodup_id htn hk ht'
        subst hki
        have hkl : k < rands.length := by have := lt_of_get ht'; omega
        refine ⟨σ.heap.length + j, σ1.heap.length + k, qval P.K ρ1 rands[k], ?_, hlk', ?_, Nat.le_add_right _ _, ?_, ?_⟩
        · rw [bindCells_none hxt, ← hρ1]; exact hlk
        · have := lt_of_get hj; omega
        · simp only
          rw [List.getElem?_append_right (Nat.le_add_right _ _), Nat.add_sub_cancel_left, List.getElem?_map, List.getElem?_eq_getElem hkl]
          rfl
        · by_cases hm : x ∈ ss.map Pair.id ++ ls.map Pair.id
          · rw [← List.map_append] at hm
            obtain ⟨b, hb, rfl⟩ := List.mem_map.mp hm
            obtain ⟨a, w, g1, g2, g3⟩ := hp.val b hb
            rw [← hρ1, hlk] at g1; injection g1 with g1; injection g1 with g1; subst g1
            obtain ⟨i', k1, k2⟩ := hsr b hb
            have := get_nodup_id sh.nodup hx k1
            subst this
            rw [List.getElem?_eq_getElem hkl] at k2; injection k2 with k2
            exact Or.inr ⟨w, g2.mono (Ext.append _ _), (k2 ▸ g3.vr).mono (Ext.append _ _)⟩
          · obtain ⟨a, g1, g2⟩ := hp.dead x (List.mem_filter.mpr ⟨hxi, by simpa using hm⟩)
            rw [← hρ1, hlk] at g1; injection g1 with g1; injection g1 with g1; subst g1
            exact Or.inl (Ext.append _ _ _ _ g2))
      have q4 := beg_out (U := P.U) (M := M) (ord := ord) hw κ σ2 (.atom 1) (e := letExp tmps rands asg)
      obtain ⟨ρt2, ext2, q5, hlk⟩ := dead_run (U := fun _ => false) hf hK (κ := κ') hdead ρt' σt1
      have qs := q1.trans (q2.trans (q3.trans (q4.quiet rfl)))
      have hE3 : Ext φ' (φ2 ++ [Slot.dead]) := fun a c h => Ext.append _ _ _ _ (hE2 _ _ (Ext.append _ _ _ _ h))
      have he3 : ER P (φ2 ++ [Slot.dead]) S A (.bind d (.box σ2.heap.length) ρ1) ρt2 :=
        ((he'.mono hE3).congr sh.asg (fun _ _ => rfl) hlk).skipS hd sh.asg _
      exact .moves (m.after hw1 qs) (m'.after hwt1 q5)
        (.ev hb (he3.weaken hbS hbA) ((hk.mono hE).mono hE3) (hs2.junk [.atom 1] ext2))

theorem chain_ok (hf : FairPos ord) (hK : Const M P.K) : ∀ (n : Nat) {S A : Id → Prop} {qs : List Pair} {us : List Id} {e e' : Exp} {φ : List Slot} {ρ ρt : Env} {κ κ' : Kont}
    {σ σt : Store W}, sizeOf e < n → (∀ q ∈ qs, ∀ y, Free y q.src → S y) → LC P S A qs us e e' → (∀ y, A y → S y) → ER P φ S A ρ ρt → Pend P φ ρ qs us → KR P φ κ κ' →
    SR P φ σ σt → Out P M ord (.ev e ρ κ σ) (.ev e' ρt κ' σt) := by
  intro n
  induction n with
  | zero => intro S A qs us e e' φ ρ ρt κ κ' σ σt h; omega
  | succ n ih =>
    intro S A qs us e e' φ ρ ρt κ κ' σ σt hn hq hc hAS he hp hk hs
    cases hc with
    | done h1 h2 h3 => exact ev_ok hf hK (n + 1) hn h1 (he.weaken h2 h3) hk hs
    | c h1 h2 h3 hx hxA hd hd' hqd hud hb =>
      rename_i x d d' e e' b b'
      obtain ⟨f, todo, hw, _, m⟩ := beg_in (U := P.U) (M := M) hf d b (.set x e) ρ κ σ
      obtain ⟨f', todo', hw', _, m'⟩ := beg_in (U := fun _ => false) (M := M) hf d' b' (.set x e') ρt κ' σt
      refine .moves m m' (.ev (.set h1) (he.weaken ?_ ?_) (.begf hd hd' hqd hud hq hb hAS he hp hw hw' hk) hs)
      · intro y hy
        rcases free_set.mp hy with rfl | hy
        · exact hx
        · exact h2 y hy
      · intro y hy
        cases hy with
        | setTarget => exact hxA
        | set _ hy => exact h3 y hy
    | u hx hxl h1 h2 h3 hd hd' hqd hud hb =>
      rename_i x d d' e e' b b'
      obtain ⟨f, todo, hw, _, m⟩ := beg_in (U := P.U) (M := M) hf d b (.set x e) ρ κ σ
      obtain ⟨f', todo', hw', _, m'⟩ := beg_in (U := fun _ => false) (M := M) hf d' b' e' ρt κ' σt
      obtain ⟨a, g1, g2⟩ := hp.dead x hx
      exact .moves (m.after rfl (.one (set_in hxl g1 _ σ) rfl)) m' (.ev h1 (he.weaken h2 h3) (.unused rfl g2 (.begf hd hd' hqd hud hq hb hAS he hp hw hw' hk)) hs)
    | q hqm hql hd hqd hud hb =>
      rename_i d q b
      obtain ⟨f, todo, hw, q1, _⟩ := beg_in (U := P.U) (M := M) hf d b (.set q.id q.src) ρ κ σ
      obtain ⟨a, w, g1, g2, g3⟩ := hp.val q hqm
      have ha : a < σ.heap.length := by
        rw [← hs.len]
        rcases g2 with h | ⟨_, h⟩ <;> exact lt_of_get h
      have q2 := set_run (U := P.U) (M := M) (ord := ord) (κ := .args .call [.lam [d] b, .set q.id q.src] f 1 todo ρ κ) hql g1 ha (fun κ => q_ev (U := P.U) hf hK g3.quick ρ κ σ)
      have q3 := (beg_out (U := P.U) (M := M) (ord := ord) hw κ { σ with heap := σ.heap.set a (qval P.K ρ q.src) } (qval P.K ρ q.src) (e := .set q.id q.src)).quiet rfl
      have hE := Ext.append φ [Slot.dead]
      have s1 := (hs.set_src (v := qval P.K ρ q.src) (a := a) (Or.inr ⟨w, g2, g3.vr⟩)).junkS [qval P.K ρ q.src]
      refine .src (q1.trans (q2.trans q3)) (ih (φ := φ ++ [.dead]) ?_ hq hb hAS ((he.mono hE).skipS hd hAS _) ((hp.mono hE).skip hd hqd hud hq _) (hk.mono hE) s1)
      simp only [letExp, Exp.app.sizeOf_spec, Exp.lam.sizeOf_spec] at hn
      omega

theorem args_ok {op : Op} {es es' : List Exp} {d d' : Nat → Val} {todo : List Nat} {φ : List Slot} {ρ ρt : Env} {κ κ' : Kont}
    {σ σt : Store W} (hf : LRs P es es') (he : EEs P φ es ρ ρt) (hd : ∀ j, VR P φ (d j) (d' j)) (hk : KR P φ κ κ') (hs : SR P φ σ σt) :
    Out P M ord (.args op es d todo ρ κ σ) (.args op es' d' todo ρt κ' σt) := by
  cases todo with
  | cons i todo =>
    cases hi : es[i]? with
    | none => exact .fail (by cases op <;> simp [rstep, cstep, step, hi]) (fun _ _ => by simp)
    | some e =>
      have hm := List.mem_of_getElem? hi
      obtain ⟨e', hi', f1⟩ := hf.get hi
      exact .sync (s' := .ev e ρ (.args op es d i todo ρ κ) σ) (t' := .ev e' ρt (.args op es' d' i todo ρt κ') σt)
        (by cases op <;> simp [rstep, cstep, step, hi]) (by cases op <;> simp [rstep, cstep, step, hi'])
        (.ev f1 (he.weaken (fun y hy => ⟨e, hm, hy⟩) (fun y hy => ⟨e, hm, hy⟩)) (.args hf he hd hk) hs)
  | nil =>
    cases op with
    | prim eff p =>
      rcases doPrim_rel (M := M) (p := p) (forall₂_vals hd es.length) hs with h1 | ⟨u, w, h1, h2, h3⟩ | ⟨u, w, σ', σt', φ', h1, h2, h3, h4, h5⟩
      · exact .fail (by simp [rstep, cstep, step, h1]) (fun _ _ => by simp)
      · exact Or.inr (Or.inl ⟨u, w, σ.world, .one (by simp [rstep, cstep, step, h1]) rfl, .one (by simp [rstep, cstep, step, ← hf.length, h2, hs.world]) hs.world, h3.view⟩)
      · exact .sync (s' := .ret u κ σ') (t' := .ret w κ' σt') (by simp [rstep, cstep, step, h1]) (by simp [rstep, cstep, step, ← hf.length, h2]) (.ret h4 (hk.mono h3) h5)
    | call =>
      have hv := forall₂_vals hd es.length
      generalize h1 : vals d es.length = vs at hv
      generalize h2 : vals d' es.length = ws at hv
      cases hv with
      | nil => exact .fail (by simp [rstep, cstep, step, h1]) (fun _ _ => by simp)
      | cons hf' hv =>
        rename_i f g vs ws
        exact .sync (s' := .ap f vs κ σ) (t' := .ap g ws κ' σt) (by simp [rstep, cstep, step, h1]) (by simp [rstep, cstep, step, ← hf.length, h2]) (.ap hf' hv hk hs)

theorem forall₂_mono {φ φ' : List Slot} (h : Ext φ φ') {vs ws : List Val} (hv : List.Forall₂ (VR P φ) vs ws) : List.Forall₂ (VR P φ') vs ws :=
  hv.imp (fun _ _ h1 => h1.mono h)

theorem ap_ok {φ : List Slot} {f g : Val} {vs ws : List Val} {κ κ' : Kont} {σ σt : Store W} (hf : VR P φ f g) (hv : List.Forall₂ (VR P φ) vs ws)
    (hk : KR P φ κ κ') (hs : SR P φ σ σt) : Out P M ord (.ap f vs κ σ) (.ap g ws κ' σt) := by
  have hwl := hv.length_eq
  cases hf with
  | atom | pair | box | trap => exact .fail (by simp [rstep, cstep, step]) (fun _ _ => by simp)
  | clos a1 a2 =>
    rename_i ids b b' ρ ρt
    by_cases hl : ids.length = vs.length
    · have hl' : ids.length = ws.length := by rw [hl]; exact hwl
      exact .sync (s' := .ev b (bindCells ids σ.heap.length ρ) κ { σ with heap := σ.heap ++ vs }) (t' := .ev b' (bindCells ids σt.heap.length ρt) κ' { σt with heap := σt.heap ++ ws })
        (by simp only [rstep, cstep]; rw [if_pos hl]) (by simp only [rstep, cstep]; rw [if_pos hl'])
        (.ev a1 (a2.bind hs vs.length hl (fun y hy hm => .lam hm hy) (fun y hy hm => .lam hm hy)) (hk.mono (Ext.append _ _)) (hs.alloc hv))
    · exact .fail (by simp only [rstep, cstep]; rw [if_neg hl]) (fun _ _ => by simp)
  | rclos a0 a1 a2 =>
    rename_i ps ids lams i b b' ρ ρt
    by_cases hl : ps.length = vs.length
    · have hl' : ps.length = ws.length := by rw [hl]; exact hwl
      exact .sync (s' := .ev b (bindCells ps σ.heap.length ρ) κ { σ with heap := σ.heap ++ vs }) (t' := .ev b' (bindCells ps σt.heap.length (.fix ids lams ρt)) κ' { σt with heap := σt.heap ++ ws })
        (by simp only [rstep, cstep]; rw [if_pos hl]) (by simp only [rstep, cstep, a0]; rw [if_pos hl'])
        (.ev a1 (a2.bind hs vs.length hl (fun y hy hm => .lam hm hy) (fun y hy hm => .lam hm hy)) (hk.mono (Ext.append _ _)) (hs.alloc hv))
    · exact .fail (by simp only [rstep, cstep]; rw [if_neg hl]) (fun _ _ => by simp)
  | cont hk' =>
    cases hv with
    | nil => exact .fail (by simp [rstep, cstep, step]) (fun _ _ => by simp)
    | cons h1 h2 =>
      cases h2 with
      | nil => exact .sync rfl rfl (.ret h1 hk' hs)
      | cons => exact .fail (by simp [rstep, cstep, step]) (fun _ _ => by simp)

theorem ret_ok : (κ : Kont) → ∀ {φ : List Slot} {κ' : Kont} {v w : Val} {σ σt : Store W}, VR P φ v w → KR P φ κ κ' → SR P φ σ σt → Out P M ord (.ret v κ σ) (.ret w κ' σt)
  | .halt, _, _, v, w, σ, σt, hv, .halt, hs => Or.inr (Or.inl ⟨v, w, σ.world, .one rfl rfl, .one (by simp [rstep, cstep, step, hs.world]) hs.world, hv.view⟩)
  | .trap, _, _, _, _, _, _, _, .trap, _ => .fail rfl (fun _ _ => by simp)
  | .throw _, _, _, _, _, _, _, hv, .throw h, hs => .sync rfl rfl (.ap h (.cons hv .nil) .trap hs)
  | .set x _, _, _, v, w, σ, σt, hv, .set hk, hs => .sync rfl rfl (.ret (.atom 1) hk (hs.set_glob x hv))
  | .ite b c ρ κ, φ, κ0, v, w, σ, σt, hv, hk, hs => by
    cases hk with
    | ite o1 o2 he hk =>
      rename_i b' c' ρt κ'
      cases hf : v.isFalse with
      | true =>
        exact .sync (s' := .ev c ρ κ σ) (t' := .ev c' ρt κ' σt) (by simp [rstep, cstep, step, hf]) (by simp [rstep, cstep, step, ← hv.false, hf])
          (.ev o2 (he.weaken (fun y hy => ⟨c, by simp, hy⟩) (fun y hy => ⟨c, by simp, hy⟩)) hk hs)
      | false =>
        exact .sync (s' := .ev b ρ κ σ) (t' := .ev b' ρt κ' σt) (by simp [rstep, cstep, step, hf]) (by simp [rstep, cstep, step, ← hv.false, hf])
          (.ev o1 (he.weaken (fun y hy => ⟨b, by simp, hy⟩) (fun y hy => ⟨b, by simp, hy⟩)) hk hs)
  | .withcc _ _, _, _, v, w, σ, σt, hv, .withcc (e := e) (e' := e') (ρ := ρ) (ρt := ρt) o1 he, hs => by
    by_cases hp : v.view = .proc
    · exact .sync (s' := .ev e ρ (.throw v) σ) (t' := .ev e' ρt (.throw w) σt) (by simp only [rstep, cstep, step]; rw [if_pos hp])
        (by simp only [rstep, cstep, step]; rw [if_pos (by rw [← hv.view]; exact hp)]) (.ev o1 he (.throw hv) hs)
    · exact .fail (by simp only [rstep, cstep, step]; rw [if_neg hp]) (fun _ _ => by simp)
  | .args op _ _ _ _ _ κ, φ, κ0, v, w, σ, σt, hv, hk, hs => by
    cases hk with
    | args o1 he hd hk =>
      refine .sync rfl rfl (.args o1 he (fun j => ?_) hk hs)
      simp only [upd]; split
      · exact hv
      · exact hd j
    | begf hx hx' hq hu hqS hb hAS he hp hw hw' hk =>
      have hE := Ext.append φ [Slot.dead]
      exact .moves (beg_out hw _ σ v) (beg_out hw' _ σt w)
        (.chain (φ := φ ++ [.dead]) hqS hb hAS (((he.mono hE).skipS hx hAS _).skipT hx' _) ((hp.mono hE).skip hx hq hu hqS _) (hk.mono hE) (hs.junk [v] [w]))
    | idl hx hw hk =>
      rename_i d todo ρ x e
      have q : Quiet (MS P M ord) (.ret v (.args .call [.lam [x] (.var x), e] d 1 todo ρ κ) σ) (.ev (.var x) (.bind x (.box σ.heap.length) ρ) κ { σ with heap := σ.heap ++ [v] }) :=
        (beg_out hw κ σ v).quiet rfl
      by_cases hb : P.U x = true ∧ blank v = true
      · refine .src q (.fail ?_ (fun _ _ => by simp))
        simp [rstep, hx, fetch, Env.lookup, hb.1, hb.2]
      · have h1 : MS P M ord (.ev (.var x) (.bind x (.box σ.heap.length) ρ) κ { σ with heap := σ.heap ++ [v] }) = some (.ret v κ { σ with heap := σ.heap ++ [v] }) := by
          simp only [rstep, cstep, fetch, Env.lookup, hx]
          cases hu : P.U x with
          | false => simp
          | true => simp [hu] at hb; simp [hb]
        have hE := Ext.append φ [Slot.dead]
        exact .src (q.trans (.one h1 rfl)) (ret_ok κ (φ := φ ++ [.dead]) (hv.mono hE) (hk.mono hE) (hs.junkS [v]))
    | unused hd ha hk =>
      have hlt := lt_of_get ha
      rw [hs.len] at hlt
      exact .src (set_out hd hlt) (ret_ok κ hv hk (hs.set_src (Or.inl ha)))

theorem sync_world {s t : State W} (h : Sync P s t) : s.world = t.world := by
  cases h with
  | ev _ _ _ hs => exact hs.world
  | chain _ _ _ _ _ _ hs => exact hs.world
  | args _ _ _ _ hs => exact hs.world
  | ap _ _ _ hs => exact hs.world
  | ret _ _ hs => exact hs.world

theorem sync_sim (hf : FairPos ord) (hK : Const M P.K) : SimQ (MS P M ord) (MT M ord) (Sync P) := by
  refine ⟨fun s t h => ?_, fun s t h => sync_world h⟩
  cases h with
  | ev h1 h2 h3 h4 => exact ev_ok hf hK _ (Nat.lt_succ_self _) h1 h2 h3 h4
  | chain h1 h2 h3 h4 h5 h6 h7 => exact chain_ok hf hK _ (Nat.lt_succ_self _) h1 h2 h3 h4 h5 h6 h7
  | args h1 h2 h3 h4 h5 => exact args_ok h1 h2 h3 h4 h5
  | ap h1 h2 h3 h4 => exact ap_ok h1 h2 h3 h4
  | ret h1 h2 h3 => exact ret_ok _ h1 h2 h3

/-- A fixed form of a program behaves like the program. -/
theorem fix_behaves (hf : FairPos ord) (hK : Const M P.K) {e e' : Exp} (h : LR P e e') (w : W) (g : Id → Option Val) (hg : ∀ x v, g x = some v → ∃ n, v = .atom n) :
    Behaves (rstep P.U M (positional ord)) (cstep M (positional ord)) (.ev e .nil .halt ⟨g, [], w⟩) (.ev e' .nil .halt ⟨g, [], w⟩) := by
  rw [← rstep_none]
  refine SimQ.behaves (sync_sim (P := P) hf hK) ?_
  refine .ev (φ := []) h ⟨?_, ?_⟩ .halt ⟨?_, rfl, ?_, ?_, rfl⟩
  · intro y r _ h; simp [Env.lookup] at h
  · intro y r _ h; simp [Env.lookup] at h
  · intro x
    cases h : g x with
    | none => exact Or.inl ⟨h, h⟩
    | some v =>
      obtain ⟨n, rfl⟩ := hg x v h
      exact Or.inr ⟨_, _, h, h, .atom n⟩
  · intro a v s h; simp at h
  · intro a b s a' h; simp at h

end Verif.Letrec

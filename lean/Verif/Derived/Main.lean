import Verif.Derived.Steps
import Mathlib.Data.List.Forall2
/-
Simulation for C68: let-values and the whole.
-/
namespace Verif.Derived
open Spec (G F Loop)
variable {W : Type} {pr : Prims W} {w : W}

/-- the variables `tmp-a` get values. -/
theorem bindVals (m : Nat) : ∀ (n : Nat) (vs : List V) (env' : Env) (c : CS W),
    (m = vs.length → ∃ env2, bindC ((List.range' n m).map .val) (vs.map .v) env' c = some (env2, { c with temps := c.temps ++ vs.map .v }) ∧
      (∀ i, i < m → env2 (.val (n + i)) = some (.temp (c.temps.length + i))) ∧ (∀ y, (∀ i, i < m → y ≠ .val (n + i)) → env2 y = env' y)) ∧
    (m ≠ vs.length → bindC ((List.range' n m).map .val) (vs.map .v) env' c = none) := by
  induction m with
  | zero =>
    intro n vs env' c
    cases vs with
    | nil => exact ⟨fun _ => ⟨env', by simp [bindC], by simp, fun _ _ => rfl⟩, fun h => absurd rfl h⟩
    | cons v vs => exact ⟨fun h => by simp at h, fun _ => by simp [bindC]⟩
  | succ m ih =>
    intro n vs env' c
    cases vs with
    | nil => exact ⟨fun h => by simp at h, fun _ => by simp [List.range'_succ, bindC]⟩
    | cons v vs =>
      obtain ⟨h1, h2⟩ := ih (n + 1) vs (upd (.val n) (.temp c.temps.length) env') { c with temps := c.temps ++ [.v v] }
      constructor
      · intro hm
        obtain ⟨env2, g1, g2, g3⟩ := h1 (by simpa using hm)
        refine ⟨env2, ?_, ?_, ?_⟩
        · simp only [List.range'_succ, List.map_cons, bindC]
          rw [g1]
          simp
        · intro i hi
          cases i with
          | zero =>
            rw [Nat.add_zero, g3 _ (by intro i _ he; injection he; omega)]
            simp [upd]
          | succ i =>
            have := g2 i (by omega)
            rw [show n + (i + 1) = n + 1 + i by omega, this]
            simp; omega
        · intro y hy
          rw [g3 y (fun i hi => by have := hy (i + 1) (by omega); rwa [show n + (i + 1) = n + 1 + i by omega] at this)]
          unfold upd
          rw [if_neg (by simpa using hy 0 (by omega))]
      · intro hm
        simp only [List.range'_succ, List.map_cons, bindC]
        exact h2 (by simpa using hm)

theorem Base.many {s : Spec.S W} {c : CS W} (h : Base s c) (l : List CV) : Base s { c with temps := c.temps ++ l } where
  k := h.k.mono ⟨l, rfl⟩
  cells := h.cells
  clos := h.clos
  conts := forall₂_mono (fun _ _ h => h.mono ⟨l, rfl⟩) h.conts
  world := h.world

/-- the rest of let-values. -/
theorem letVals_sim {s0 : Spec.S W} {c : CS W} {ys : List Nat} {us : List V} {bs : Binds} {b : E} {env : Spec.Env} {env' : Env}
    (h : c.ctl = .ev (lvRest us.length (ys ++ bs.formals.flatten) bs b) env') (hl : ys.length = us.length) (hh : Held c.temps env' us) (he : Ext env env') (hb : Base s0 c) (hw : w = s0.world) :
    Sim pr w (Spec.letVals ys us bs b env s0) c := by
  cases bs with
  | nil =>
    simp only [lvRest, Binds.formals, temps, List.flatten_nil, List.append_nil, expandB, letStarValues] at h
    refine simple_args (g' := .lett (names ys) (expand b) env') (env' := env') ((List.range ys.length).map (fun i => C.var (.val i))) (us.map .v) (c0 := c) (done := []) ?_ (by unfold stepC; rw [h]) (resultC_ev h) (by rw [hw]; exact hb.world) ?_
    · rw [List.forall₂_iff_get]
      refine ⟨by simp [hl], ?_⟩
      intro i h1 h2 k
      simp only [List.get_eq_getElem, List.getElem_map, List.getElem_range]
      have h3 : i < us.length := by simpa using h2
      exact step_var rfl (hh i us[i] (by simp [h3]))
    · intro c1 ctl h1 h2
      exact bind_ev (c0 := { c with ctl := ctl }) h1 h2 (hb.ctl _) he
  | cons xs e bs =>
    simp only [lvRest, Binds.formals, temps, List.flatten_cons, expandB] at h
    unfold Spec.letVals
    simp only
    by_cases hx : xs.length = 1
    · obtain ⟨x, rfl⟩ := List.length_eq_one_iff.mp hx
      refine .of (c' := { c with ctl := .ev (expand e) env', k := .args (.lett [.val us.length] (lvRest (us.length + 1) (ys ++ [x] ++ bs.formals.flatten) bs b) env') [] [] env' :: c.k }) ?_
        ⟨.ev he, .letv1 he hl hh hb.k, hb.cells, hb.clos, hb.conts, hb.world⟩
      unfold stepC
      rw [h]
      simp [letStarValues, argsC, lvRest]
    · refine .of (c' := { c with ctl := .ev (expand e) env', k := .recv ((List.range' us.length xs.length).map .val) (lvRest (us.length + xs.length) (ys ++ xs ++ bs.formals.flatten) bs b) env' :: c.k }) ?_
        ⟨.ev he, .letv he hl hh hb.k, hb.cells, hb.clos, hb.conts, hb.world⟩
      have : ∀ (l : List Name) (ll : List (List Name)) (e : C) (es : List C) (b : C), l.length ≠ 1 → letStarValues (l :: ll) (e :: es) b = .recv l e (letStarValues ll es b) := by
        intro l ll e es b hl
        rcases l with _ | ⟨x, _ | ⟨y, l⟩⟩
        · rfl
        · exact absurd rfl hl
        · rfl
      rw [this _ _ _ _ _ (by simpa using hx)] at h
      unfold stepC
      rw [h]
      simp [lvRest]

theorem assign_sim {s0 : Spec.S W} {c : CS W} {xs : List Nat} {es : List E} {b : E} {env : Spec.Env} {env' : Env} (h : c.ctl = .ev (assigns xs (expandL es) (expand b)) env')
    (he : Ext env env') (hb : Base s0 c) (hw : w = s0.world) : Sim0 pr w (Spec.assign xs es b env s0) c := by
  have hbody : assigns xs (expandL es) (expand b) = expand b → Spec.assign xs es b env s0 = { s0 with ctl := .ev b env } → Sim0 pr w (Spec.assign xs es b env s0) c := by
    intro h1 h2
    rw [h2]
    exact ⟨c, .refl _, by rw [h, h1]; exact .ev he, hb.k, hb.cells, hb.clos, hb.conts, hb.world⟩
  cases xs with
  | nil => exact hbody rfl rfl
  | cons x xs =>
    cases es with
    | nil => exact hbody rfl rfl
    | cons e es =>
      have hcw : c.world = w := by rw [hw]; exact hb.world
      refine .pre (c1 := { c with ctl := .ev (.set (.user x) (expand e)) env', k := .seq (assigns xs (expandL es) (expand b)) env' :: c.k }) (by unfold stepC; rw [h]; rfl) hcw ?_
      refine .pre (c1 := { c with ctl := .ev (expand e) env', k := .set (.user x) env' :: .seq (assigns xs (expandL es) (expand b)) env' :: c.k }) rfl hcw ?_
      exact ⟨_, .refl _, .ev he, .letrecS he hb.k, hb.cells, hb.clos, hb.conts, hb.world⟩

theorem begins_sim {s0 : Spec.S W} {c : CS W} {es : List E} {env : Spec.Env} {env' : Env} (h : c.ctl = .ev (beginC (expandL es)) env')
    (he : Ext env env') (hb : Base s0 c) (hw : w = s0.world) : Sim0 pr w (Spec.begins es env s0) c := by
  have hcw : c.world = w := by rw [hw]; exact hb.world
  rcases es with _ | ⟨e, _ | ⟨e2, es⟩⟩
  · refine .pre (c1 := { c with ctl := .ret [.v .void] }) (by unfold stepC; rw [h]; rfl) hcw ⟨_, .refl _, .ret [.void], hb.k, hb.cells, hb.clos, hb.conts, hb.world⟩
  · exact ⟨c, .refl _, by rw [h]; exact .ev he, hb.k, hb.cells, hb.clos, hb.conts, hb.world⟩
  · refine .pre (c1 := { c with ctl := .ev (expand e) env', k := .seq (beginC (expandL (e2 :: es))) env' :: c.k }) (by unfold stepC; rw [h]; rfl) hcw
      ⟨_, .refl _, .ev he, .begin he hb.k, hb.cells, hb.clos, hb.conts, hb.world⟩

theorem temp_user {n : Nat} : ∀ m, Name.val n ≠ .user m := by intro m; simp
theorem temp_key : Temp .key := by intro m; simp
theorem temp_x : Temp .x := by intro m; simp
theorem temp_tmp : Temp .tmp := by intro m; simp
theorem temp_loop : Temp .loop := by intro m; simp
theorem temp_k : Temp .k := by intro m; simp

noncomputable def size : Spec.Ctl → Nat
  | .ev e _ => sizeOf e
  | .ret _ => 0

/-- one step of the specification: a run, or nothing, and then the form is smaller. -/
def Go (pr : Prims W) (s : Spec.S W) (c : CS W) : Prop :=
  Sim pr s.world (Spec.step pr s) c ∨ ∃ s', Spec.step pr s = some s' ∧ R s' c ∧ size s'.ctl < size s.ctl ∧ s'.world = s.world

/-- a form. -/
theorem ev_sim {s : Spec.S W} {c : CS W} {e : E} {env : Spec.Env} {env' : Env} (hs : s.ctl = .ev e env) (hc : c.ctl = .ev (expand e) env') (he : Ext env env') (hb : Base s c) :
    Go pr s c := by
  obtain ⟨ctl, k, cells, clos, conts, world⟩ := s
  obtain ⟨ctl', k', cells', temps', clos', conts', world'⟩ := c
  simp only at hs hc
  subst hs hc
  obtain ⟨hk, hcells, hclos, hconts, hworld⟩ := hb
  simp only at hk hcells hclos hconts hworld
  subst hworld
  have hb : ∀ ctl ctl', Base (⟨ctl, k, cells, clos, conts, world'⟩ : Spec.S W) ⟨ctl', k', cells', temps', clos', conts', world'⟩ := fun _ _ => ⟨hk, hcells, hclos, hconts, rfl⟩
  have hr := resultC_ev (c := (⟨.ev (expand e) env', k', cells', temps', clos', conts', world'⟩ : CS W)) rfl
  have stut : ∀ e2, Spec.step pr ⟨.ev e env, k, cells, clos, conts, world'⟩ = some ⟨.ev e2 env, k, cells, clos, conts, world'⟩ → expand e = expand e2 → sizeOf e2 < sizeOf e →
      Go pr ⟨.ev e env, k, cells, clos, conts, world'⟩ ⟨.ev (expand e) env', k', cells', temps', clos', conts', world'⟩ := by
    intro e2 h1 h2 h3
    refine .inr ⟨_, h1, ?_, h3, rfl⟩
    rw [h2]
    exact ⟨.ev he, hk, hcells, hclos, hconts, rfl⟩
  cases e with
  | const v => exact .inl (.of rfl ⟨.ret [v], hk, hcells, hclos, hconts, rfl⟩)
  | var x =>
    left
    have h1 := get_sim (hb (.ev (.var x) env) (.ev (expand (.var x)) env')) he x
    unfold Spec.step
    simp only
    cases hg : Spec.get env x ⟨.ev (.var x) env, k, cells, clos, conts, world'⟩ with
    | none => rw [hg] at h1; exact .stuck (by show Option.map _ _ = _; rw [h1]; rfl) hr
    | some v => rw [hg] at h1; exact .of (by show Option.map _ _ = _; rw [h1]; rfl) ⟨.ret [v], hk, hcells, hclos, hconts, rfl⟩
  | set x e => exact .inl (.of rfl ⟨.ev he, .set he hk, hcells, hclos, hconts, rfl⟩)
  | lam xs b =>
    left
    refine .of rfl ⟨?_, hk, hcells, forall₂_snoc hclos ⟨rfl, rfl, he⟩, hconts, rfl⟩
    have := forall₂_length hclos
    simp only
    rw [← this]
    exact .ret [.clo clos.length]
  | app es => exact .inl (args_sim (pre := []) (done := []) (c0 := ⟨.ev (expand (.app es)) env', k', cells', temps', clos', conts', world'⟩) rfl hr rfl (.app _) (hb _ _) he)
  | prim p es => exact .inl (args_sim (pre := []) (done := []) (c0 := ⟨.ev (expand (.prim p es)) env', k', cells', temps', clos', conts', world'⟩) rfl hr rfl (.prim _ _) (hb _ _) he)
  | ite a b c => exact .inl (.of rfl ⟨.ev he, .ite he hk, hcells, hclos, hconts, rfl⟩)
  | seq a b => exact .inl (.of rfl ⟨.ev he, .seq he hk, hcells, hclos, hconts, rfl⟩)
  | callcc e => exact .inl (.of rfl ⟨.ev he, .callcc hk, hcells, hclos, hconts, rfl⟩)
  | lett xs es b => exact .inl (args_sim (pre := []) (done := []) (c0 := ⟨.ev (expand (.lett xs es b)) env', k', cells', temps', clos', conts', world'⟩) rfl hr rfl (.lett _ he) (hb _ _) he)
  | named f xs es b =>
    left
    have hl := forall₂_length hclos
    have hl2 : cells'.length = cells.length := by rw [hcells]; simp
    let kf := CF.args .app [] (expandL es) env' :: k'
    let env2 := upd (.user f) (.user cells'.length) env'
    have hlt : cells'.length < (cells' ++ [CV.v .void]).length := by simp
    refine .pre (c1 := ⟨.ev (.letrec [.user f] [.lam false (names xs) (expand b)] (.var (.user f))) env', kf, cells', temps', clos', conts', world'⟩) rfl rfl ?_
    refine .pre (c1 := ⟨.ev (.lam false (names xs) (expand b)) env2, .args (.letrec [.user f] (.var (.user f)) env2) [] [] env2 :: kf, cells' ++ [.v .void], temps', clos', conts', world'⟩) rfl rfl ?_
    refine .pre (c1 := ⟨.ret [.v (.clo clos'.length)], .args (.letrec [.user f] (.var (.user f)) env2) [] [] env2 :: kf, cells' ++ [.v .void], temps', clos' ++ [(names xs, expand b, env2)], conts', world'⟩) rfl rfl ?_
    refine .pre (c1 := ⟨.ev (.var (.user f)) env2, kf, cells' ++ [.v (.clo clos'.length)], temps', clos' ++ [(names xs, expand b, env2)], conts', world'⟩) ?_ rfl ?_
    · simp [stepC, argsC, finishC, putAllC, putC, env2, upd]
    refine .pre (c1 := ⟨.ret [.v (.clo clos'.length)], kf, cells' ++ [.v (.clo clos'.length)], temps', clos' ++ [(names xs, expand b, env2)], conts', world'⟩) ?_ rfl ?_
    · simp [stepC, getC, env2, upd]
    refine args_sim (pre := []) (done := [.clo clos.length]) (c0 := ⟨.ret [.v (.clo clos'.length)], k', cells' ++ [.v (.clo clos'.length)], temps', clos' ++ [(names xs, expand b, env2)], conts', world'⟩)
      ?_ (resultC_ret rfl) rfl (.app _) ⟨hk, ?_, forall₂_snoc hclos ⟨rfl, rfl, ?_⟩, hconts, rfl⟩ he
    · rw [hl]; rfl
    · simp [hcells, hl]
    · simp only [env2]
      rw [hl2]
      exact he.user f cells.length
  | letS xs es b =>
    cases xs with
    | nil => exact stut b rfl rfl (by simp <;> omega)
    | cons x xs =>
      cases es with
      | nil => exact stut b rfl rfl (by simp <;> omega)
      | cons e es => exact .inl (.of rfl ⟨.ev he, .letS he hk, hcells, hclos, hconts, rfl⟩)
  | letrec xs es b =>
    left
    unfold Spec.step
    simp only
    rcases bind_sim xs (xs.map (fun _ => .void)) (hb (.ev (.letrec xs es b) env) (.ev (expand (.letrec xs es b)) env')) he with ⟨e2, s2, e2', c2, h1, h2, h3, h4, h5, h6, h7, h8⟩ | ⟨h1, h2⟩
    · rw [h1]
      refine args_sim (pre := []) (done := []) (c0 := c2) (env' := e2') (g' := .letrec (names xs) (expand b) e2') ?_ hr ?_ (.letrec _ h3) h4 h3
      · show Option.bind _ _ = _
        rw [show (List.map (fun _ => CV.v V.void) (names xs)) = List.map CV.v (List.map (fun _ => V.void) xs) by simp [Function.comp_def], h2]
        rfl
      · rw [← h4.world, h6]
    · rw [h1]
      refine .stuck ?_ hr
      show Option.bind _ _ = _
      rw [show (List.map (fun _ => CV.v V.void) (names xs)) = List.map CV.v (List.map (fun _ => V.void) xs) by simp [Function.comp_def], h2]
      rfl
  | letrecS xs es b =>
    left
    unfold Spec.step
    simp only
    refine simple_args (g' := .lett (names xs) (assigns xs (expandL es) (expand b)) env') (env' := env') (xs.map (fun _ => C.const .f)) (xs.map (fun _ => CV.v .f)) (c0 := ⟨.ev (expand (.letrecS xs es b)) env', k', cells', temps', clos', conts', world'⟩) (done := []) ?_ rfl hr rfl ?_
    · rw [List.forall₂_map_left_iff, List.forall₂_map_right_iff]
      exact List.forall₂_same.mpr (fun _ _ _ => rfl)
    · intro c1 ctl h1 h2
      rcases bind_sim xs (xs.map (fun _ => .f)) (hb (.ev (.letrecS xs es b) env) ctl) he with ⟨e2, s2, e2', c2, g1, g2, g3, g4, g5, g6, g7, g8⟩ | ⟨g1, g2⟩
      · rw [g1]
        refine Sim0.sim (c1 := { c2 with ctl := .ev (assigns xs (expandL es) (expand b)) e2' }) ?_ g6 (assign_sim rfl g3 (g4.ctl _) (by rw [← g4.world, g6]))
        rw [h1]
        show Option.map _ _ = _
        rw [show ([] ++ List.map (fun _ => CV.v V.f) xs) = List.map CV.v (List.map (fun _ => V.f) xs) by simp, g2]
        rfl
      · rw [g1]
        refine .stuck ?_ h2
        rw [h1]
        show Option.map _ _ = _
        rw [show ([] ++ List.map (fun _ => CV.v V.f) xs) = List.map CV.v (List.map (fun _ => V.f) xs) by simp, g2]
        rfl
  | values es =>
    left
    let env2 := upd .k (.temp temps'.length) env'
    refine .pre (c1 := ⟨.ev (.throw .k (expandL es)) env2, k', cells', temps' ++ [.tcont k'], clos', conts', world'⟩) rfl rfl ?_
    refine args_sim (pre := []) (done := []) (env' := env2) (g' := .throw k') (c0 := ⟨.ev (.throw .k (expandL es)) env2, k', cells', temps' ++ [.tcont k'], clos', conts', world'⟩) ?_ (resultC_ev rfl) rfl (.values _)
      (((hb (.ev (.values es) env) (.ev (.throw .k (expandL es)) env2)).temps (.tcont k'))) (he.temp temp_k _)
    simp [stepC, getC, env2, upd]
  | receive xs e b => exact .inl (.of rfl ⟨.ev he, .receive he hk, hcells, hclos, hconts, rfl⟩)
  | letvS bs b =>
    cases bs with
    | nil => exact stut b rfl rfl (by simp <;> omega)
    | cons xs e bs =>
      by_cases hx : xs.length = 1
      · obtain ⟨x, rfl⟩ := List.length_eq_one_iff.mp hx
        exact .inl (.of rfl ⟨.ev he, .letvS1 he hk, hcells, hclos, hconts, rfl⟩)
      · left
        refine .of (c' := ⟨.ev (expand e) env', .recv (names xs) (expand (.letvS bs b)) env' :: k', cells', temps', clos', conts', world'⟩) ?_ ⟨.ev he, .letvS he hk, hcells, hclos, hconts, rfl⟩
        rcases xs with _ | ⟨x, _ | ⟨y, l⟩⟩
        · rfl
        · exact absurd rfl hx
        · rfl
  | letv bs b => exact .inl (letVals_sim (ys := []) (us := []) (by simp [expand, lvRest]) rfl (by intro i v hi; simp at hi) he (hb _ _) rfl)
  | when a b => exact .inl (.of rfl ⟨.ev he, .ite (c := .const .void) he hk, hcells, hclos, hconts, rfl⟩)
  | «unless» a b => exact .inl (.of rfl ⟨.ev he, .ite (b := .const .void) he hk, hcells, hclos, hconts, rfl⟩)
  | and es =>
    rcases es with _ | ⟨e, _ | ⟨e2, es⟩⟩
    · exact .inl (.of rfl ⟨.ret [.t], hk, hcells, hclos, hconts, rfl⟩)
    · exact stut e rfl rfl (by simp <;> omega)
    · exact .inl (.of rfl ⟨.ev he, .and he hk, hcells, hclos, hconts, rfl⟩)
  | or es =>
    rcases es with _ | ⟨e, _ | ⟨e2, es⟩⟩
    · exact .inl (.of rfl ⟨.ret [.f], hk, hcells, hclos, hconts, rfl⟩)
    · exact stut e rfl rfl (by simp <;> omega)
    · exact .inl (.of rfl ⟨.ev he, .or he hk, hcells, hclos, hconts, rfl⟩)
  | cond cl =>
    cases cl with
    | nil => exact .inl (.of rfl ⟨.ret [.void], hk, hcells, hclos, hconts, rfl⟩)
    | els e => exact stut e rfl rfl (by simp <;> omega)
    | test e cl => exact .inl (.of rfl ⟨.ev he, .condTest he hk, hcells, hclos, hconts, rfl⟩)
    | arrow e p cl => exact .inl (.of rfl ⟨.ev he, .condArrow he hk, hcells, hclos, hconts, rfl⟩)
    | body e b cl => exact .inl (.of rfl ⟨.ev he, .condBody he hk, hcells, hclos, hconts, rfl⟩)
  | case e cl => exact .inl (.of rfl ⟨.ev he, .caseKey he hk, hcells, hclos, hconts, rfl⟩)
  | doo xs es steps test rs cs =>
    left
    let d : Loop := ⟨xs, steps, test, rs, cs⟩
    let kf := CF.args .app [] (expandL es) env' :: k'
    let env2 := upd .loop (.temp temps'.length) env'
    have hloop : LoopOk (temps' ++ [tcloOf d env2]) d env env2 := ⟨he.temp temp_loop _, temps'.length, by simp [env2, upd], by simp⟩
    have hb2 := (hb (.ev (.doo xs es steps test rs cs) env) (.ret [tcloOf d env2])).temps (tcloOf d env2)
    refine .pre (c1 := ⟨.ev (.letrec [.loop] [.lam true (names xs) (bodyOf d)] (.var .loop)) env', kf, cells', temps', clos', conts', world'⟩) rfl rfl ?_
    refine .pre (c1 := ⟨.ev (.lam true (names xs) (bodyOf d)) env2, .args (.letrec [.loop] (.var .loop) env2) [] [] env2 :: kf, cells', temps' ++ [.v .void], clos', conts', world'⟩) rfl rfl ?_
    refine .pre (c1 := ⟨.ret [tcloOf d env2], .args (.letrec [.loop] (.var .loop) env2) [] [] env2 :: kf, cells', temps' ++ [.v .void], clos', conts', world'⟩) rfl rfl ?_
    refine .pre (c1 := ⟨.ev (.var .loop) env2, kf, cells', temps' ++ [tcloOf d env2], clos', conts', world'⟩) ?_ rfl ?_
    · simp [stepC, argsC, finishC, putAllC, putC, env2, upd]
    refine .pre (c1 := ⟨.ret [tcloOf d env2], kf, cells', temps' ++ [tcloOf d env2], clos', conts', world'⟩) ?_ rfl ?_
    · simp [stepC, getC, env2, upd]
    exact args_sim (pre := [tcloOf d env2]) (done := []) (c0 := ⟨.ret [tcloOf d env2], k', cells', temps' ++ [tcloOf d env2], clos', conts', world'⟩)
      rfl (resultC_ret rfl) rfl (.loop _ hloop) hb2 he

/-- values for a continuation. -/
theorem ret_sim {s : Spec.S W} {c : CS W} {vs : List V} {f : F} {K : List F} (hs : s.ctl = .ret vs) (hsk : s.k = f :: K) (hc : c.ctl = .ret (vs.map .v)) (hb : Base s c) :
    Sim pr s.world (Spec.step pr s) c := by
  obtain ⟨ctl, k, cells, clos, conts, world⟩ := s
  obtain ⟨ctl', k', cells', temps', clos', conts', world'⟩ := c
  simp only at hs hc hsk
  subst hs hc hsk
  obtain ⟨hk, hcells, hclos, hconts, hworld⟩ := hb
  simp only at hk hcells hclos hconts hworld
  subst hworld
  have hb : ∀ {ctl K K' T}, KR T K K' → List.Forall₂ (KR T) conts conts' → Base (⟨ctl, K, cells, clos, conts, world'⟩ : Spec.S W) ⟨.ret (vs.map .v), K', cells', T, clos', conts', world'⟩ :=
    fun h h2 => ⟨h, hcells, hclos, h2, rfl⟩
  cases hk with
  | receive e h => exact bind_ev rfl (resultC_ret rfl) (hb h hconts) e
  | letvS e h => exact bind_ev rfl (resultC_ret rfl) (hb h hconts) e
  | @letvS1 x bs b env env' _ K' e h =>
    rcases vs with _ | ⟨v, _ | ⟨u, vs⟩⟩
    · exact .stuck rfl (resultC_ret rfl)
    · exact bind_ev (s0 := ⟨.ret [v], K, cells, clos, conts, world'⟩) (c0 := ⟨.ret [.v v], K', cells', temps', clos', conts', world'⟩) (xs := [x]) (vs := [v]) (e := .letvS bs b) rfl (resultC_ret rfl) (hb h hconts) e
    · exact .stuck rfl (resultC_ret rfl)
  | @letv ys us xs bs b env env' _ K' e e2 e3 h =>
    obtain ⟨h1, h2⟩ := bindVals xs.length us.length vs env' (⟨.ret (vs.map .v), K', cells', temps', clos', conts', world'⟩ : CS W)
    unfold Spec.step
    simp only
    by_cases hl : xs.length = vs.length
    · rw [if_pos hl]
      obtain ⟨env2, g1, g2, g3⟩ := h1 hl
      refine .pre (c1 := ⟨.ev (lvRest (us.length + xs.length) (ys ++ xs ++ bs.formals.flatten) bs b) env2, K', cells', temps' ++ vs.map .v, clos', conts', world'⟩) ?_ rfl ?_
      · show Option.map _ _ = _
        rw [g1]
        rfl
      refine letVals_sim (env' := env2) ?_ (by simp [e2, hl]) ?_ ?_ (((hb h hconts).many (vs.map .v)).ctl _) rfl
      · simp [hl]
      · intro i v hi
        by_cases hlt : i < us.length
        · rw [List.getElem?_append_left hlt] at hi
          obtain ⟨l, a1, a2⟩ := e3 i v hi
          exact ⟨l, by rw [g3 _ (by intro j hj he; injection he; omega)]; exact a1, pre_get ⟨_, rfl⟩ a2⟩
        · rw [List.getElem?_append_right (by omega)] at hi
          have hi2 := (List.getElem?_eq_some_iff.mp hi).1
          refine ⟨temps'.length + (i - us.length), ?_, ?_⟩
          · have := g2 (i - us.length) (by omega)
            rwa [show us.length + (i - us.length) = i by omega] at this
          · simp only
            rw [List.getElem?_append_right (by omega), List.getElem?_map, show temps'.length + (i - us.length) - temps'.length = i - us.length by omega, hi]
            rfl
      · intro y
        rw [g3 _ (by intro j hj; simp)]
        exact e y
    · rw [if_neg hl]
      refine .stuck ?_ (resultC_ret rfl)
      show Option.map _ _ = _
      rw [h2 hl]
      rfl
  | @letv1 ys us x bs b env env' _ K' e e2 e3 h =>
    rcases vs with _ | ⟨v, _ | ⟨u, vs⟩⟩
    · exact .stuck rfl (resultC_ret rfl)
    · obtain ⟨c1, env1, g1, g2, g3, g4, g5, g6, g7⟩ := temp_bind (pr := pr) (w := world') (x := .val us.length) (c := (⟨.ret [.v v], .args (.lett [.val us.length] (lvRest (us.length + 1) (ys ++ [x] ++ bs.formals.flatten) bs b) env') [] [] env' :: K', cells', temps', clos', conts', world'⟩ : CS W)) (s0 := ⟨.ret [v], K, cells, clos, conts, world'⟩) temp_user rfl rfl (hb h hconts) e rfl
      refine .pre g1 g2 ?_
      refine letVals_sim (by simpa using g3) (by simp [e2]) ?_ g5 g6 rfl
      intro i u hi
      by_cases hlt : i < us.length
      · rw [List.getElem?_append_left hlt] at hi
        exact g7 _ _ (by intro he; injection he; omega) (e3 i u hi)
      · rw [List.getElem?_append_right (by omega)] at hi
        have hi2 := (List.getElem?_eq_some_iff.mp hi).1
        simp only [List.length_singleton] at hi2
        obtain rfl : i = us.length := by omega
        simp only [Nat.sub_self, List.getElem?_cons_zero, Option.some.injEq] at hi
        subst hi
        exact g4
    · exact .stuck rfl (resultC_ret rfl)
  | args hg e h =>
    rcases vs with _ | ⟨v, _ | ⟨u, vs⟩⟩
    · exact .stuck rfl (resultC_ret rfl)
    · rename_i g g' pre done todo env env' K'
      refine args_sim (pre := pre) (done := done ++ [v]) (c0 := ⟨.ret [.v v], K', cells', temps', clos', conts', world'⟩) ?_ (resultC_ret rfl) rfl hg (hb h hconts) e
      simp [stepC]
    · exact .stuck rfl (resultC_ret rfl)
  | @set x env env' _ K' e h =>
    rcases vs with _ | ⟨v, _ | ⟨u, vs⟩⟩
    · exact .stuck rfl (resultC_ret rfl)
    · unfold Spec.step
      simp only
      rcases put_sim (hb (ctl := .ret [v]) h hconts) e x v with ⟨s2, c2, h1, h2, h3, _⟩ | ⟨h1, h2⟩
      · rw [h1]
        refine .ret (vs := [.void]) (c0 := c2) ?_ h3
        show Option.map _ _ = _
        rw [show putC env' (.user x) (.v v) _ = _ from h2]
        rfl
      · rw [h1]
        refine .stuck ?_ (resultC_ret rfl)
        show Option.map _ _ = _
        rw [show putC env' (.user x) (.v v) _ = _ from h2]
        rfl
    · exact .stuck rfl (resultC_ret rfl)
  | @ite b c env env' _ K' e h =>
    rcases vs with _ | ⟨v, _ | ⟨u, vs⟩⟩
    · exact .stuck rfl (resultC_ret rfl)
    · refine .ev (c0 := ⟨.ret [.v v], K', cells', temps', clos', conts', world'⟩) (env' := env') ?_ (hb (ctl := .ret [v]) h hconts) e
      by_cases hv : v = .f <;> simp [stepC, truthy, hv]
    · exact .stuck rfl (resultC_ret rfl)
  | seq e h =>
    rcases vs with _ | ⟨v, _ | ⟨u, vs⟩⟩
    · exact .stuck rfl (resultC_ret rfl)
    · exact .of rfl ⟨.ev e, h, hcells, hclos, hconts, rfl⟩
    · exact .stuck rfl (resultC_ret rfl)
  | @callcc _ K' h =>
    rcases vs with _ | ⟨v, _ | ⟨u, vs⟩⟩
    · exact .stuck rfl (resultC_ret rfl)
    · refine call_sim (c0 := ⟨.ret [.v v], K', cells', temps', clos', conts' ++ [K'], world'⟩) ?_ (resultC_ret rfl) ⟨h, hcells, hclos, forall₂_snoc hconts h, rfl⟩
      rw [forall₂_length hconts]
      rfl
    · exact .stuck rfl (resultC_ret rfl)
  | @letS x xs es b env env' _ K' e h =>
    rcases vs with _ | ⟨v, _ | ⟨u, vs⟩⟩
    · exact .stuck rfl (resultC_ret rfl)
    · exact bind_ev (s0 := ⟨.ret [v], K, cells, clos, conts, world'⟩) (c0 := ⟨.ret [.v v], K', cells', temps', clos', conts', world'⟩) (xs := [x]) (vs := [v]) (e := .letS xs es b) rfl (resultC_ret rfl) (hb h hconts) e
    · exact .stuck rfl (resultC_ret rfl)
  | @letrecS x xs es b env env' _ K' e h =>
    rcases vs with _ | ⟨v, _ | ⟨u, vs⟩⟩
    · exact .stuck rfl (resultC_ret rfl)
    · unfold Spec.step
      simp only
      have hb' : Base (⟨.ret [v], K, cells, clos, conts, world'⟩ : Spec.S W) ⟨.ret [.v v], K', cells', temps', clos', conts', world'⟩ := hb h hconts
      have hput : ∀ o, putC env' (.user x) (.v v) (⟨.ret [.v v], K', cells', temps', clos', conts', world'⟩ : CS W) = o →
          putC env' (.user x) (.v v) (⟨.ret [.v v], .seq (assigns xs (expandL es) (expand b)) env' :: K', cells', temps', clos', conts', world'⟩ : CS W) =
            o.map (fun c => { c with k := .seq (assigns xs (expandL es) (expand b)) env' :: K' }) := by
        intro o ho
        subst ho
        unfold putC
        cases env' (.user x) with
        | none => rfl
        | some l => cases l with
          | user l => simp only; split <;> rfl
          | temp l => simp only; split <;> rfl
      rcases put_sim hb' e x v with ⟨s2, c2, h1, h2, h3, h4, h5, h6⟩ | ⟨h1, h2⟩
      · rw [h1]
        have hw2 : world' = s2.world := by rw [← h3.world, h5]
        refine .pre (c1 := { c2 with ctl := .ret [.v .void], k := .seq (assigns xs (expandL es) (expand b)) env' :: K' }) ?_ h5 ?_
        · exact (congrArg (Option.map (fun s => { s with ctl := .ret [.v .void] })) (hput _ h2)).trans rfl
        refine Sim0.sim (c1 := { c2 with ctl := .ev (assigns xs (expandL es) (expand b)) env' }) ?_ h5 (assign_sim rfl e (h3.ctl _) hw2)
        simp only [stepC, h6]
      · rw [h1]
        refine .stuck ?_ (resultC_ret rfl)
        exact (congrArg (Option.map (fun s => { s with ctl := .ret [.v .void] })) (hput _ h2)).trans rfl
    · exact .stuck rfl (resultC_ret rfl)
  | @and es env env' _ K' e h =>
    rcases vs with _ | ⟨v, _ | ⟨u, vs⟩⟩
    · exact .stuck rfl (resultC_ret rfl)
    · by_cases hv : v = .f
      · subst hv
        refine .pre (c1 := ⟨.ev (.const .f) env', K', cells', temps', clos', conts', world'⟩) (by simp [stepC, truthy]) rfl ?_
        exact .of rfl ⟨.ret [.f], h, hcells, hclos, hconts, rfl⟩
      · unfold Spec.step
        simp only [ne_eq, hv, not_false_eq_true, if_true]
        exact .of (c' := ⟨.ev (expand (.and es)) env', K', cells', temps', clos', conts', world'⟩) (by simp [stepC, truthy, hv, expand]) ⟨.ev e, h, hcells, hclos, hconts, rfl⟩
    · exact .stuck rfl (resultC_ret rfl)
  | @or es env env' _ K' e h =>
    rcases vs with _ | ⟨v, _ | ⟨u, vs⟩⟩
    · exact .stuck rfl (resultC_ret rfl)
    · obtain ⟨c1, env1, g1, g2, g3, g4, g5, g6, g7⟩ := temp_bind (pr := pr) (w := world') (x := .x) (c := (⟨.ret [.v v], .args (.lett [.x] (.ite (.var .x) (.var .x) (orC (expandL es))) env') [] [] env' :: K', cells', temps', clos', conts', world'⟩ : CS W)) (s0 := ⟨.ret [v], K, cells, clos, conts, world'⟩) temp_x rfl rfl (hb h hconts) e rfl
      exact .pre g1 g2 (or_sim (e := .or es) g3 g4 g5 g6 rfl rfl)
    · exact .stuck rfl (resultC_ret rfl)
  | @condTest cl env env' _ K' e h =>
    rcases vs with _ | ⟨v, _ | ⟨u, vs⟩⟩
    · exact .stuck rfl (resultC_ret rfl)
    · obtain ⟨c1, env1, g1, g2, g3, g4, g5, g6, g7⟩ := temp_bind (pr := pr) (w := world') (x := .x) (c := (⟨.ret [.v v], .args (.lett [.x] (.ite (.var .x) (.var .x) (expandCond cl)) env') [] [] env' :: K', cells', temps', clos', conts', world'⟩ : CS W)) (s0 := ⟨.ret [v], K, cells, clos, conts, world'⟩) temp_x rfl rfl (hb h hconts) e rfl
      exact .pre g1 g2 (or_sim (e := .cond cl) g3 g4 g5 g6 rfl rfl)
    · exact .stuck rfl (resultC_ret rfl)
  | @condArrow p cl env env' _ K' e h =>
    rcases vs with _ | ⟨v, _ | ⟨u, vs⟩⟩
    · exact .stuck rfl (resultC_ret rfl)
    · obtain ⟨c1, env1, g1, g2, g3, g4, g5, g6, g7⟩ := temp_bind (pr := pr) (w := world') (x := .tmp) (c := (⟨.ret [.v v], .args (.lett [.tmp] (.ite (.var .tmp) (.app [expand p, .var .tmp]) (expandCond cl)) env') [] [] env' :: K', cells', temps', clos', conts', world'⟩ : CS W)) (s0 := ⟨.ret [v], K, cells, clos, conts, world'⟩) temp_tmp rfl rfl (hb h hconts) e rfl
      exact .pre g1 g2 (arrow_sim (e := .cond cl) g3 g4 g5 g6 rfl rfl)
    · exact .stuck rfl (resultC_ret rfl)
  | @condBody b cl env env' _ K' e h =>
    rcases vs with _ | ⟨v, _ | ⟨u, vs⟩⟩
    · exact .stuck rfl (resultC_ret rfl)
    · refine .ev (c0 := ⟨.ret [.v v], K', cells', temps', clos', conts', world'⟩) (env' := env') ?_ (hb (ctl := .ret [v]) h hconts) e
      by_cases hv : v = .f <;> simp [stepC, truthy, hv, expand]
    · exact .stuck rfl (resultC_ret rfl)
  | @caseKey cl env env' _ K' e h =>
    rcases vs with _ | ⟨v, _ | ⟨u, vs⟩⟩
    · exact .stuck rfl (resultC_ret rfl)
    · obtain ⟨c1, env1, g1, g2, g3, g4, g5, g6, g7⟩ := temp_bind (pr := pr) (w := world') (x := .key) (c := (⟨.ret [.v v], .args (.lett [.key] (expandCase cl) env') [] [] env' :: K', cells', temps', clos', conts', world'⟩ : CS W)) (s0 := ⟨.ret [v], K, cells, clos, conts, world'⟩) temp_key rfl rfl (hb h hconts) e rfl
      have := Sim0.sim g1 g2 (case_sim cl g3 g4 g5 g6 rfl)
      unfold Spec.step
      simp only
      unfold pickSt at this
      cases hp : Spec.pick pr.eqv v cl with
      | exp e => rw [hp] at this; exact this
      | proc e => rw [hp] at this; exact this
    · exact .stuck rfl (resultC_ret rfl)
  | @callWith u x env' _ K' e h =>
    rcases vs with _ | ⟨v, _ | ⟨u', vs⟩⟩
    · exact .stuck rfl (resultC_ret rfl)
    · refine .pre (c1 := ⟨.ev (.var x) env', .args .app [.v v] [] env' :: K', cells', temps', clos', conts', world'⟩) rfl rfl ?_
      refine .pre (step_var rfl e) rfl ?_
      exact call_sim (vs := [u]) (c0 := ⟨.ret [.v u], K', cells', temps', clos', conts', world'⟩) rfl (resultC_ret rfl) ⟨h, hcells, hclos, hconts, rfl⟩
    · exact .stuck rfl (resultC_ret rfl)
  | @begin es env env' _ K' e h =>
    rcases vs with _ | ⟨v, _ | ⟨u, vs⟩⟩
    · exact .stuck rfl (resultC_ret rfl)
    · exact Sim0.sim (c1 := ⟨.ev (beginC (expandL es)) env', K', cells', temps', clos', conts', world'⟩) rfl rfl (begins_sim rfl e ⟨h, hcells, hclos, hconts, rfl⟩ rfl)
    · exact .stuck rfl (resultC_ret rfl)
  | @doTest d env L env2 env2' _ K' e e2 e3 h =>
    rcases vs with _ | ⟨v, _ | ⟨u, vs⟩⟩
    · exact .stuck rfl (resultC_ret rfl)
    · unfold Spec.step
      simp only
      by_cases hv : v = .f
      · subst hv
        refine .pre (c1 := ⟨.ev (tailOf d d.cs) env2', K', cells', temps', clos', conts', world'⟩) (by simp [stepC, truthy]) rfl ?_
        exact cmds_sim rfl rfl ⟨h, hcells, hclos, hconts, rfl⟩ e e2 e3
      · simp only [ne_eq, hv, not_false_eq_true, if_true]
        refine .pre (c1 := ⟨.ev (beginC (voidC :: expandL d.rs)) env2', K', cells', temps', clos', conts', world'⟩) (by simp [stepC, truthy, hv]) rfl ?_
        cases hd : d.rs with
        | nil => exact .of rfl ⟨.ret [.void], h, hcells, hclos, hconts, rfl⟩
        | cons r rs =>
          refine .pre (c1 := ⟨.ev voidC env2', .seq (beginC (expandL (r :: rs))) env2' :: K', cells', temps', clos', conts', world'⟩) rfl rfl ?_
          refine .pre (c1 := ⟨.ret [.v .void], .seq (beginC (expandL (r :: rs))) env2' :: K', cells', temps', clos', conts', world'⟩) rfl rfl ?_
          exact Sim0.sim (c1 := ⟨.ev (beginC (expandL (r :: rs))) env2', K', cells', temps', clos', conts', world'⟩) rfl rfl (begins_sim rfl e2 ⟨h, hcells, hclos, hconts, rfl⟩ rfl)
    · exact .stuck rfl (resultC_ret rfl)
  | @doCmd cs d env L env2 env2' _ K' e e2 e3 h =>
    rcases vs with _ | ⟨v, _ | ⟨u, vs⟩⟩
    · exact .stuck rfl (resultC_ret rfl)
    · refine .pre (c1 := ⟨.ev (tailOf d cs) env2', K', cells', temps', clos', conts', world'⟩) rfl rfl ?_
      exact cmds_sim rfl rfl ⟨h, hcells, hclos, hconts, rfl⟩ e e2 e3
    · exact .stuck rfl (resultC_ret rfl)

/-- one step. -/
theorem sim {s : Spec.S W} {c : CS W} (h : R s c) : (Go pr s c ∧ Spec.result s = none) ∨
    ∃ vs, s.ctl = .ret vs ∧ s.k = [] ∧ Spec.step pr s = none ∧ stepC pr c = none ∧ resultC c = (Spec.result s).map (fun r => (r.1.map .v, r.2)) := by
  obtain ⟨ctl, hb⟩ := h
  cases hs : s.ctl with
  | ev e env =>
    rw [hs] at ctl
    generalize hc : c.ctl = x at ctl
    cases ctl with
    | ev he => exact .inl ⟨ev_sim hs hc he hb, by unfold Spec.result; rw [hs]⟩
  | ret vs =>
    rw [hs] at ctl
    generalize hc : c.ctl = x at ctl
    cases ctl
    cases hk : s.k with
    | nil =>
      have hk' := hb.k
      rw [hk] at hk'
      generalize hck : c.k = y at hk'
      cases hk'
      refine .inr ⟨vs, rfl, rfl, by unfold Spec.step; rw [hs, hk], by unfold stepC; rw [hc, hck], ?_⟩
      unfold resultC Spec.result
      rw [hc, hck, hs, hk, hb.world]
      rfl
    | cons f K => exact .inl ⟨.inl (ret_sim hs hk hc hb), by unfold Spec.result; rw [hs, hk]⟩

end Verif.Derived

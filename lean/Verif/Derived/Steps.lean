import Verif.Derived.Sim
/-
Simulation for C68: the forms.
-/
namespace Verif.Derived
open Spec (G F Loop)
variable {W : Type} {pr : Prims W} {w : W}

/-- the parts of a state but for its control. -/
theorem Base.ctl {s : Spec.S W} {c : CS W} (h : Base s c) (x : CCtl) : Base s { c with ctl := x } := ⟨h.k, h.cells, h.clos, h.conts, h.world⟩

/-- operands that are evaluated in one step. -/
theorem simple_args {o : Option (Spec.S W)} {g' : CG} {env' : Env} (es : List C) : ∀ (vs : List CV) {c c0 : CS W} {done : List CV},
    List.Forall₂ (fun e v => ∀ k, stepC pr { c0 with ctl := .ev e env', k := k } = some { c0 with ctl := .ret [v], k := k }) es vs →
    stepC pr c = argsC pr g' done es env' c0 → resultC c = none → c0.world = w →
    (∀ c1 ctl, stepC pr c1 = finishC pr g' (done ++ vs) { c0 with ctl := ctl } → resultC c1 = none → Sim pr w o c1) → Sim pr w o c := by
  induction es with
  | nil =>
    intro vs c c0 done hs h hr hw hk
    cases hs
    exact hk c c0.ctl (by rw [List.append_nil]; exact h) hr
  | cons e es ih =>
    intro vs c c0 done hs h hr hw hk
    cases hs with
    | cons h1 h2 =>
      rename_i v vs
      refine .pre (c1 := { c0 with ctl := .ev e env', k := .args g' done es env' :: c0.k }) h hw ?_
      refine .pre (h1 _) hw ?_
      refine ih vs (c0 := { c0 with ctl := .ret [v] }) (done := done ++ [v]) h2 rfl (resultC_ret rfl) hw ?_
      intro c1 ctl h3 h4
      exact hk c1 ctl (by rw [h3, List.append_assoc]; rfl) h4

/-- the value of an inserted variable. -/
theorem step_var {c : CS W} {x : Name} {v : V} {env' : Env} (h : c.ctl = .ev (.var x) env') (hx : Has c.temps env' x v) : stepC pr c = some { c with ctl := .ret [.v v] } := by
  unfold stepC
  rw [h]
  simp only
  rw [getT hx]
  rfl

/-- `(if x x rest)`. -/
theorem or_sim {s0 : Spec.S W} {c : CS W} {v : V} {x : Name} {e : E} {rest : C} {env : Spec.Env} {env' : Env} (h : c.ctl = .ev (.ite (.var x) (.var x) rest) env') (hx : Has c.temps env' x v)
    (he : Ext env env') (hb : Base s0 c) (hw : w = s0.world) (hr : rest = expand e) :
    Sim pr w (some (if v ≠ .f then { s0 with ctl := .ret [v] } else { s0 with ctl := .ev e env })) c := by
  have hcw : c.world = w := by rw [hw]; exact hb.world
  refine .pre (c1 := { c with ctl := .ev (.var x) env', k := .ite (.var x) rest env' :: c.k }) (by unfold stepC; rw [h]) hcw ?_
  refine .pre (step_var (c := { c with ctl := .ev (.var x) env', k := .ite (.var x) rest env' :: c.k }) rfl hx) hcw ?_
  by_cases hv : v ≠ .f
  · rw [if_pos hv]
    refine .pre (c1 := { c with ctl := .ev (.var x) env' }) (by simp [stepC, truthy, hv]) hcw ?_
    exact .of (step_var (c := { c with ctl := .ev (.var x) env' }) rfl hx) ⟨.ret [v], hb.k, hb.cells, hb.clos, hb.conts, hb.world⟩
  · rw [if_neg hv]
    subst hr
    exact .of (c' := { c with ctl := .ev (expand e) env' }) (by simp [stepC, truthy, hv]) ⟨.ev he, hb.k, hb.cells, hb.clos, hb.conts, hb.world⟩

/-- `(if x (p x) rest)`. -/
theorem arrow_sim {s0 : Spec.S W} {c : CS W} {v : V} {x : Name} {p e : E} {rest : C} {env : Spec.Env} {env' : Env} (h : c.ctl = .ev (.ite (.var x) (.app [expand p, .var x]) rest) env') (hx : Has c.temps env' x v)
    (he : Ext env env') (hb : Base s0 c) (hw : w = s0.world) (hr : rest = expand e) :
    Sim pr w (some (if v ≠ .f then { s0 with ctl := .ev p env, k := .callWith v :: s0.k } else { s0 with ctl := .ev e env })) c := by
  have hcw : c.world = w := by rw [hw]; exact hb.world
  refine .pre (c1 := { c with ctl := .ev (.var x) env', k := .ite (.app [expand p, .var x]) rest env' :: c.k }) (by unfold stepC; rw [h]) hcw ?_
  refine .pre (step_var (c := { c with ctl := .ev (.var x) env', k := .ite (.app [expand p, .var x]) rest env' :: c.k }) rfl hx) hcw ?_
  by_cases hv : v ≠ .f
  · rw [if_pos hv]
    refine .pre (c1 := { c with ctl := .ev (.app [expand p, .var x]) env' }) (by simp [stepC, truthy, hv]) hcw ?_
    exact .of (c' := { c with ctl := .ev (expand p) env', k := .args .app [] [.var x] env' :: c.k }) rfl ⟨.ev he, .callWith hx hb.k, hb.cells, hb.clos, hb.conts, hb.world⟩
  · rw [if_neg hv]
    subst hr
    exact .of (c' := { c with ctl := .ev (expand e) env' }) (by simp [stepC, truthy, hv]) ⟨.ev he, hb.k, hb.cells, hb.clos, hb.conts, hb.world⟩

/-- as `Sim`, without a first step. -/
def Sim0 (pr : Prims W) (w : W) (s' : Spec.S W) (c : CS W) : Prop := ∃ e, Tr pr (fun u => u = w ∨ u = s'.world) c e ∧ R s' e

theorem Sim0.pre {s' : Spec.S W} {c c1 : CS W} (h : stepC pr c = some c1) (hw : c1.world = w) : Sim0 pr w s' c1 → Sim0 pr w s' c := by
  rintro ⟨e, h1, h2⟩
  exact ⟨e, .step h (.inl hw) h1, h2⟩

theorem Sim0.sim {s' : Spec.S W} {c c1 : CS W} (h : stepC pr c = some c1) (hw : c1.world = w) : Sim0 pr w s' c1 → Sim pr w (some s') c := by
  rintro ⟨e, h1, h2⟩
  exact ⟨c1, e, h, .inl hw, h1, h2⟩

/-- a value is bound to an inserted variable. -/
theorem temp_bind {s0 : Spec.S W} {c : CS W} {v : V} {x : Name} {b : C} {env : Spec.Env} {env' : Env} {K' : List CF} (hx : Temp x)
    (hc : c.ctl = .ret [.v v]) (hk : c.k = .args (.lett [x] b env') [] [] env' :: K') (hb : Base s0 { c with k := K' }) (he : Ext env env') (hw : w = s0.world) :
    ∃ (c1 : CS W) (env1 : Env), stepC pr c = some c1 ∧ c1.world = w ∧ c1.ctl = .ev b env1 ∧ Has c1.temps env1 x v ∧ Ext env env1 ∧ Base s0 c1 ∧
      (∀ y u, y ≠ x → Has c.temps env' y u → Has c1.temps env1 y u) := by
  refine ⟨{ c with ctl := .ev b (upd x (.temp c.temps.length) env'), k := K', temps := c.temps ++ [.v v] }, upd x (.temp c.temps.length) env', ?_, by rw [hw]; exact hb.world, rfl,
    ⟨c.temps.length, by simp [upd], by simp⟩, he.temp hx _, (hb.temps (.v v)).ctl _, ?_⟩
  · unfold stepC
    rw [hc, hk]
    simp only [argsC, finishC, List.nil_append]
    rw [bindT x hx]
    rfl
  · rintro y u hy ⟨l, h1, h2⟩
    exact ⟨l, by unfold upd; rw [if_neg hy]; exact h1, by rw [List.getElem?_append_left (List.getElem?_eq_some_iff.mp h2).1]; exact h2⟩

/-- `compare` of `case`. -/
theorem compare_sim {s' : Spec.S W} {v : V} {b c' : C} {env' : Env} (ds : List V) : ∀ {c : CS W} {k}, c.ctl = .ev (compare ds) env' → c.k = .ite b c' env' :: k → Has c.temps env' .key v →
    c.world = w → Sim0 pr w s' { c with ctl := .ev (if ds.any (pr.eqv v) then b else c') env', k := k } → Sim0 pr w s' c := by
  induction ds with
  | nil =>
    intro c k h hk hx hw hs
    refine .pre (c1 := { c with ctl := .ret [.v .f] }) (by unfold stepC; rw [h]; rfl) hw ?_
    refine .pre (c1 := { c with ctl := .ev c' env', k := k }) (by simp [stepC, hk, truthy]) hw ?_
    simpa using hs
  | cons d ds ih =>
    intro c k h hk hx hw hs
    let k1 := CF.ite (.const .t) (compare ds) env' :: c.k
    refine .pre (c1 := { c with ctl := .ev (.eqv (.var .key) d) env', k := k1 }) (by unfold stepC; rw [h]; rfl) hw ?_
    refine .pre (c1 := { c with ctl := .ev (.var .key) env', k := .eqv d :: k1 }) rfl hw ?_
    refine .pre (step_var (c := { c with ctl := .ev (.var .key) env', k := .eqv d :: k1 }) rfl hx) hw ?_
    refine .pre (c1 := { c with ctl := .ret [.v (if pr.eqv v d then .t else .f)], k := k1 }) rfl hw ?_
    by_cases hd : pr.eqv v d = true
    · rw [if_pos hd]
      refine .pre (c1 := { c with ctl := .ev (.const .t) env' }) (by simp [stepC, k1, truthy]) hw ?_
      refine .pre (c1 := { c with ctl := .ret [.v .t] }) rfl hw ?_
      refine .pre (c1 := { c with ctl := .ev b env', k := k }) (by simp [stepC, hk, truthy]) hw ?_
      simpa [hd] using hs
    · rw [if_neg hd]
      refine .pre (c1 := { c with ctl := .ev (compare ds) env' }) (by simp [stepC, k1, truthy]) hw ?_
      refine ih (c := { c with ctl := .ev (compare ds) env' }) rfl hk hx hw ?_
      simpa [hd] using hs

def pickSt (s0 : Spec.S W) (env : Spec.Env) (v : V) : Spec.Pick → Spec.S W
  | .exp e => { s0 with ctl := .ev e env }
  | .proc p => { s0 with ctl := .ev p env, k := .callWith v :: s0.k }

theorem proc_sim {s0 : Spec.S W} {v : V} {env : Spec.Env} {env' : Env} {p : E} {x : Name} {c : CS W} (h : c.ctl = .ev (.app [expand p, .var x]) env') (hx : Has c.temps env' x v)
    (he : Ext env env') (hb : Base s0 c) (hw : w = s0.world) : Sim0 pr w { s0 with ctl := .ev p env, k := .callWith v :: s0.k } c := by
  refine .pre (c1 := { c with ctl := .ev (expand p) env', k := .args .app [] [.var x] env' :: c.k }) ?_ (by rw [hw]; exact hb.world)
    ⟨_, .refl _, .ev he, .callWith hx hb.k, hb.cells, hb.clos, hb.conts, hb.world⟩
  unfold stepC; rw [h]; rfl

/-- the clauses of `case`. -/
theorem case_sim {s0 : Spec.S W} {v : V} {env : Spec.Env} {env' : Env} (cl : Case) {c : CS W} (h : c.ctl = .ev (expandCase cl) env') (hx : Has c.temps env' .key v)
    (he : Ext env env') (hb : Base s0 c) (hw : w = s0.world) : Sim0 pr w (pickSt s0 env v (Spec.pick pr.eqv v cl)) c := by
  have hcw : c.world = w := by rw [hw]; exact hb.world
  cases cl with
  | nil => exact ⟨c, .refl _, by rw [h]; exact .ev (e := .const .void) he, hb.k, hb.cells, hb.clos, hb.conts, hb.world⟩
  | els e => exact ⟨c, .refl _, by rw [h]; exact .ev (e := e) he, hb.k, hb.cells, hb.clos, hb.conts, hb.world⟩
  | elsArrow p => exact proc_sim h hx he hb hw
  | data ds b cl =>
    refine .pre (c1 := { c with ctl := .ev (compare ds) env', k := .ite (expand b) (expandCase cl) env' :: c.k }) (by unfold stepC; rw [h]; rfl) hcw ?_
    refine compare_sim (v := v) (b := expand b) (c' := expandCase cl) (env' := env') (k := c.k) ds rfl rfl hx hcw ?_
    unfold Spec.pick
    by_cases hd : ds.any (pr.eqv v) = true
    · simp only [hd, if_true]
      exact ⟨_, .refl _, .ev (e := b) he, hb.k, hb.cells, hb.clos, hb.conts, hb.world⟩
    · simp only [hd]
      exact case_sim cl rfl hx he (hb.ctl _) hw
  | arrow ds p cl =>
    refine .pre (c1 := { c with ctl := .ev (compare ds) env', k := .ite (.app [expand p, .var .key]) (expandCase cl) env' :: c.k }) (by unfold stepC; rw [h]; rfl) hcw ?_
    refine compare_sim (v := v) (b := .app [expand p, .var .key]) (c' := expandCase cl) (env' := env') (k := c.k) ds rfl rfl hx hcw ?_
    unfold Spec.pick
    by_cases hd : ds.any (pr.eqv v) = true
    · simp only [hd, if_true]
      exact proc_sim rfl hx he (hb.ctl _) hw
    · simp only [hd]
      exact case_sim cl rfl hx he (hb.ctl _) hw
termination_by sizeOf cl

end Verif.Derived

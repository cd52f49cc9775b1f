import Verif.Parse.Spec
import Verif.Expand.DirectProps
/-
C61: the outputs of the expander are forms of the core language.
-/
namespace Verif.Expand.Direct
open Verif.Macros Verif.Expand

/-- what the expander builds. -/
inductive Built (h : Host) : Out → Prop where
  | var {v} : Built h (.var v)
  | lam {fs r b} : Built h b → Built h (.lam fs r b)
  | letcc {v b} : Built h b → Built h (.letcc v b)
  | set {v e} : Built h e → Built h (.set v e)
  | iff {os} : os.length = 2 ∨ os.length = 3 → (∀ o ∈ os, Built h o) → Built h (.form "if" os)
  | withcc {os} : os.length = 2 → (∀ o ∈ os, Built h o) → Built h (.form "withcc" os)
  | quote {o} : Built h o → Built h (.form "%quote" [o])
  | begin {os} : (∀ o ∈ os, Built h o) → Built h (.form "begin" os)
  | raw {kw t} : Built h (.raw kw t)
  | prim {kw sf os} : kw ∈ primNames → okSf h sf = true → (∀ o ∈ os, Built h o) → Built h (.prim kw sf os)
  | letrec {vs os b} : vs.length = os.length → (∀ o ∈ os, Built h o) → Built h b → Built h (.letrec vs os b)
  | app {f os} : Built h f → (∀ o ∈ os, Built h o) → Built h (.app f os)

variable {h : Host} {q : Bool}

theorem Built.makeBegin {os} (H : ∀ o ∈ os, Built h o) : Built h (makeBegin os) := by
  unfold Expand.makeBegin
  split
  · exact H _ (by simp)
  · exact .begin H

/-- the values of a store. -/
def ValB (h : Host) : Val → Prop
  | .code o => Built h o
  | _ => True

@[inherit_doc ValB] def StoreB (h : Host) (st : Store) : Prop := ∀ p ∈ st, ValB h p.2

theorem StoreB.cons {st l v} (hv : ValB h v) (H : StoreB h st) : StoreB h ((l, v) :: st) := by
  intro p hp
  rcases List.mem_cons.mp hp with rfl | hp
  · exact hv
  · exact H p hp

theorem StoreB.lookup {st l v} (H : StoreB h st) (e : lookupLocation l st = some v) : ValB h v := by
  unfold lookupLocation at e
  split at e
  · rename_i e1; cases e; exact H _ (assv_mem' e1)
  · split at e
    · cases e; trivial
    · cases e

theorem storeVals_b {ienv} : ∀ {bs vs st}, (∀ v ∈ vs, ValB h v) → StoreB h st → StoreB h (storeVals ienv bs vs st)
  | [], _, _, _, H => by unfold storeVals; exact H
  | _ :: _, [], _, _, H => by unfold storeVals; split <;> first | exact H | (rename_i h; cases h)
  | (s, e) :: bs, v :: vs, st, hv, H => by
    cases s with
    | sid name id loc =>
      unfold storeVals
      exact storeVals_b (fun w hw => hv w (by simp [hw])) (.cons (hv v (by simp)) H)
    | _ => unfold storeVals; exact H

theorem bindFormals_b : ∀ {fs : List Sx} {env : Env} {st : Store} {ln : Nat}, StoreB h st → StoreB h (bindFormals fs env st ln).2.2.1
  | [], env, st, ln, H => by unfold bindFormals; exact H
  | f :: fs, env, st, ln, H => by
    cases f with
    | sid name id loc =>
      unfold bindFormals
      exact bindFormals_b (fs := fs) (.cons trivial H)
    | _ => unfold bindFormals; exact bindFormals_b H

theorem synlambda_b {d env v} (e : compileSynlambda d env = some v) : ValB h v := by
  unfold compileSynlambda at e
  split at e
  · split at e
    · cases e; trivial
    · cases e
  · cases e

theorem dropLoc_b {l} : ∀ {st}, StoreB h st → StoreB h (dropLoc l st)
  | [], H => H
  | (k, v) :: st, H => by
    unfold dropLoc
    split
    · exact fun p hp => H p (by simp [hp])
    · exact .cons (H (k, v) (by simp)) (dropLoc_b fun p hp => H p (by simp [hp]))

theorem substStore_b {l v st} (hv : ValB h v) (H : StoreB h st) : StoreB h (substStore st l v) := by
  unfold substStore
  split
  · exact dropLoc_b H
  · exact .cons hv (dropLoc_b H)

theorem lamOf_b {f vs b} (H : Built h b) : Built h (lamOf f vs b) := by
  unfold lamOf
  split <;> exact .lam H

theorem letrec_b {vs : List Var} {is : List Out} {b : Out} (hl : vs.length = is.length) (hi : ∀ o ∈ is, Built h o) (hb : Built h b) :
    Built h (makeLetrec (vs, is) b) := by
  unfold makeLetrec
  split
  · exact hb
  · exact .letrec hl hi hb

/-- what is shown of a form. -/
def ResB (h : Host) : Res → Prop
  | .expr o => Built h o
  | .syn v _ st _ => ValB h v ∧ StoreB h st
  | .defn _ _ _ _ _ st _ => StoreB h st
  | .beg _ _ _ _ st _ => StoreB h st
  | .stop o => Built h o

@[inherit_doc ResB] def VResB (h : Host) : VRes → Prop
  | .vals vs st _ => (∀ v ∈ vs, ValB h v) ∧ StoreB h st
  | .stop o => Built h o

@[inherit_doc ResB] def DResB (h : Host) : DRes → Prop
  | .next _ _ _ _ _ st _ => StoreB h st
  | .expr o => Built h o
  | .stop o => Built h o

theorem AddDef.built {vds sds exprs b t idn env st ln r} (A : AddDef vds sds exprs b t idn env st ln r) (H : StoreB h st) : DResB h r := by
  cases A with
  | anon => exact H
  | stx => exact H
  | var => exact .cons trivial H

mutual
theorem Form.built {ex sy lsd : Bool} {idn : Nat} {env : Env} {st : Store} {ln : Nat} {x : Sx} {r : Res} :
    Form h q ex sy lsd idn env st ln x r → StoreB h st → ResB h r
  | .var _ => fun _ => .var
  | .code e => fun H => H.lookup e
  | .keyword e _ _ => fun H => ⟨H.lookup e, H⟩
  | .idMacro _ _ _ _ ha _ => fun H => ha.built H
  | .idBegin _ _ _ _ ha ho _ _ => fun H => .makeBegin (ho.built (ha.built H))
  | .lit hf _ => fun H => hf.built H
  | .app _ hf ho _ => fun H => .app (hf.built H) (ho.built H)
  | .thunk _ _ hf => fun H => by
      have : Built h (.lam [] none _) := hf.built H
      cases this with
      | lam hb => exact hb
  | .expand _ hf _ hp => fun H => hp.built (hf.built H).2
  | .use _ hf hu => fun H => hu.built (hf.built H).2
  | .opStop _ hf => fun H => hf.built H
  | .opBegin _ hf ho _ _ => fun H => .makeBegin (ho.built (hf.built H))

theorem Expr.built {idn : Nat} {env : Env} {st : Store} {ln : Nat} {x : Sx} {o : Out} :
    Expr h q idn env st ln x o → StoreB h st → Built h o
  | .expr hf => fun H => hf.built H
  | .stop hf => fun H => hf.built H
  | .beg hf ho _ => fun H => .makeBegin (ho.built (hf.built H))

theorem Exprs.built {idn : Nat} {env : Env} {st : Store} {ln : Nat} {xs : List Sx} {os : List Out} :
    Exprs h q idn env st ln xs os → StoreB h st → ∀ o ∈ os, Built h o
  | .nil => fun _ => by simp
  | .cons hx hxs => fun H o ho => by
      rcases List.mem_cons.mp ho with ho | ho
      · rw [ho]; exact hx.built H
      · exact hxs.built H o ho

theorem Use.built {ex sy : Bool} {idn : Nat} {env : Env} {st : Store} {ln : Nat} {b : String} {hd d : Sx} {r : Res} :
    Use h q ex sy idn env st ln b hd d r → StoreB h st → ResB h r
  | .synrules _ => fun H => ⟨trivial, H⟩
  | .synlambda _ e => fun H => ⟨synlambda_b e, H⟩
  | .beg => fun H => H
  | .define _ _ => fun H => H
  | .lambda _ _ _ hx => fun H => lamOf_b (hx.built (bindFormals_b H))
  | .quote _ hx => fun H => hx.built H
  | .set _ _ hx => fun H => .set (hx.built H)
  | .iff hl hx => fun H => .iff (by rw [hx.length] at hl; exact hl) (hx.built H)
  | .letcc _ hx => fun H => .letcc (hx.built (.cons trivial H))
  | .withcc hl hx => fun H => .withcc (by rw [hx.length] at hl; exact hl) (hx.built H)
  | .quote' _ hx => fun H => .quote (hx.built H)
  | .const _ => fun _ => .raw
  | .text _ _ _ => fun _ => .raw
  | .prim hb _ hs hx => fun H => .prim hb hs (hx.built H)

theorem Apply.built {ex sy lsd : Bool} {idn : Nat} {env : Env} {st : Store} {ln : Nat} {v : Val} {x : Sx} {r : Res} :
    Apply h q ex sy lsd idn env st ln v x r → StoreB h st → ResB h r
  | .rules _ hf => fun H => hf.built H
  | .argStop _ hv => fun H => hv.built H
  | .slam _ hv hb _ => fun H => hb.built (storeVals_b (hv.built H).1 (hv.built H).2)
  | .slamBegin _ hv hb ho _ _ => fun H => .makeBegin (ho.built (hb.built (storeVals_b (hv.built H).1 (hv.built H).2)))

theorem Vals.built {idn : Nat} {env : Env} {xs : List Sx} {st : Store} {ln : Nat} {r : VRes} :
    Vals h q idn env xs st ln r → StoreB h st → VResB h r
  | .nil => fun H => ⟨nofun, H⟩
  | .code hf hv => fun H => by
      refine ⟨fun v hv' => ?_, (hv.built H).2⟩
      rcases List.mem_cons.mp hv' with hv' | hv'
      · rw [hv']; exact hf.built H
      · exact (hv.built H).1 v hv'
  | .codeStop _ hv => fun H => hv.built H
  | .syn hf hv => fun H => by
      refine ⟨fun v hv' => ?_, (hv.built (hf.built H).2).2⟩
      rcases List.mem_cons.mp hv' with hv' | hv'
      · rw [hv']; exact (hf.built H).1
      · exact (hv.built (hf.built H).2).1 v hv'
  | .synStop hf hv => fun H => hv.built (hf.built H).2
  | .stop hf => fun H => hf.built H
  | .beg hf ho _ _ => fun H => .makeBegin (ho.built (hf.built H))

theorem Def.built {ex : Bool} {idn : Nat} {env : Env} {st : Store} {ln : Nat} {vds sds : List (Sx × Sx)}
    {exprs : Option (List Sx)} {x : Sx} {r : DRes} : Def h q ex idn env st ln vds sds exprs x r → StoreB h st → DResB h r
  | .expr hf => fun H => hf.built H
  | .stop hf => fun H => hf.built H
  | .defn hf hd => fun H => hd.built (hf.built H)
  | .beg hf hd => fun H => hd.built (hf.built H)

theorem Defs.built {ex : Bool} {idn : Nat} {env : Env} {st : Store} {ln : Nat} {vds sds : List (Sx × Sx)}
    {exprs : Option (List Sx)} {xs : List Sx} {r : DRes} : Defs h q ex idn env st ln vds sds exprs xs r → StoreB h st → DResB h r
  | .nil => fun H => H
  | .cons hd hds => fun H => hds.built (hd.built H)
  | .expr hd ho => fun H => .makeBegin (by
      intro e he
      rcases List.mem_cons.mp he with he | he
      · rw [he]; exact hd.built H
      · exact ho.built H e he)
  | .stop hd => fun H => hd.built H

theorem Body.built {ex sy lsd : Bool} {first : Sx} {rest : List Sx} {vds sds : List (Sx × Sx)}
    {exprs : Option (List Sx)} {idn : Nat} {env : Env} {st : Store} {ln : Nat} {r : Res} :
    Body h q ex sy lsd first rest vds sds exprs idn env st ln r → StoreB h st → ResB h r
  | .last hv hf => fun H => hf.built (storeVals_b (hv.built H).1 (hv.built H).2) nofun
  | .lastStop hv => fun H => hv.built H
  | .next hd hb => fun H => hb.built (hd.built H)
  | .expr hd hv hf => fun H => hf.built (storeVals_b (hv.built H).1 (hv.built H).2) fun o' e => by cases e; exact hd.built H
  | .exprStop _ hv => fun H => hv.built H
  | .stop hd => fun H => hd.built H

theorem Finish.built {ex sy lsd : Bool} {first : Sx} {rest : List Sx} {vds : List (Sx × Sx)}
    {exprs : Option (List Sx)} {idn : Nat} {env : Env} {bd : Option Out} {st : Store} {ln : Nat} {r : Res} :
    Finish h q ex sy lsd first rest vds exprs idn env bd st ln r → StoreB h st → (∀ o, bd = some o → Built h o) → ResB h r
  | .only _ hf => fun H _ => hf.built H
  | .last _ hv ho hx => fun H _ => letrec_b hv.length_eq (hv.built H) (.makeBegin (by
        intro e he
        rcases List.mem_append.mp he with he | he
        · exact ho.built H e he
        · rw [List.mem_singleton] at he
          rw [he]
          exact hx.built H))
  | .more hv ho hx => fun H hb => letrec_b hv.length_eq (hv.built H) (.makeBegin (by
        intro e he
        rcases List.mem_append.mp he with he | he
        · exact ho.built H e he
        · rcases List.mem_cons.mp he with he | he
          · rw [he]; exact hb _ rfl
          · exact hx.built H e he))

theorem Vds.built {idn : Nat} {env : Env} {st : Store} {ln : Nat} {ds : List (Sx × Sx)} {ws : List Var} {os : List Out} :
    Vds h q idn env st ln ds ws os → StoreB h st → ∀ o ∈ os, Built h o
  | .nil => fun _ => nofun
  | .cons _ hx hd => fun H o ho => by
      rcases List.mem_cons.mp ho with ho | ho
      · rw [ho]; exact hx.built H
      · exact hd.built H o ho

theorem Exprs.length {idn : Nat} {env : Env} {st : Store} {ln : Nat} {xs : List Sx} {os : List Out} :
    Exprs h q idn env st ln xs os → xs.length = os.length
  | .nil => rfl
  | .cons _ hxs => by simp [hxs.length]

theorem Vds.length_eq {idn : Nat} {env : Env} {st : Store} {ln : Nat} {ds : List (Sx × Sx)} {ws : List Var} {os : List Out} :
    Vds h q idn env st ln ds ws os → ws.length = os.length
  | .nil => rfl
  | .cons _ _ hd => by simp [hd.length_eq]
end

/-- the forms of a program. -/
def BuiltTop (h : Host) : Out → Prop
  | .define _ o => Built h o
  | o => Built h o

theorem Built.top {o} (H : Built h o) : BuiltTop h o := by
  cases H <;> first | exact .var | exact .raw | (constructor <;> assumption)

/-- what is shown of the top level. -/
def TResB (h : Host) : TRes → Prop
  | .done st _ acc => StoreB h st ∧ ∀ o ∈ acc, BuiltTop h o
  | .stop o => Built h o

theorem Top.built {idn env st ln acc xs r} (H : Top h q idn env st ln acc xs r) : StoreB h st → (∀ o ∈ acc, BuiltTop h o) → TResB h r := by
  have step : ∀ {acc : List Out} {o : Out}, BuiltTop h o → (∀ o ∈ acc, BuiltTop h o) → ∀ o' ∈ o :: acc, BuiltTop h o' := by
    intro acc o h1 h2 o' ho
    rcases List.mem_cons.mp ho with rfl | ho
    · exact h1
    · exact h2 _ ho
  induction H with
  | nil => exact fun H ha => ⟨H, ha⟩
  | expr hf _ ih =>
    intro H ha
    have hb : Built h _ := hf.built H
    exact ih H (step hb.top ha)
  | stop hf => exact fun H _ => hf.built H
  | anon hf hx _ ih => exact fun H ha => ih H (step (hx.built (hf.built H)).top ha)
  | var hf hx _ ih => exact fun H ha => ih (substStore_b trivial (hf.built H)) (step (hx.built (hf.built H)) ha)
  | stx hf hv _ ih =>
    intro H ha
    have h2 := hv.built (hf.built H)
    exact ih (substStore_b (h2.1 _ (by simp)) h2.2) ha
  | stxStop hf hv => exact fun H _ => hv.built (hf.built H)
  | beg hf _ _ ih1 ih2 =>
    intro H ha
    have h1 := ih1 (hf.built H) ha
    exact ih2 h1.1 h1.2
  | begStop hf _ ih1 => exact fun H ha => ih1 (hf.built H) ha

theorem builtinStore_b : StoreB h builtinStore := by
  intro p hp
  simp only [builtinStore, List.mem_reverse, List.mem_map] at hp
  obtain ⟨b, _, rfl⟩ := hp
  trivial

/-- the forms of an expanded program. -/
theorem expandTop_built {n forms os st ln} (e : expandTop h false n forms builtinStore 0 = some (.prog os st ln)) :
    ∀ o ∈ os, BuiltTop h o := by
  have := (c59_program h forms builtinStore 0 os st ln).mp ⟨n, e⟩
  have hb := this.built builtinStore_b (by simp)
  intro o ho
  exact hb.2 o (by simpa using ho)

end Verif.Expand.Direct

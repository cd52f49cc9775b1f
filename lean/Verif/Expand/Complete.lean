import Verif.Expand.Sound
/-
C59: every derivation in the rules of Verif/Expand/Direct.lean is found by the expander, at every sufficient depth.
-/
namespace Verif.Expand.Direct
open Verif.Macros Verif.Expand

/-- the answer `a` is what the continuations make of `r`; the forms of a `begin` expand from depth `N` on. -/
def AnsN (h : Host) (N : Nat) (ek : Option EK) (sk : Option SK) (dk : Option DK) (bk : Option BK) (a : Ans) : Res → Prop
  | .expr o => ∃ k, ek = some k ∧ k o = some a
  | .syn v hd st ln => ∃ k, sk = some k ∧ k v hd st ln = some a
  | .defn b hd t idn env st ln => ∃ k, dk = some k ∧ k b (.pair hd t) idn env st ln = some a
  | .beg hd t idn env st ln => (∃ k, bk = some k ∧ k (.pair hd t) idn env st ln = some a) ∨
      (bk = none ∧ ∃ os, (∀ n ≥ N, expandExprs (recs h false n).any (items t) idn env st ln = some os) ∧ os ≠ [] ∧
        a = .out (makeBegin os))
  | .stop o => a = .out o

/-- what is shown of the forms. -/
def FormC (h : Host) (ex sy lsd : Bool) (idn : Nat) (env : Env) (st : Store) (ln : Nat) (x : Sx) (r : Res) : Prop :=
  ∀ N', ∃ N, ∀ n ≥ N, ∀ ek sk dk bk a, ek.isSome = ex → sk.isSome = sy → AnsN h N' ek sk dk bk a r →
    (recs h false n).any x idn env st ln lsd ek sk dk bk = some a
@[inherit_doc FormC] def ExprC (h : Host) (idn : Nat) (env : Env) (st : Store) (ln : Nat) (x : Sx) (o : Out) : Prop :=
  ∃ N, ∀ n ≥ N, expandExpr (recs h false n).any x idn env st ln = some o
@[inherit_doc FormC] def ExprsC (h : Host) (idn : Nat) (env : Env) (st : Store) (ln : Nat) (xs : List Sx) (os : List Out) : Prop :=
  ∃ N, ∀ n ≥ N, expandExprs (recs h false n).any xs idn env st ln = some os
@[inherit_doc FormC] def UseC (h : Host) (ex sy : Bool) (idn : Nat) (env : Env) (st : Store) (ln : Nat) (b : String) (hd d : Sx)
    (r : Res) : Prop :=
  ∀ N', ∃ N, ∀ n ≥ N, ∀ ek sk dk bk a, ek.isSome = ex → sk.isSome = sy → AnsN h N' ek sk dk bk a r →
    useBuiltin h (recs h false n).any b hd d idn env st ln ek sk dk bk = some a
@[inherit_doc FormC] def ApplyC (h : Host) (ex sy lsd : Bool) (idn : Nat) (env : Env) (st : Store) (ln : Nat) (v : Val) (x : Sx)
    (r : Res) : Prop :=
  ∀ N', ∃ N, ∀ n ≥ N, ∀ ek sk dk bk a, ek.isSome = ex → sk.isSome = sy → AnsN h N' ek sk dk bk a r →
    applyExpander false (recs h false n).any (recs h false n).dfn v x idn env st ln lsd ek sk dk bk = some a
@[inherit_doc FormC] def ValsC (h : Host) (idn : Nat) (env : Env) (xs : List Sx) (st : Store) (ln : Nat) (r : VRes) : Prop :=
  ∃ N, ∀ n ≥ N, ∀ all ienv k a bs vals, bs.map Prod.snd = xs →
    VAnswers (fun vs st ln => k (storeVals ienv all (vals.reverse ++ vs) st) ln) a r →
    synBindLoop (recs h false n).any all idn env ienv k bs vals st ln = some a
@[inherit_doc FormC] def DefC (h : Host) (ex : Bool) (idn : Nat) (env : Env) (st : Store) (ln : Nat) (vds sds : List (Sx × Sx))
    (exprs : Option (List Sx)) (x : Sx) (r : DRes) : Prop :=
  ∃ N, ∀ n ≥ N, ∀ k ek a, ek.isSome = ex → DAnswers k ek a r →
    (recs h false n).dfn x vds sds exprs idn env st ln k ek = some a
@[inherit_doc FormC] def DefsC (h : Host) (ex : Bool) (idn : Nat) (env : Env) (st : Store) (ln : Nat) (vds sds : List (Sx × Sx))
    (exprs : Option (List Sx)) (xs : List Sx) (r : DRes) : Prop :=
  ∃ N, ∀ n ≥ N, ∀ k ek a, ek.isSome = ex → DAnswers k ek a r →
    defBkLoop (recs h false n).any (recs h false n).dfn k xs vds sds exprs idn env st ln ek = some a
@[inherit_doc FormC] def BodyC (h : Host) (ex sy lsd : Bool) (first : Sx) (rest : List Sx) (vds sds : List (Sx × Sx))
    (exprs : Option (List Sx)) (idn : Nat) (env : Env) (st : Store) (ln : Nat) (r : Res) : Prop :=
  ∀ N', ∃ N, ∀ n ≥ N, ∀ ek sk dk bk a, ek.isSome = ex → sk.isSome = sy → AnsN h N' ek sk dk bk a r →
    bodyLoop (recs h false n).any (recs h false n).dfn lsd ek sk dk bk first rest vds sds exprs idn env st ln = some a
@[inherit_doc FormC] def FinishC (h : Host) (ex sy lsd : Bool) (first : Sx) (rest : List Sx) (vds : List (Sx × Sx))
    (exprs : Option (List Sx)) (idn : Nat) (env : Env) (bd : Option Out) (st : Store) (ln : Nat) (r : Res) : Prop :=
  ∀ N', ∃ N, ∀ n ≥ N, ∀ ek sk dk bk a, ek.isSome = ex → sk.isSome = sy → AnsN h N' ek sk dk bk a r →
    finishBody (recs h false n).any first rest vds exprs idn env lsd ek sk dk bk bd st ln = some a
@[inherit_doc FormC] def VdsC (h : Host) (idn : Nat) (env : Env) (st : Store) (ln : Nat) (ds : List (Sx × Sx)) (vs : List Var)
    (os : List Out) : Prop :=
  ∃ N, ∀ n ≥ N, expandVds (recs h false n).any ds idn env st ln = some (vs, os)

theorem pred_of_le {N n : Nat} (hn : n ≥ N + 1) : ∃ m, n = m + 1 ∧ m ≥ N := ⟨n - 1, by omega, by omega⟩

theorem any_succ {h : Host} {n x idn env st ln lsd ek sk dk bk} : (recs h false (n + 1)).any x idn env st ln lsd ek sk dk bk =
    anyF h false (recs h false n).any (recs h false n).dfn x idn env st ln lsd ek sk dk bk := rfl
theorem dfn_succ {h : Host} {n x vds sds exprs idn env st ln k ek} : (recs h false (n + 1)).dfn x vds sds exprs idn env st ln k ek =
    defF (recs h false n).any (recs h false n).dfn x vds sds exprs idn env st ln k ek := rfl

theorem isSome_some {α} {o : Option α} (e : o.isSome = true) : ∃ x, o = some x := Option.isSome_iff_exists.mp e
theorem isSome_none {α} {o : Option α} (e : o.isSome = false) : o = none := by cases o <;> simp_all

section
variable {h : Host} {q : Bool}

theorem exprBuiltin_use {any : AnyT} {b hd d idn env st ln ek sk dk bk o a} (hn : b ∉ ["syntax-rules", "syntax-lambda", "begin", "define", "define-syntax"])
    (e : exprBuiltin h any b (items d) idn env st ln = some o) (hk : ek o = some a) :
    useBuiltin h any b hd d idn env st ln (some ek) sk dk bk = some a := by
  simp only [List.mem_cons, List.not_mem_nil, or_false, not_or] at hn
  unfold useBuiltin
  rw [if_neg hn.1, if_neg hn.2.1, if_neg hn.2.2.1, if_neg (by simp [hn.2.2.2])]
  simp only [e, hk]

mutual
theorem Def.noExpr {ex : Bool} {idn : Nat} {env : Env} {st : Store} {ln : Nat} {vds sds : List (Sx × Sx)}
    {exprs : Option (List Sx)} {x : Sx} {r : DRes} : Def h q ex idn env st ln vds sds exprs x r → ex = false → ∀ o, r ≠ .expr o
  | .expr _ => fun he => by cases he
  | .stop _ => fun _ _ => nofun
  | .defn _ hd => fun _ o hr => by subst hr; cases hd
  | .beg _ hd => hd.noExpr
theorem Defs.noExpr {ex : Bool} {idn : Nat} {env : Env} {st : Store} {ln : Nat} {vds sds : List (Sx × Sx)}
    {exprs : Option (List Sx)} {xs : List Sx} {r : DRes} : Defs h q ex idn env st ln vds sds exprs xs r → ex = false → ∀ o, r ≠ .expr o
  | .nil => fun _ _ => nofun
  | .cons _ hd => fun _ => hd.noExpr rfl
  | .expr _ _ => fun he => by cases he
  | .stop _ => fun _ _ => nofun
end

mutual
theorem Form.complete {ex sy lsd : Bool} {idn : Nat} {env : Env} {st : Store} {ln : Nat} {x : Sx} {r : Res} :
    Form h q ex sy lsd idn env st ln x r → FormC h ex sy lsd idn env st ln x r
  | .var e => fun _ => ⟨1, fun n hn ek sk dk bk a he hs ha => by
      obtain ⟨m, rfl, _⟩ := pred_of_le hn
      obtain ⟨k, rfl, hk⟩ := ha
      simp only [any_succ, anyF, anySid, e, hk]⟩
  | .code e => fun _ => ⟨1, fun n hn ek sk dk bk a he hs ha => by
      obtain ⟨m, rfl, _⟩ := pred_of_le hn
      obtain ⟨k, rfl, hk⟩ := ha
      simp only [any_succ, anyF, anySid, e, hk]⟩
  | .keyword (v := v) e n1 n2 => fun _ => ⟨1, fun n hn ek sk dk bk a he hs ha => by
      obtain ⟨m, rfl, _⟩ := pred_of_le hn
      obtain ⟨k, rfl, hk⟩ := ha
      cases v with
      | var w => exact absurd rfl (n1 w)
      | code w => exact absurd rfl (n2 w)
      | builtin => simp only [any_succ, anyF, anySid, e, hk]
      | rules => simp only [any_succ, anyF, anySid, e, hk]
      | slam => simp only [any_succ, anyF, anySid, e, hk]⟩
  | .idMacro (v := v) e n1 n2 n3 ha hr => fun N' => by
      obtain ⟨N, hN⟩ := ha.complete N'
      refine ⟨N + 1, fun n hn ek sk dk bk a he hs ha => ?_⟩
      obtain ⟨m, rfl, hm⟩ := pred_of_le hn
      obtain ⟨ek, rfl⟩ := isSome_some he
      obtain rfl := isSome_none hs
      have := hN m hm (some ek) none none none a rfl rfl (by
        obtain ⟨o, rfl | rfl⟩ := hr
        · exact ha
        · exact ha)
      cases v with
      | var w => exact absurd rfl (n1 w)
      | code w => exact absurd rfl (n2 w)
      | builtin w => exact absurd rfl (n3 w)
      | rules => simp only [any_succ, anyF, anySid, e, this]
      | slam => simp only [any_succ, anyF, anySid, e, this]
  | .idBegin (v := v) (os := os) e n1 n2 n3 ha ho hne _ => fun _ => by
      obtain ⟨N', hN'⟩ := ho.complete
      obtain ⟨N, hN⟩ := ha.complete N'
      refine ⟨N + 1, fun n hn ek sk dk bk a he hs ha => ?_⟩
      obtain ⟨m, rfl, hm⟩ := pred_of_le hn
      obtain ⟨ek, rfl⟩ := isSome_some he
      obtain rfl := isSome_none hs
      have := hN m hm (some ek) none none none a rfl rfl (.inr ⟨rfl, os, hN', hne, ha⟩)
      cases v with
      | var w => exact absurd rfl (n1 w)
      | code w => exact absurd rfl (n2 w)
      | builtin w => exact absurd rfl (n3 w)
      | rules => simp only [any_succ, anyF, anySid, e, this]
      | slam => simp only [any_succ, anyF, anySid, e, this]
  | .lit hf _ => fun N' => by
      obtain ⟨N, hN⟩ := hf.complete N'
      refine ⟨N + 1, fun n hn ek sk dk bk a he hs ha => ?_⟩
      obtain ⟨m, rfl, hm⟩ := pred_of_le hn
      exact hN m hm ek sk dk bk a he hs ha
  | .app (a := f) (d := d) hl hf ho hno => fun N' => by
      obtain ⟨N, hN⟩ := hf.complete N'
      obtain ⟨N2, hN2⟩ := ho.complete
      refine ⟨max N N2 + 1, fun n hn ek sk dk bk a he hs ha => ?_⟩
      obtain ⟨m, rfl, hm⟩ := pred_of_le hn
      obtain ⟨ek, rfl, ha⟩ := ha
      rw [any_succ]
      simp only [anyF, hl, if_true]
      refine hN m (by omega) _ _ _ _ a rfl rfl ⟨_, rfl, ?_⟩
      unfold handleCombination
      split
      · rename_i b hd
        exact absurd ⟨rfl, hd⟩ (hno b)
      · rw [hN2 m (by omega)]
        exact ha
  | .thunk hl hd hf => fun N' => by
      obtain ⟨N, hN⟩ := hf.complete N'
      refine ⟨N + 1, fun n hn ek sk dk bk a he hs ha => ?_⟩
      obtain ⟨m, rfl, hm⟩ := pred_of_le hn
      obtain ⟨ek, rfl, ha⟩ := ha
      rw [any_succ]
      simp only [anyF, hl, if_true]
      refine hN m (by omega) _ _ _ _ a rfl rfl ⟨_, rfl, ?_⟩
      unfold handleCombination
      rw [hd]
      exact ha
  | .expand (v := v) hl hf hv hp => fun N' => by
      obtain ⟨N2, hN2⟩ := hp.complete N'
      obtain ⟨N, hN⟩ := hf.complete N'
      refine ⟨max N N2 + 1, fun n hn ek sk dk bk a he hs ha => ?_⟩
      obtain ⟨m, rfl, hm⟩ := pred_of_le hn
      rw [any_succ]
      simp only [anyF, hl, if_true]
      refine hN m (by omega) _ _ _ _ a (by cases ek <;> exact he) rfl ⟨_, rfl, ?_⟩
      have := hN2 m (by omega) ek sk dk bk a he hs ha
      unfold handleSyntaxUse
      cases v with
      | builtin w => exact absurd rfl (hv w)
      | _ => exact this
  | .use hl hf hu => fun N' => by
      obtain ⟨N2, hN2⟩ := hu.complete N'
      obtain ⟨N, hN⟩ := hf.complete N'
      refine ⟨max N N2 + 1, fun n hn ek sk dk bk a he hs ha => ?_⟩
      obtain ⟨m, rfl, hm⟩ := pred_of_le hn
      rw [any_succ]
      simp only [anyF, hl, if_true]
      exact hN m (by omega) _ _ _ _ a (by cases ek <;> exact he) rfl ⟨_, rfl, hN2 m (by omega) ek sk dk bk a he hs ha⟩
  | .opStop hl hf => fun N' => by
      obtain ⟨N, hN⟩ := hf.complete N'
      refine ⟨N + 1, fun n hn ek sk dk bk a he hs ha => ?_⟩
      obtain ⟨m, rfl, hm⟩ := pred_of_le hn
      rw [any_succ]
      simp only [anyF, hl, if_true]
      exact hN m (by omega) _ _ _ _ a (by cases ek <;> exact he) rfl ha
  | .opBegin hl hf ho hne _ => fun N' => by
      obtain ⟨N2, hN2⟩ := ho.complete
      obtain ⟨N, hN⟩ := hf.complete N2
      refine ⟨N + 1, fun n hn ek sk dk bk a he hs ha => ?_⟩
      obtain ⟨m, rfl, hm⟩ := pred_of_le hn
      rw [any_succ]
      simp only [anyF, hl, if_true]
      exact hN m (by omega) _ _ _ _ a (by cases ek <;> exact he) rfl (.inr ⟨rfl, _, hN2, hne, ha⟩)

theorem Expr.complete {idn : Nat} {env : Env} {st : Store} {ln : Nat} {x : Sx} {o : Out} :
    Expr h q idn env st ln x o → ExprC h idn env st ln x o
  | .expr hf => by
      obtain ⟨N, hN⟩ := hf.complete 0
      refine ⟨N, fun n hn => ?_⟩
      unfold expandExpr
      rw [hN n hn _ _ _ _ (.out o) rfl rfl ⟨_, rfl, rfl⟩]
      rfl
  | .stop hf => by
      obtain ⟨N, hN⟩ := hf.complete 0
      refine ⟨N, fun n hn => ?_⟩
      unfold expandExpr
      rw [hN n hn _ _ _ _ (.out o) rfl rfl rfl]
      rfl
  | .beg (os := os) hf ho hne => by
      obtain ⟨N', hN'⟩ := ho.complete
      obtain ⟨N, hN⟩ := hf.complete N'
      refine ⟨N, fun n hn => ?_⟩
      unfold expandExpr
      rw [hN n hn _ _ _ _ (.out (makeBegin os)) rfl rfl (.inr ⟨rfl, _, hN', hne, rfl⟩)]
      rfl

theorem Exprs.complete {idn : Nat} {env : Env} {st : Store} {ln : Nat} {xs : List Sx} {os : List Out} :
    Exprs h q idn env st ln xs os → ExprsC h idn env st ln xs os
  | .nil => ⟨0, fun _ _ => rfl⟩
  | .cons hx hxs => by
      obtain ⟨N1, h1⟩ := hx.complete
      obtain ⟨N2, h2⟩ := hxs.complete
      refine ⟨max N1 N2, fun n hn => ?_⟩
      simp only [expandExprs, h1 n (by omega), h2 n (by omega)]

theorem Use.complete {ex sy : Bool} {idn : Nat} {env : Env} {st : Store} {ln : Nat} {b : String} {hd d : Sx} {r : Res} :
    Use h q ex sy idn env st ln b hd d r → UseC h ex sy idn env st ln b hd d r
  | .synrules e => fun _ => ⟨0, fun n _ ek sk dk bk a he hs ha => by
      obtain ⟨k, rfl, hk⟩ := ha
      unfold useBuiltin
      rw [if_pos rfl]
      simp only [e, hk]⟩
  | .synlambda hl e => fun _ => ⟨0, fun n _ ek sk dk bk a he hs ha => by
      obtain ⟨k, rfl, hk⟩ := ha
      unfold useBuiltin
      rw [if_neg (by decide), if_pos rfl, if_pos hl]
      simp only [e, hk]⟩
  | .beg => fun N' => ⟨N', fun n hn ek sk dk bk a he hs ha => by
      unfold useBuiltin
      rw [if_neg (by decide), if_neg (by decide), if_pos rfl]
      rcases ha with ⟨k, rfl, hk⟩ | ⟨rfl, os, ho, hne, rfl⟩
      · exact hk
      · have := ho n hn
        have hi : (items d).isEmpty = false := by
          cases hi : items d with
          | nil => rw [hi] at this; cases this; exact absurd rfl hne
          | cons => rfl
        simp only [hi, this]
        rfl⟩
  | .define hb hd => fun _ => ⟨0, fun n _ ek sk dk bk a he hs ha => by
      obtain ⟨k, rfl, hk⟩ := ha
      unfold useBuiltin
      rw [if_neg (by rcases hb with rfl | rfl <;> decide), if_neg (by rcases hb with rfl | rfl <;> decide),
        if_neg (by rcases hb with rfl | rfl <;> decide), if_pos hb, if_pos hd]
      exact hk⟩
  | .lambda (f := f) e1 hs hn hx => fun _ => by
      obtain ⟨N, hN⟩ := hx.complete
      refine ⟨N, fun n hn' ek sk dk bk a he hs' ha => ?_⟩
      obtain ⟨ek, rfl, hk⟩ := ha
      refine exprBuiltin_use (by decide) ?_ hk
      unfold exprBuiltin
      rw [if_pos rfl, e1]
      simp only [expandLambda_eq, hN n hn', Option.map_some]
      rw [if_pos]
      simp only [Bool.and_eq_true, List.all_eq_true, decide_eq_true_eq]
      exact ⟨hs, hn⟩
  | .quote e1 hx => fun _ => by
      obtain ⟨N, hN⟩ := hx.complete
      refine ⟨N, fun n hn ek sk dk bk a he hs ha => ?_⟩
      obtain ⟨ek, rfl, hk⟩ := ha
      refine exprBuiltin_use (by decide) ?_ hk
      unfold exprBuiltin
      rw [if_neg (by decide), if_pos rfl, e1]
      exact hN n hn
  | .set e1 e2 hx => fun _ => by
      obtain ⟨N, hN⟩ := hx.complete
      refine ⟨N, fun n hn ek sk dk bk a he hs ha => ?_⟩
      obtain ⟨ek, rfl, hk⟩ := ha
      refine exprBuiltin_use (by decide) ?_ hk
      unfold exprBuiltin
      rw [if_neg (by decide), if_neg (by decide), if_pos rfl, e1]
      simp only [lookup2, e2, hN n hn]
  | .iff hl hx => fun _ => by
      obtain ⟨N, hN⟩ := hx.complete
      refine ⟨N, fun n hn ek sk dk bk a he hs ha => ?_⟩
      obtain ⟨ek, rfl, hk⟩ := ha
      refine exprBuiltin_use (by decide) ?_ hk
      unfold exprBuiltin
      rw [if_neg (by decide), if_neg (by decide), if_neg (by decide), if_pos rfl, if_pos (by omega), hN n hn]
      rfl
  | .letcc e1 hx => fun _ => by
      obtain ⟨N, hN⟩ := hx.complete
      refine ⟨N, fun n hn ek sk dk bk a he hs ha => ?_⟩
      obtain ⟨ek, rfl, hk⟩ := ha
      refine exprBuiltin_use (by decide) ?_ hk
      unfold exprBuiltin
      rw [if_neg (by decide), if_neg (by decide), if_neg (by decide), if_neg (by decide), if_pos rfl, e1]
      simp only [expandLetcc, hN n hn]
  | .withcc hl hx => fun _ => by
      obtain ⟨N, hN⟩ := hx.complete
      refine ⟨N, fun n hn ek sk dk bk a he hs ha => ?_⟩
      obtain ⟨ek, rfl, hk⟩ := ha
      refine exprBuiltin_use (by decide) ?_ hk
      unfold exprBuiltin
      rw [if_neg (by decide), if_neg (by decide), if_neg (by decide), if_neg (by decide), if_neg (by decide), if_pos rfl,
        if_pos hl, hN n hn]
      rfl
  | .quote' e1 hx => fun _ => by
      obtain ⟨N, hN⟩ := hx.complete
      refine ⟨N, fun n hn ek sk dk bk a he hs ha => ?_⟩
      obtain ⟨ek, rfl, hk⟩ := ha
      refine exprBuiltin_use (by decide) ?_ hk
      unfold exprBuiltin
      rw [if_neg (by decide), if_neg (by decide), if_neg (by decide), if_neg (by decide), if_neg (by decide), if_neg (by decide),
        if_pos rfl, e1]
      simp only [hN n hn, Option.map_some]
  | .const hne => fun _ => ⟨0, fun n _ ek sk dk bk a he hs ha => by
      obtain ⟨ek, rfl, hk⟩ := ha
      refine exprBuiltin_use (by decide) ?_ hk
      unfold exprBuiltin
      rw [if_neg (by decide), if_neg (by decide), if_neg (by decide), if_neg (by decide), if_neg (by decide), if_neg (by decide),
        if_neg (by decide), if_pos rfl, if_pos (Nat.succ_le_of_lt (List.length_pos_iff.mpr hne))]⟩
  | .text hb e1 hs => fun _ => ⟨0, fun n _ ek sk dk bk a he _ ha => by
      obtain ⟨ek, rfl, hk⟩ := ha
      refine exprBuiltin_use (by rcases hb with rfl | rfl <;> decide) ?_ hk
      unfold exprBuiltin
      rw [if_neg (by rcases hb with rfl | rfl <;> decide), if_neg (by rcases hb with rfl | rfl <;> decide),
        if_neg (by rcases hb with rfl | rfl <;> decide), if_neg (by rcases hb with rfl | rfl <;> decide),
        if_neg (by rcases hb with rfl | rfl <;> decide), if_neg (by rcases hb with rfl | rfl <;> decide),
        if_neg (by rcases hb with rfl | rfl <;> decide), if_neg (by rcases hb with rfl | rfl <;> decide), if_pos hb, e1]
      simp only [hs, if_true]⟩
  | .prim (b := b) hb e1 hs hx => fun _ => by
      obtain ⟨N, hN⟩ := hx.complete
      refine ⟨N, fun n hn ek sk dk bk a he _ ha => ?_⟩
      obtain ⟨ek, rfl, hk⟩ := ha
      have key : ∀ c, c ∉ primNames → b ≠ c := fun c hc hbc => hc (hbc ▸ hb)
      refine exprBuiltin_use ?_ ?_ hk
      · simp only [List.mem_cons, List.not_mem_nil, or_false, not_or]
        exact ⟨key _ (by decide), key _ (by decide), key _ (by decide), key _ (by decide), key _ (by decide)⟩
      unfold exprBuiltin
      rw [if_neg (key _ (by decide)), if_neg (key _ (by decide)), if_neg (key _ (by decide)), if_neg (key _ (by decide)),
        if_neg (key _ (by decide)), if_neg (key _ (by decide)), if_neg (key _ (by decide)), if_neg (key _ (by decide)),
        if_neg (by rintro (h0 | h0) <;> exact key _ (by decide) h0), if_pos hb, e1]
      simp only [hs, if_true, hN n hn, Option.map_some]

theorem Apply.complete {ex sy lsd : Bool} {idn : Nat} {env : Env} {st : Store} {ln : Nat} {v : Val} {x : Sx} {r : Res} :
    Apply h q ex sy lsd idn env st ln v x r → ApplyC h ex sy lsd idn env st ln v x r
  | .rules e hf => fun N' => by
      obtain ⟨N, hN⟩ := hf.complete N'
      refine ⟨N, fun n hn ek sk dk bk a he hs ha => ?_⟩
      simp only [applyExpander, e]
      exact hN n hn ek sk dk bk a he hs ha
  | .argStop (fs := fs) (args := args) hlen hv => fun _ => by
      obtain ⟨N, hN⟩ := hv.complete
      refine ⟨N, fun n hn ek sk dk bk a he hs ha => ?_⟩
      simp only [applyExpander, Bool.false_and, Bool.false_eq_true, if_false, if_pos hlen, expandSynBindings]
      exact hN n hn _ _ _ a _ [] (by rw [List.map_snd_zip]; omega) ha
  | .slam (fs := fs) (args := args) hlen hv hb hr => fun N' => by
      obtain ⟨N2, hN2⟩ := hb.complete N'
      obtain ⟨N, hN⟩ := hv.complete
      refine ⟨max N N2, fun n hn ek sk dk bk a he hs ha => ?_⟩
      simp only [applyExpander, Bool.false_and, Bool.false_eq_true, if_false, if_pos hlen, expandSynBindings]
      refine hN n (by omega) _ _ _ a _ [] (by rw [List.map_snd_zip]; omega) ?_
      simp only [VAnswers, expandBody]
      have hx : (if ek.isSome then some ([] : List Sx) else none) = if ex then some [] else none := by rw [he]
      rw [hx]
      refine hN2 n (by omega) _ _ _ _ a he hs ?_
      cases lsd with
      | true => exact ha
      | false =>
        rcases hr with hr | ⟨_, rfl⟩ | ⟨_, _, _, _, rfl⟩ | ⟨_, rfl⟩
        · cases hr
        · exact ha
        · exact ha
        · exact ha
  | .slamBegin (fs := fs) (args := args) hlen hv hb ho hne _ => fun _ => by
      obtain ⟨N', hN'⟩ := ho.complete
      obtain ⟨N2, hN2⟩ := hb.complete N'
      obtain ⟨N, hN⟩ := hv.complete
      refine ⟨max N N2, fun n hn ek sk dk bk a he hs ha => ?_⟩
      simp only [applyExpander, Bool.false_and, Bool.false_eq_true, if_false, if_pos hlen, expandSynBindings]
      refine hN n (by omega) _ _ _ a _ [] (by rw [List.map_snd_zip]; omega) ?_
      simp only [VAnswers, expandBody]
      have hx : (if ek.isSome then some ([] : List Sx) else none) = if ex then some [] else none := by rw [he]
      rw [hx]
      exact hN2 n (by omega) _ _ _ _ a he hs (.inr ⟨rfl, _, hN', hne, ha⟩)

theorem Vals.complete {idn : Nat} {env : Env} {xs : List Sx} {st : Store} {ln : Nat} {r : VRes} :
    Vals h q idn env xs st ln r → ValsC h idn env xs st ln r
  | .nil => ⟨0, fun n _ all ienv k a bs vals hb ha => by
      cases bs with
      | nil => unfold synBindLoop; simpa only [VAnswers, List.append_nil] using ha
      | cons => cases hb⟩
  | .code hf hv => by
      obtain ⟨N, hN⟩ := hf.complete 0
      obtain ⟨N2, hN2⟩ := hv.complete
      refine ⟨max N N2, fun n hn all ienv k a bs vals hb ha => ?_⟩
      cases bs with
      | nil => cases hb
      | cons p bs =>
        simp only [List.map_cons, List.cons.injEq] at hb
        obtain ⟨rfl, hb⟩ := hb
        unfold synBindLoop expandVal
        refine hN n (by omega) _ _ _ _ a rfl rfl ⟨_, rfl, ?_⟩
        exact hN2 n (by omega) _ _ _ a bs _ hb (by
          simpa only [VAnswers, List.reverse_cons, List.append_assoc, List.singleton_append] using ha)
  | .codeStop hf hv => by
      obtain ⟨N, hN⟩ := hf.complete 0
      obtain ⟨N2, hN2⟩ := hv.complete
      refine ⟨max N N2, fun n hn all ienv k a bs vals hb ha => ?_⟩
      cases bs with
      | nil => cases hb
      | cons p bs =>
        simp only [List.map_cons, List.cons.injEq] at hb
        obtain ⟨rfl, hb⟩ := hb
        unfold synBindLoop expandVal
        exact hN n (by omega) _ _ _ _ a rfl rfl ⟨_, rfl, hN2 n (by omega) _ _ _ a bs _ hb ha⟩
  | .syn hf hv => by
      obtain ⟨N, hN⟩ := hf.complete 0
      obtain ⟨N2, hN2⟩ := hv.complete
      refine ⟨max N N2, fun n hn all ienv k a bs vals hb ha => ?_⟩
      cases bs with
      | nil => cases hb
      | cons p bs =>
        simp only [List.map_cons, List.cons.injEq] at hb
        obtain ⟨rfl, hb⟩ := hb
        unfold synBindLoop expandVal
        refine hN n (by omega) _ _ _ _ a rfl rfl ⟨_, rfl, ?_⟩
        exact hN2 n (by omega) _ _ _ a bs _ hb (by
          simpa only [VAnswers, List.reverse_cons, List.append_assoc, List.singleton_append] using ha)
  | .synStop hf hv => by
      obtain ⟨N, hN⟩ := hf.complete 0
      obtain ⟨N2, hN2⟩ := hv.complete
      refine ⟨max N N2, fun n hn all ienv k a bs vals hb ha => ?_⟩
      cases bs with
      | nil => cases hb
      | cons p bs =>
        simp only [List.map_cons, List.cons.injEq] at hb
        obtain ⟨rfl, hb⟩ := hb
        unfold synBindLoop expandVal
        exact hN n (by omega) _ _ _ _ a rfl rfl ⟨_, rfl, hN2 n (by omega) _ _ _ a bs _ hb ha⟩
  | .stop hf => by
      obtain ⟨N, hN⟩ := hf.complete 0
      refine ⟨N, fun n hn all ienv k a bs vals hb ha => ?_⟩
      cases bs with
      | nil => cases hb
      | cons p bs =>
        simp only [List.map_cons, List.cons.injEq] at hb
        obtain ⟨rfl, hb⟩ := hb
        unfold synBindLoop expandVal
        exact hN n (by omega) _ _ _ _ a rfl rfl ha
  | .beg hf ho hne _ => by
      obtain ⟨N', hN'⟩ := ho.complete
      obtain ⟨N, hN⟩ := hf.complete N'
      refine ⟨N, fun n hn all ienv k a bs vals hb ha => ?_⟩
      cases bs with
      | nil => cases hb
      | cons p bs =>
        simp only [List.map_cons, List.cons.injEq] at hb
        obtain ⟨rfl, hb⟩ := hb
        unfold synBindLoop expandVal
        exact hN n (by omega) _ _ _ _ a rfl rfl (.inr ⟨rfl, _, hN', hne, ha⟩)

theorem Def.complete {ex : Bool} {idn : Nat} {env : Env} {st : Store} {ln : Nat} {vds sds : List (Sx × Sx)}
    {exprs : Option (List Sx)} {x : Sx} {r : DRes} :
    Def h q ex idn env st ln vds sds exprs x r → DefC h ex idn env st ln vds sds exprs x r
  | .expr hf => by
      obtain ⟨N, hN⟩ := hf.complete 0
      refine ⟨N + 1, fun n hn k ek a he ha => ?_⟩
      obtain ⟨m, rfl, hm⟩ := pred_of_le hn
      rw [dfn_succ, defF]
      exact hN m hm _ _ _ _ a he rfl ha
  | .stop hf => by
      obtain ⟨N, hN⟩ := hf.complete 0
      refine ⟨N + 1, fun n hn k ek a he ha => ?_⟩
      obtain ⟨m, rfl, hm⟩ := pred_of_le hn
      rw [dfn_succ, defF]
      exact hN m hm _ _ _ _ a he rfl ha
  | .defn hf hd => by
      obtain ⟨N, hN⟩ := hf.complete 0
      refine ⟨N + 1, fun n hn k ek a he ha => ?_⟩
      obtain ⟨m, rfl, hm⟩ := pred_of_le hn
      rw [dfn_succ, defF]
      refine hN m hm _ _ _ _ a he rfl ⟨_, rfl, ?_⟩
      cases hd with
      | anon e => subst e; exact ha
      | stx h1 h2 =>
        simp only [defDk, listOf, listS, noDup_iff.mpr h1, noDup_iff.mpr h2, Bool.and_self, if_true]
        exact ha
      | var h1 h2 h3 =>
        simp only [defDk, listOf, listS, noDup_iff.mpr h1, noDup_iff.mpr h2, Bool.and_self, if_true, h3, Bool.false_eq_true, if_false]
        exact ha
  | .beg hf hd => by
      obtain ⟨N, hN⟩ := hf.complete 0
      obtain ⟨N2, hN2⟩ := hd.complete
      refine ⟨max N N2 + 1, fun n hn k ek a he ha => ?_⟩
      obtain ⟨m, rfl, hm⟩ := pred_of_le hn
      rw [dfn_succ, defF]
      exact hN m (by omega) _ _ _ _ a he rfl (.inl ⟨_, rfl, hN2 m (by omega) k ek a he ha⟩)

theorem Defs.complete {ex : Bool} {idn : Nat} {env : Env} {st : Store} {ln : Nat} {vds sds : List (Sx × Sx)}
    {exprs : Option (List Sx)} {xs : List Sx} {r : DRes} :
    Defs h q ex idn env st ln vds sds exprs xs r → DefsC h ex idn env st ln vds sds exprs xs r
  | .nil => ⟨0, fun n _ k ek a _ ha => ha⟩
  | .cons (r := r) hd hds => by
      obtain ⟨N, hN⟩ := hd.complete
      obtain ⟨N2, hN2⟩ := hds.complete
      refine ⟨max N N2, fun n hn k ek a he ha => ?_⟩
      unfold defBkLoop
      refine hN n (by omega) _ _ a (by cases ek <;> exact he) (hN2 n (by omega) k none a rfl ?_)
      cases r with
      | next => exact ha
      | stop => exact ha
      | expr o => exact absurd rfl (hds.noExpr rfl o)
  | .expr hd ho => by
      obtain ⟨N, hN⟩ := hd.complete
      obtain ⟨N2, hN2⟩ := ho.complete
      refine ⟨max N N2, fun n hn k ek a he ha => ?_⟩
      unfold defBkLoop
      obtain ⟨ek, rfl, ha⟩ := ha
      refine hN n (by omega) _ _ a rfl ⟨_, rfl, ?_⟩
      simp only [hN2 n (by omega), ha]
  | .stop hd => by
      obtain ⟨N, hN⟩ := hd.complete
      refine ⟨N, fun n hn k ek a he ha => ?_⟩
      unfold defBkLoop
      exact hN n (by omega) _ _ a (by cases ek <;> exact he) ha

theorem Body.complete {ex sy lsd : Bool} {first : Sx} {rest : List Sx} {vds sds : List (Sx × Sx)}
    {exprs : Option (List Sx)} {idn : Nat} {env : Env} {st : Store} {ln : Nat} {r : Res} :
    Body h q ex sy lsd first rest vds sds exprs idn env st ln r → BodyC h ex sy lsd first rest vds sds exprs idn env st ln r
  | .last hv hf => fun N' => by
      obtain ⟨N, hN⟩ := hv.complete
      obtain ⟨N2, hN2⟩ := hf.complete N'
      refine ⟨max N N2, fun n hn ek sk dk bk a he hs ha => ?_⟩
      unfold bodyLoop expandSynBindings
      exact hN n (by omega) _ _ _ a _ [] rfl (hN2 n (by omega) ek sk dk bk a he hs ha)
  | .lastStop hv => fun N' => by
      obtain ⟨N, hN⟩ := hv.complete
      refine ⟨N, fun n hn ek sk dk bk a he hs ha => ?_⟩
      unfold bodyLoop expandSynBindings
      exact hN n (by omega) _ _ _ a _ [] rfl ha
  | .next hd hb => fun N' => by
      obtain ⟨N, hN⟩ := hd.complete
      obtain ⟨N2, hN2⟩ := hb.complete N'
      refine ⟨max N N2, fun n hn ek sk dk bk a he hs ha => ?_⟩
      unfold bodyLoop
      exact hN n (by omega) _ _ a (by cases ek <;> exact he) (hN2 n (by omega) ek sk dk bk a he hs ha)
  | .expr hd hv hf => fun N' => by
      obtain ⟨N, hN⟩ := hd.complete
      obtain ⟨N1, hN1⟩ := hv.complete
      obtain ⟨N2, hN2⟩ := hf.complete N'
      refine ⟨max N (max N1 N2), fun n hn ek sk dk bk a he hs ha => ?_⟩
      unfold bodyLoop
      refine hN n (by omega) _ _ a (by rw [if_pos he]; rfl) ⟨_, if_pos he, ?_⟩
      unfold expandSynBindings
      exact hN1 n (by omega) _ _ _ a _ [] rfl (hN2 n (by omega) ek sk dk bk a he hs ha)
  | .exprStop hd hv => fun N' => by
      obtain ⟨N, hN⟩ := hd.complete
      obtain ⟨N1, hN1⟩ := hv.complete
      refine ⟨max N N1, fun n hn ek sk dk bk a he hs ha => ?_⟩
      unfold bodyLoop
      refine hN n (by omega) _ _ a (by rw [if_pos he]; rfl) ⟨_, if_pos he, ?_⟩
      unfold expandSynBindings
      exact hN1 n (by omega) _ _ _ a _ [] rfl ha
  | .stop hd => fun N' => by
      obtain ⟨N, hN⟩ := hd.complete
      refine ⟨N, fun n hn ek sk dk bk a he hs ha => ?_⟩
      unfold bodyLoop
      exact hN n (by omega) _ _ a (by cases ek <;> exact he) ha

theorem Finish.complete {ex sy lsd : Bool} {first : Sx} {rest : List Sx} {vds : List (Sx × Sx)}
    {exprs : Option (List Sx)} {idn : Nat} {env : Env} {bd : Option Out} {st : Store} {ln : Nat} {r : Res} :
    Finish h q ex sy lsd first rest vds exprs idn env bd st ln r → FinishC h ex sy lsd first rest vds exprs idn env bd st ln r
  | .only hc hf => fun N' => by
      obtain ⟨N, hN⟩ := hf.complete N'
      refine ⟨N, fun n hn ek sk dk bk a he hs ha => ?_⟩
      unfold finishBody
      rw [if_pos (by simp [hc])]
      exact hN n hn ek sk dk bk a he hs ha
  | .last (vds := vds) (es := es) hc hv ho hx => fun N' => by
      obtain ⟨N, hN⟩ := hv.complete
      obtain ⟨N1, hN1⟩ := ho.complete
      obtain ⟨N2, hN2⟩ := hx.complete
      refine ⟨max N (max N1 N2), fun n hn ek sk dk bk a he hs ha => ?_⟩
      obtain ⟨ek, rfl, ha⟩ := ha
      unfold finishBody
      rw [if_neg]
      · simp only [hN n (by omega), hN1 n (by omega), hN2 n (by omega), List.isEmpty_nil, if_true, ha]
      · simp only [Bool.and_eq_true, List.isEmpty_iff, Option.getD_some, true_and]
        exact hc
  | .more hv ho hx => fun N' => by
      obtain ⟨N, hN⟩ := hv.complete
      obtain ⟨N1, hN1⟩ := ho.complete
      obtain ⟨N2, hN2⟩ := hx.complete
      refine ⟨max N (max N1 N2), fun n hn ek sk dk bk a he hs ha => ?_⟩
      obtain ⟨ek, rfl, ha⟩ := ha
      unfold finishBody
      rw [if_neg (by simp)]
      simp only [hN n (by omega), hN1 n (by omega), hN2 n (by omega), List.isEmpty_cons, Bool.false_eq_true, if_false, ha]

theorem Vds.complete {idn : Nat} {env : Env} {st : Store} {ln : Nat} {ds : List (Sx × Sx)} {vs : List Var}
    {os : List Out} : Vds h q idn env st ln ds vs os → VdsC h idn env st ln ds vs os
  | .nil => ⟨0, fun _ _ => rfl⟩
  | .cons e hx hd => by
      obtain ⟨N1, hN1⟩ := hx.complete
      obtain ⟨N2, hN2⟩ := hd.complete
      refine ⟨max N1 N2, fun n hn => ?_⟩
      simp only [expandVds, lookup2, e, hN1 n (by omega), hN2 n (by omega)]
end

/-- one keyword argument. -/
theorem Vals.one {idn : Nat} {env : Env} {x : Sx} {st : Store} {ln : Nat} {r : VRes} (H : Vals h q idn env [x] st ln r) :
    ∃ N, ∀ n ≥ N, ∀ k a, VAnswers (fun vs st ln => match vs with | [v] => k v st ln | _ => none) a r →
      expandVal (recs h false n).any x idn env st ln k = some a := by
  cases H with
  | code hf hv =>
    cases hv
    obtain ⟨N, hN⟩ := hf.complete 0
    exact ⟨N, fun n hn k a ha => hN n hn _ _ _ _ a rfl rfl ⟨_, rfl, ha⟩⟩
  | codeStop hf hv => cases hv
  | syn hf hv =>
    cases hv
    obtain ⟨N, hN⟩ := hf.complete 0
    exact ⟨N, fun n hn k a ha => hN n hn _ _ _ _ a rfl rfl ⟨_, rfl, ha⟩⟩
  | synStop hf hv => cases hv
  | stop hf =>
    obtain ⟨N, hN⟩ := hf.complete 0
    exact ⟨N, fun n hn k a ha => hN n hn _ _ _ _ a rfl rfl ha⟩
  | beg hf ho hne =>
    obtain ⟨N', hN'⟩ := ho.complete
    obtain ⟨N, hN⟩ := hf.complete N'
    exact ⟨N, fun n hn k a ha => hN n hn _ _ _ _ a rfl rfl (.inr ⟨rfl, _, hN', hne, ha⟩)⟩

theorem Top.complete {idn env st ln acc xs r} (H : Top h q idn env st ln acc xs r) :
    ∃ N, ∀ n ≥ N, ∀ k a, TAnswers k a r → topN h false n xs idn env st ln acc k = some a := by
  induction H with
  | nil =>
    refine ⟨1, fun n hn k a ha => ?_⟩
    obtain ⟨m, rfl, hm⟩ := pred_of_le hn
    exact ha
  | expr hf _ ih =>
    obtain ⟨N, hN⟩ := hf.complete 0
    obtain ⟨N2, hN2⟩ := ih
    refine ⟨max N N2 + 1, fun n hn k a ha => ?_⟩
    obtain ⟨m, rfl, hm⟩ := pred_of_le hn
    exact hN m (by omega) _ _ _ _ a rfl rfl ⟨_, rfl, hN2 m (by omega) k a ha⟩
  | stop hf =>
    obtain ⟨N, hN⟩ := hf.complete 0
    refine ⟨N + 1, fun n hn k a ha => ?_⟩
    obtain ⟨m, rfl, hm⟩ := pred_of_le hn
    exact hN m (by omega) _ _ _ _ a rfl rfl ha
  | anon hf hx _ ih =>
    obtain ⟨N, hN⟩ := hf.complete 0
    obtain ⟨N1, hN1⟩ := hx.complete
    obtain ⟨N2, hN2⟩ := ih
    refine ⟨max N (max N1 N2) + 1, fun n hn k a ha => ?_⟩
    obtain ⟨m, rfl, hm⟩ := pred_of_le hn
    refine hN m (by omega) _ _ _ _ a rfl rfl ⟨_, rfl, ?_⟩
    simp only [topDk, listOf, listS, hN1 m (by omega)]
    exact hN2 m (by omega) k a ha
  | var hf hx _ ih =>
    obtain ⟨N, hN⟩ := hf.complete 0
    obtain ⟨N1, hN1⟩ := hx.complete
    obtain ⟨N2, hN2⟩ := ih
    refine ⟨max N (max N1 N2) + 1, fun n hn k a ha => ?_⟩
    obtain ⟨m, rfl, hm⟩ := pred_of_le hn
    refine hN m (by omega) _ _ _ _ a rfl rfl ⟨_, rfl, ?_⟩
    simp only [topDk, listOf, listS, hN1 m (by omega), Bool.false_and, Bool.false_eq_true, if_false]
    exact hN2 m (by omega) k a ha
  | stx hf hv _ ih =>
    obtain ⟨N, hN⟩ := hf.complete 0
    obtain ⟨N1, hN1⟩ := hv.one
    obtain ⟨N2, hN2⟩ := ih
    refine ⟨max N (max N1 N2) + 1, fun n hn k a ha => ?_⟩
    obtain ⟨m, rfl, hm⟩ := pred_of_le hn
    refine hN m (by omega) _ _ _ _ a rfl rfl ⟨_, rfl, ?_⟩
    simp only [topDk, listOf, listS, Bool.false_and, Bool.false_eq_true, if_false, if_true]
    exact hN1 m (by omega) _ a (hN2 m (by omega) k a ha)
  | stxStop hf hv =>
    obtain ⟨N, hN⟩ := hf.complete 0
    obtain ⟨N1, hN1⟩ := hv.one
    refine ⟨max N N1 + 1, fun n hn k a ha => ?_⟩
    obtain ⟨m, rfl, hm⟩ := pred_of_le hn
    refine hN m (by omega) _ _ _ _ a rfl rfl ⟨_, rfl, ?_⟩
    simp only [topDk, listOf, listS, Bool.false_and, Bool.false_eq_true, if_false, if_true]
    exact hN1 m (by omega) _ a ha
  | beg hf _ _ ih1 ih2 =>
    obtain ⟨N, hN⟩ := hf.complete 0
    obtain ⟨N1, hN1⟩ := ih1
    obtain ⟨N2, hN2⟩ := ih2
    refine ⟨max N (max N1 N2) + 1, fun n hn k a ha => ?_⟩
    obtain ⟨m, rfl, hm⟩ := pred_of_le hn
    exact hN m (by omega) _ _ _ _ a rfl rfl (.inl ⟨_, rfl, hN1 m (by omega) _ a (hN2 m (by omega) k a ha)⟩)
  | begStop hf _ ih1 =>
    obtain ⟨N, hN⟩ := hf.complete 0
    obtain ⟨N1, hN1⟩ := ih1
    refine ⟨max N N1 + 1, fun n hn k a ha => ?_⟩
    obtain ⟨m, rfl, hm⟩ := pred_of_le hn
    exact hN m (by omega) _ _ _ _ a rfl rfl (.inl ⟨_, rfl, hN1 m (by omega) _ a ha⟩)
end

end Verif.Expand.Direct

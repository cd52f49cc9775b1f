import Verif.Expand.Direct
/-
C59: every answer of the expander comes from a derivation in the rules of Verif/Expand/Direct.lean.
-/
namespace Verif.Expand.Direct
open Verif.Macros Verif.Expand

/-- the answer `a` is what the continuations make of `r`. -/
def Answers (h : Host) (ek : Option EK) (sk : Option SK) (dk : Option DK) (bk : Option BK) (a : Ans) : Res → Prop
  | .expr o => ∃ k, ek = some k ∧ k o = some a
  | .syn v hd st ln => ∃ k, sk = some k ∧ k v hd st ln = some a
  | .defn b hd t idn env st ln => ∃ k, dk = some k ∧ k b (.pair hd t) idn env st ln = some a
  | .beg hd t idn env st ln => (∃ k, bk = some k ∧ k (.pair hd t) idn env st ln = some a) ∨
      (bk = none ∧ ∃ os, Exprs h true idn env st ln (items t) os ∧ os ≠ [] ∧ a = .out (makeBegin os))
  | .stop o => a = .out o

/-- the same for a form of a body. -/
def DAnswers (k : DefK) (ek : Option EK) (a : Ans) : DRes → Prop
  | .next vds sds exprs idn env st ln => k vds sds exprs idn env st ln = some a
  | .expr o => ∃ k, ek = some k ∧ k o = some a
  | .stop o => a = .out o

/-- the same for keyword arguments. -/
def VAnswers (k : List Val → Store → Nat → Option Ans) (a : Ans) : VRes → Prop
  | .vals vs st ln => k vs st ln = some a
  | .stop o => a = .out o

/-- what is shown of `expand-any`. -/
def AnySound (h : Host) (any : AnyT) : Prop := ∀ x idn env st ln lsd ek sk dk bk a,
  any x idn env st ln lsd ek sk dk bk = some a →
  ∃ r, Form h true ek.isSome sk.isSome lsd idn env st ln x r ∧ Answers h ek sk dk bk a r

/-- what is shown of `expand-def`. -/
def DefSound (h : Host) (dfn : DefT) : Prop := ∀ x vds sds exprs idn env st ln k ek a,
  dfn x vds sds exprs idn env st ln k ek = some a →
  ∃ r, Def h true ek.isSome idn env st ln vds sds exprs x r ∧ DAnswers k ek a r

section
variable {h : Host} {any : AnyT} {dfn : DefT}

theorem expandExpr_sound (H : AnySound h any) {x idn env st ln o} (e : expandExpr any x idn env st ln = some o) :
    Expr h true idn env st ln x o := by
  unfold expandExpr at e
  cases e1 : any x idn env st ln false (some fun o => some (.out o)) none none none with
  | none => rw [e1] at e; cases e
  | some a =>
    rw [e1] at e
    obtain ⟨r, hr, ha⟩ := H _ _ _ _ _ _ _ _ _ _ _ e1
    cases r with
    | expr o' =>
      obtain ⟨k, hk, ha⟩ := ha
      cases hk
      cases ha
      cases e
      exact .expr hr
    | syn => obtain ⟨k, hk, _⟩ := ha; cases hk
    | defn => obtain ⟨k, hk, _⟩ := ha; cases hk
    | beg =>
      rcases ha with ⟨k, hk, _⟩ | ⟨_, os, ho, hne, rfl⟩
      · cases hk
      · cases e
        exact .beg hr ho hne
    | stop o' =>
      cases (show a = .out o' from ha)
      cases e
      exact .stop hr

theorem expandExprs_sound (H : AnySound h any) {idn env st ln} : ∀ {xs os}, expandExprs any xs idn env st ln = some os →
    Exprs h true idn env st ln xs os
  | [], os, e => by simp only [expandExprs] at e; cases e; exact .nil
  | x :: xs, os, e => by
    simp only [expandExprs] at e
    split at e
    · cases e
    · rename_i o e1
      split at e
      · cases e
      · rename_i os' e2
        cases e
        exact .cons (expandExpr_sound H e1) (expandExprs_sound H e2)

theorem expandVds_sound (H : AnySound h any) {idn env st ln} : ∀ {ds b}, expandVds any ds idn env st ln = some b →
    Vds h true idn env st ln ds b.1 b.2
  | [], b, e => by simp only [expandVds] at e; cases e; exact .nil
  | (s, x) :: ds, b, e => by
    simp only [expandVds] at e
    split at e
    · rename_i v o r e1 e2 e3
      cases e
      cases s with
      | sid name id loc => exact .cons e1 (expandExpr_sound H e2) (expandVds_sound H e3)
      | _ => cases e1
    · cases e

/-- `expand-val` of one form, with what follows. -/
theorem expandVal_sound (H : AnySound h any) {x idn env st ln k a} (e : expandVal any x idn env st ln k = some a) :
    (∃ o, Form h true true true false idn env st ln x (.expr o) ∧ k (.code o) st ln = some a) ∨
    (∃ v hd st' ln', Form h true true true false idn env st ln x (.syn v hd st' ln') ∧ k v st' ln' = some a) ∨
    (∃ o, Form h true true true false idn env st ln x (.stop o) ∧ a = .out o) ∨
    ∃ hd t idn' env' st' ln' os, Form h true true true false idn env st ln x (.beg hd t idn' env' st' ln') ∧
      Exprs h true idn' env' st' ln' (items t) os ∧ os ≠ [] ∧ a = .out (makeBegin os) := by
  obtain ⟨r, hr, ha⟩ := H _ _ _ _ _ _ _ _ _ _ _ e
  cases r with
  | expr o => obtain ⟨_, hk, ha⟩ := ha; cases hk; exact .inl ⟨_, hr, ha⟩
  | syn => obtain ⟨_, hk, ha⟩ := ha; cases hk; exact .inr (.inl ⟨_, _, _, _, hr, ha⟩)
  | defn => obtain ⟨k, hk, _⟩ := ha; cases hk
  | beg =>
    rcases ha with ⟨k, hk, _⟩ | ⟨_, os, ho, hne, rfl⟩
    · cases hk
    · exact .inr (.inr (.inr ⟨_, _, _, _, _, _, _, hr, ho, hne, rfl⟩))
  | stop => exact .inr (.inr (.inl ⟨_, hr, ha⟩))

theorem synBindLoop_sound (H : AnySound h any) {all idn senv ienv k a} : ∀ {bs vals st ln},
    synBindLoop any all idn senv ienv k bs vals st ln = some a →
    ∃ r, Vals h true idn senv (bs.map Prod.snd) st ln r ∧
      VAnswers (fun vs st ln => k (storeVals ienv all (vals.reverse ++ vs) st) ln) a r
  | [], vals, st, ln, e => ⟨_, .nil, by unfold synBindLoop at e; simpa only [VAnswers, List.append_nil] using e⟩
  | (s, x) :: bs, vals, st, ln, e => by
    unfold synBindLoop at e
    rcases expandVal_sound H e with ⟨o, hf, e⟩ | ⟨v, hd, st', ln', hf, e⟩ | ⟨o, hf, rfl⟩ | ⟨_, _, _, _, _, _, _, hf, ho, hne, rfl⟩
    · obtain ⟨r, hr, ha⟩ := synBindLoop_sound H e
      cases r with
      | vals vs st' ln' =>
        exact ⟨_, .code hf hr, by simpa only [VAnswers, List.reverse_cons, List.append_assoc, List.singleton_append] using ha⟩
      | stop o' => exact ⟨_, .codeStop hf hr, ha⟩
    · obtain ⟨r, hr, ha⟩ := synBindLoop_sound H e
      cases r with
      | vals vs st' ln' =>
        exact ⟨_, .syn hf hr, by simpa only [VAnswers, List.reverse_cons, List.append_assoc, List.singleton_append] using ha⟩
      | stop o' => exact ⟨_, .synStop hf hr, ha⟩
    · exact ⟨_, .stop hf, rfl⟩
    · exact ⟨_, .beg hf ho hne rfl, rfl⟩

theorem expandSynBindings_sound (H : AnySound h any) {bs idn senv ienv st ln k a}
    (e : expandSynBindings any bs idn senv ienv st ln k = some a) :
    ∃ r, Vals h true idn senv (bs.map Prod.snd) st ln r ∧ VAnswers (fun vs st ln => k (storeVals ienv bs vs st) ln) a r :=
  synBindLoop_sound H e

theorem finishBody_sound (H : AnySound h any) {first rest vds exprs idn env lsd ek sk dk bk bd st ln a}
    (e : finishBody any first rest vds exprs idn env lsd ek sk dk bk bd st ln = some a) :
    ∃ r, Finish h true ek.isSome sk.isSome lsd first rest vds exprs idn env bd st ln r ∧ Answers h ek sk dk bk a r := by
  unfold finishBody at e
  split at e
  · rename_i hc
    simp only [Bool.and_eq_true, List.isEmpty_iff] at hc
    obtain ⟨⟨rfl, rfl⟩, hc⟩ := hc
    obtain ⟨r, hr, ha⟩ := H _ _ _ _ _ _ _ _ _ _ _ e
    exact ⟨r, .only hc hr, ha⟩
  · rename_i hc
    split at e
    · rename_i ek es b e1
      split at e
      · cases e
      · rename_i os e2
        split at e
        · rename_i hre
          simp only [List.isEmpty_iff] at hre
          subst hre
          split at e
          · cases e
          · rename_i o e3
            refine ⟨_, .last ?_ (expandVds_sound H e1) (expandExprs_sound H e2) (expandExpr_sound H e3), _, rfl, e⟩
            rintro ⟨rfl, rfl⟩
            exact hc rfl
        · rename_i hre
          split at e
          · rename_i o os' e3
            cases rest with
            | nil => exact absurd rfl hre
            | cons next rest =>
              exact ⟨_, .more (expandVds_sound H e1) (expandExprs_sound H e2) (expandExprs_sound H e3), _, rfl, e⟩
          · cases e
    · cases e

theorem bodyLoop_sound (H : AnySound h any) (D : DefSound h dfn) {lsd ek sk dk bk a} :
    ∀ {rest first vds sds exprs idn env st ln},
    bodyLoop any dfn lsd ek sk dk bk first rest vds sds exprs idn env st ln = some a →
    ∃ r, Body h true ek.isSome sk.isSome lsd first rest vds sds exprs idn env st ln r ∧ Answers h ek sk dk bk a r
  | [], first, vds, sds, exprs, idn, env, st, ln, e => by
    unfold bodyLoop at e
    obtain ⟨v, hv, ha⟩ := expandSynBindings_sound H e
    cases v with
    | vals vs st' ln' =>
      obtain ⟨r, hr, ha⟩ := finishBody_sound H ha
      exact ⟨r, .last hv hr, ha⟩
    | stop o => exact ⟨_, .lastStop hv, ha⟩
  | next :: rest, first, vds, sds, exprs, idn, env, st, ln, e => by
    unfold bodyLoop at e
    obtain ⟨d, hd, ha⟩ := D _ _ _ _ _ _ _ _ _ _ _ e
    have hex : (if ek.isSome then
        some fun o => expandSynBindings any sds idn env env st ln
          (finishBody any first (next :: rest) vds exprs idn env lsd ek sk dk bk (some o))
      else none).isSome = ek.isSome := by cases ek <;> rfl
    rw [hex] at hd
    cases d with
    | next =>
      obtain ⟨r, hr, ha⟩ := bodyLoop_sound H D ha
      exact ⟨r, .next hd hr, ha⟩
    | expr o =>
      obtain ⟨k, hk, ha⟩ := ha
      cases ek with
      | none => cases hk
      | some ek =>
        cases hk
        obtain ⟨v, hv, ha⟩ := expandSynBindings_sound H ha
        cases v with
        | vals vs st' ln' =>
          obtain ⟨r, hr, ha⟩ := finishBody_sound H ha
          exact ⟨r, .expr hd hv hr, ha⟩
        | stop o => exact ⟨_, .exprStop hd hv, ha⟩
    | stop o => exact ⟨_, .stop hd, ha⟩

theorem noDup_iff {id : Key} {ds : List (Sx × Sx)} : noDup id ds = true ↔ ∀ d ∈ ds, id ≠ sidId d.1 := by
  simp [noDup]

theorem defDk_sound {vds sds exprs k b hd t idn env st ln a} (e : defDk vds sds exprs k b (.pair hd t) idn env st ln = some a) :
    ∃ r, AddDef vds sds exprs b t idn env st ln r ∧ ∀ ek, DAnswers k ek a r := by
  unfold defDk at e
  split at e
  · rename_i e1 heq
    cases heq
    split at e
    · rename_i es
      exact ⟨_, .anon (e := e1) rfl, fun _ => e⟩
    · cases e
  · rename_i name id loc x heq
    cases heq
    split at e
    · rename_i hn
      simp only [Bool.and_eq_true, noDup_iff] at hn
      split at e
      · rename_i hb
        subst hb
        exact ⟨_, .stx hn.1 hn.2, fun _ => e⟩
      · rename_i hb
        simp only [Bool.not_eq_true] at hb
        subst hb
        split at e
        · rename_i hex
          exact ⟨_, .var hn.1 hn.2 hex, fun _ => e⟩
        · cases e
    · cases e
  · cases e

theorem defBkLoop_sound (H : AnySound h any) (D : DefSound h dfn) {k a} : ∀ {xs vds sds exprs idn env st ln ek},
    defBkLoop any dfn k xs vds sds exprs idn env st ln ek = some a →
    ∃ r, Defs h true ek.isSome idn env st ln vds sds exprs xs r ∧ DAnswers k ek a r
  | [], vds, sds, exprs, idn, env, st, ln, ek, e => ⟨_, .nil, e⟩
  | x :: xs, vds, sds, exprs, idn, env, st, ln, ek, e => by
    unfold defBkLoop at e
    obtain ⟨d, hd, ha⟩ := D _ _ _ _ _ _ _ _ _ _ _ e
    cases ek with
    | none =>
      cases d with
      | next =>
        obtain ⟨r, hr, ha⟩ := defBkLoop_sound H D ha
        exact ⟨r, .cons hd hr, ha⟩
      | expr o => obtain ⟨_, hk, _⟩ := ha; cases hk
      | stop o => exact ⟨_, .stop hd, ha⟩
    | some ek =>
      cases d with
      | next =>
        obtain ⟨r, hr, ha⟩ := defBkLoop_sound H D ha
        exact ⟨r, .cons hd hr, by cases r <;> first | exact ha | (obtain ⟨_, hk, _⟩ := ha; cases hk)⟩
      | expr o =>
        obtain ⟨_, hk, ha⟩ := ha
        cases hk
        split at ha
        · cases ha
        · rename_i os e2
          exact ⟨_, .expr hd (expandExprs_sound H e2), _, rfl, ha⟩
      | stop o => exact ⟨_, .stop hd, ha⟩

theorem defF_sound (H : AnySound h any) (D : DefSound h dfn) : DefSound h (defF any dfn) := by
  intro x vds sds exprs idn env st ln k ek a e
  unfold defF at e
  obtain ⟨r, hr, ha⟩ := H _ _ _ _ _ _ _ _ _ _ _ e
  cases r with
  | expr o =>
    obtain ⟨k', hk, ha⟩ := ha
    subst hk
    exact ⟨_, .expr hr, _, rfl, ha⟩
  | syn => obtain ⟨k, hk, _⟩ := ha; cases hk
  | defn =>
    obtain ⟨_, hk, ha⟩ := ha
    cases hk
    obtain ⟨d, hd, ha⟩ := defDk_sound ha
    exact ⟨d, .defn hr hd, ha _⟩
  | beg =>
    rcases ha with ⟨_, hk, ha⟩ | ⟨hk, _⟩
    · cases hk
      obtain ⟨d, hd, ha⟩ := defBkLoop_sound H D ha
      exact ⟨d, .beg hr hd, ha⟩
    · cases hk
  | stop => exact ⟨_, .stop hr, ha⟩

theorem ite_cases {α} {c : Prop} [Decidable c] {x y z : α} (e : (if c then x else y) = z) : (c ∧ x = z) ∨ (¬ c ∧ y = z) := by
  by_cases hc : c
  · rw [if_pos hc] at e; exact .inl ⟨hc, e⟩
  · rw [if_neg hc] at e; exact .inr ⟨hc, e⟩

theorem expandLambda_eq {f x idn env st ln} : expandLambda any f x idn env st ln =
    if (formals f).all isSid && decide (formals f).Nodup then
      (expandExpr any x idn (bindFormals (formals f) env st ln).2.1 (bindFormals (formals f) env st ln).2.2.1
        (bindFormals (formals f) env st ln).2.2.2).map (lamOf f (bindFormals (formals f) env st ln).1)
    else none := by
  unfold expandLambda formals lamOf
  by_cases hl : isList f = true
  · simp only [hl, if_true]
    split
    · cases expandExpr any x idn (bindFormals (items f) env st ln).2.1 (bindFormals (items f) env st ln).2.2.1
        (bindFormals (items f) env st ln).2.2.2 <;> rfl
    · rfl
  · simp only [hl, if_false, Bool.false_eq_true]
    split
    · cases expandExpr any x idn (bindFormals (flattenDotted f) env st ln).2.1 (bindFormals (flattenDotted f) env st ln).2.2.1
        (bindFormals (flattenDotted f) env st ln).2.2.2 <;> rfl
    · rfl

theorem lambda_sound (H : AnySound h any) {hd d f x idn env st ln o sy} (e1 : items d = [f, x])
    (e : expandLambda any f x idn env st ln = some o) : Use h true true sy idn env st ln "lambda" hd d (.expr o) := by
  rw [expandLambda_eq] at e
  split at e
  · rename_i hc
    simp only [Bool.and_eq_true, List.all_eq_true, decide_eq_true_eq] at hc
    simp only [Option.map_eq_some_iff] at e
    obtain ⟨b, e2, rfl⟩ := e
    exact .lambda e1 hc.1 hc.2 (expandExpr_sound H e2)
  · cases e

theorem exprBuiltin_sound (H : AnySound h any) {b hd d idn env st ln o sy}
    (e : exprBuiltin h any b (items d) idn env st ln = some o) : Use h true true sy idn env st ln b hd d (.expr o) := by
  unfold exprBuiltin at e
  replace e := ite_cases e
  rcases e with ⟨hb, e⟩ | ⟨_, e⟩
  · subst hb
    split at e
    · rename_i f x e1
      exact lambda_sound H e1 e
    · cases e
  replace e := ite_cases e
  rcases e with ⟨hb, e⟩ | ⟨_, e⟩
  · subst hb
    split at e
    · rename_i x e1
      exact .quote e1 (expandExpr_sound H e)
    · cases e
  replace e := ite_cases e
  rcases e with ⟨hb, e⟩ | ⟨_, e⟩
  · subst hb
    split at e
    · rename_i name id loc x e1
      split at e
      · rename_i v o' e2 e3
        cases e
        exact .set e1 e2 (expandExpr_sound H e3)
      · cases e
    · cases e
  replace e := ite_cases e
  rcases e with ⟨hb, e⟩ | ⟨_, e⟩
  · subst hb
    split at e
    · rename_i hl
      cases e2 : expandExprs any (items d) idn env st ln with
      | none => rw [e2] at e; cases e
      | some os =>
        rw [e2] at e
        cases e
        exact .iff (by omega) (expandExprs_sound H e2)
    · cases e
  replace e := ite_cases e
  rcases e with ⟨hb, e⟩ | ⟨_, e⟩
  · subst hb
    split at e
    · rename_i f x e1
      unfold expandLetcc at e
      split at e
      · split at e
        · cases e
        · rename_i e2
          cases e
          exact .letcc e1 (expandExpr_sound H e2)
      · cases e
    · cases e
  replace e := ite_cases e
  rcases e with ⟨hb, e⟩ | ⟨_, e⟩
  · subst hb
    split at e
    · rename_i hl
      cases e2 : expandExprs any (items d) idn env st ln with
      | none => rw [e2] at e; cases e
      | some os =>
        rw [e2] at e
        cases e
        exact .withcc hl (expandExprs_sound H e2)
    · cases e
  replace e := ite_cases e
  rcases e with ⟨hb, e⟩ | ⟨_, e⟩
  · subst hb
    split at e
    · rename_i x e1
      cases e2 : expandExpr any x idn env st ln with
      | none => rw [e2] at e; cases e
      | some o' =>
        rw [e2] at e
        cases e
        exact .quote' e1 (expandExpr_sound H e2)
    · cases e
  replace e := ite_cases e
  rcases e with ⟨hb, e⟩ | ⟨_, e⟩
  · subst hb
    split at e
    · rename_i hl
      cases e
      exact .const (by rintro h0; rw [h0] at hl; simp at hl)
    · cases e
  replace e := ite_cases e
  rcases e with ⟨hb, e⟩ | ⟨_, e⟩
  ·
    split at e
    · rename_i n e1
      split at e
      · rename_i hs
        cases e
        exact .text hb e1 hs
      · cases e
    · cases e
  replace e := ite_cases e
  rcases e with ⟨hb, e⟩ | ⟨_, e⟩
  ·
    split at e
    · rename_i sf args e1
      split at e
      · rename_i hs
        cases e2 : expandExprs any args idn env st ln with
        | none => rw [e2] at e; cases e
        | some os =>
          rw [e2] at e
          cases e
          exact .prim hb e1 hs (expandExprs_sound H e2)
      · cases e
    · cases e
  · cases e

theorem useBuiltin_sound (H : AnySound h any) {b hd d idn env st ln ek sk dk bk a}
    (e : useBuiltin h any b hd d idn env st ln ek sk dk bk = some a) :
    ∃ r, Use h true ek.isSome sk.isSome idn env st ln b hd d r ∧ Answers h ek sk dk bk a r := by
  unfold useBuiltin at e
  replace e := ite_cases e
  rcases e with ⟨hb, e⟩ | ⟨_, e⟩
  · subst hb
    split at e
    · rename_i m sk e1
      exact ⟨_, .synrules e1, _, rfl, e⟩
    · cases e
  replace e := ite_cases e
  rcases e with ⟨hb, e⟩ | ⟨_, e⟩
  · subst hb
    split at e
    · rename_i hl
      split at e
      · rename_i v sk e1
        exact ⟨_, .synlambda hl e1, _, rfl, e⟩
      · cases e
    · cases e
  replace e := ite_cases e
  rcases e with ⟨hb, e⟩ | ⟨_, e⟩
  · subst hb
    refine ⟨_, .beg, ?_⟩
    split at e
    · exact .inl ⟨_, rfl, e⟩
    · split at e
      · cases e
      · rename_i hne
        cases e2 : expandExprs any (items d) idn env st ln with
        | none => rw [e2] at e; cases e
        | some os =>
          rw [e2] at e
          cases e
          refine .inr ⟨rfl, os, expandExprs_sound H e2, ?_, rfl⟩
          rintro rfl
          have := expandExprs_sound H e2
          generalize items d = xs at *
          cases this
          exact hne rfl
  replace e := ite_cases e
  rcases e with ⟨hb, e⟩ | ⟨_, e⟩
  ·
    split at e
    · rename_i hd
      split at e
      · exact ⟨_, .define hb hd, _, rfl, e⟩
      · cases e
    · cases e
  · split at e
    · rename_i ek o e1
      exact ⟨_, exprBuiltin_sound H e1, _, rfl, e⟩
    · cases e

theorem applyExpander_sound (H : AnySound h any) (D : DefSound h dfn) {v x idn env st ln lsd ek sk dk bk a}
    (e : applyExpander false any dfn v x idn env st ln lsd ek sk dk bk = some a) :
    ∃ r, Apply h true ek.isSome sk.isSome lsd idn env st ln v x r ∧ Answers h ek sk dk bk a r := by
  unfold applyExpander at e
  split at e
  · split at e
    · rename_i y idn' e1
      obtain ⟨r, hr, ha⟩ := H _ _ _ _ _ _ _ _ _ _ _ e
      exact ⟨r, .rules e1 hr, ha⟩
    · cases e
  · rename_i fs body denv
    simp only [Bool.false_and, Bool.false_eq_true, if_false] at e
    split at e
    · rename_i hd args
      split at e
      · rename_i hlen
        obtain ⟨r, hr, ha⟩ := expandSynBindings_sound H e
        have hz : (fs.zip (items args)).map Prod.snd = items args := by
          rw [List.map_snd_zip]; omega
        rw [hz] at hr
        cases r with
        | stop o => exact ⟨_, .argStop hlen hr, ha⟩
        | vals vs st' ln' =>
          change expandBody _ _ _ _ _ _ _ _ _ _ _ _ = some a at ha
          unfold expandBody at ha
          split at ha
          · cases ha
          · rename_i first rest
            obtain ⟨r, hb, ha⟩ := bodyLoop_sound H D ha
            cases lsd with
            | true => exact ⟨r, .slam hlen hr hb (.inl rfl), ha⟩
            | false =>
              cases r with
              | expr o => exact ⟨_, .slam hlen hr hb (.inr (.inl ⟨_, rfl⟩)), ha⟩
              | syn => exact ⟨_, .slam hlen hr hb (.inr (.inr (.inl ⟨_, _, _, _, rfl⟩))), ha⟩
              | stop => exact ⟨_, .slam hlen hr hb (.inr (.inr (.inr ⟨_, rfl⟩))), ha⟩
              | defn => obtain ⟨_, hk, _⟩ := ha; cases hk
              | beg =>
                rcases ha with ⟨_, hk, _⟩ | ⟨_, os, ho, hne, rfl⟩
                · cases hk
                · exact ⟨_, .slamBegin hlen hr hb ho hne rfl, rfl⟩
      · cases e
    · cases e
  · cases e

theorem anySid_sound (H : AnySound h any) (D : DefSound h dfn) {name id loc idn env st ln lsd ek sk dk bk a}
    (e : anySid false any dfn name id loc idn env st ln ek sk = some a) :
    ∃ r, Form h true ek.isSome sk.isSome lsd idn env st ln (.sid name id loc) r ∧ Answers h ek sk dk bk a r := by
  unfold anySid at e
  split at e
  · cases e
  · rename_i v e1
    split at e
    · exact ⟨_, .var e1, _, rfl, e⟩
    · cases e
  · rename_i v e1
    split at e
    · exact ⟨_, .code e1, _, rfl, e⟩
    · cases e
  · rename_i b e1
    split at e
    · exact ⟨_, .keyword e1 nofun nofun, _, rfl, e⟩
    · cases e
  · rename_i v h1 h2 h3 e1
    split at e
    · exact ⟨_, .keyword e1 (fun w hw => h1 w hw) (fun w hw => h2 w hw), _, rfl, e⟩
    · rename_i ek
      have n1 : ∀ w, v ≠ .var w := fun w hw => h1 w hw
      have n2 : ∀ w, v ≠ .code w := fun w hw => h2 w hw
      have n3 : ∀ w, v ≠ .builtin w := fun w hw => h3 w hw
      obtain ⟨r, hr, ha⟩ := applyExpander_sound H D e
      cases r with
      | expr o => exact ⟨_, .idMacro e1 n1 n2 n3 hr ⟨o, .inl rfl⟩, ha⟩
      | stop o => exact ⟨_, .idMacro e1 n1 n2 n3 hr ⟨o, .inr rfl⟩, ha⟩
      | syn => obtain ⟨_, hk, _⟩ := ha; cases hk
      | defn => obtain ⟨_, hk, _⟩ := ha; cases hk
      | beg =>
        rcases ha with ⟨_, hk, _⟩ | ⟨_, os, ho, hne, rfl⟩
        · cases hk
        · exact ⟨_, .idBegin e1 n1 n2 n3 hr ho hne rfl, rfl⟩
    · cases e

theorem anyF_sound (H : AnySound h any) (D : DefSound h dfn) : AnySound h (anyF h false any dfn) := by
  intro x idn env st ln lsd ek sk dk bk a e
  unfold anyF at e
  split at e
  · exact anySid_sound H D e
  · rename_i f d
    split at e
    · rename_i hl
      obtain ⟨r, hr, ha⟩ := H _ _ _ _ _ _ _ _ _ _ _ e
      replace hr : Form h true ek.isSome true false idn env st ln f r := by cases ek <;> exact hr
      cases r with
      | expr o =>
        obtain ⟨k, hk, ha⟩ := ha
        cases ek with
        | none => cases hk
        | some ek =>
          cases hk
          unfold handleCombination at ha
          split at ha
          · rename_i b hd
            exact ⟨_, .thunk hl hd hr, _, rfl, ha⟩
          · rename_i hno
            split at ha
            · cases ha
            · rename_i os e2
              exact ⟨_, .app hl hr (expandExprs_sound H e2) (fun b hb => hno b hb.1 hb.2), _, rfl, ha⟩
      | syn v hd st' ln' =>
        obtain ⟨k, hk, ha⟩ := ha
        cases hk
        unfold handleSyntaxUse at ha
        split at ha
        · obtain ⟨r, hu, ha⟩ := useBuiltin_sound H ha
          exact ⟨r, .use hl hr hu, ha⟩
        · rename_i hno
          obtain ⟨r, hu, ha⟩ := applyExpander_sound H D ha
          exact ⟨r, .expand hl hr hno hu, ha⟩
      | defn => obtain ⟨_, hk, _⟩ := ha; cases hk
      | beg =>
        rcases ha with ⟨_, hk, _⟩ | ⟨_, os, ho, hne, rfl⟩
        · cases hk
        · exact ⟨_, .opBegin hl hr ho hne rfl, rfl⟩
      | stop o => exact ⟨_, .opStop hl hr, ha⟩
    · cases e
  · obtain ⟨r, hr, ha⟩ := H _ _ _ _ _ _ _ _ _ _ _ e
    exact ⟨r, .lit hr (.inl rfl), ha⟩
  · cases e
  · cases e

theorem recs_sound : ∀ n, AnySound h (recs h false n).any ∧ DefSound h (recs h false n).dfn
  | 0 => by
    constructor
    · intro x idn env st ln lsd ek sk dk bk a e; cases e
    · intro x vds sds exprs idn env st ln k ek a e; cases e
  | n + 1 => ⟨anyF_sound (recs_sound n).1 (recs_sound n).2, defF_sound (recs_sound n).1 (recs_sound n).2⟩

/-- the same for the top level. -/
def TAnswers (k : TopK) (a : Ans) : TRes → Prop
  | .done st ln acc => k st ln acc = some a
  | .stop o => a = .out o

theorem topN_sound : ∀ n {xs idn env st ln acc k a}, topN h false n xs idn env st ln acc k = some a →
    ∃ r, Top h true idn env st ln acc xs r ∧ TAnswers k a r
  | 0, _, _, _, _, _, _, _, _, e => by cases e
  | n + 1, xs, idn, env, st, ln, acc, k, a, e => by
    have H := (recs_sound (h := h) n).1
    rw [topN] at e
    unfold topF at e
    split at e
    · exact ⟨_, .nil, e⟩
    · rename_i x rest
      obtain ⟨r, hr, ha⟩ := H _ _ _ _ _ _ _ _ _ _ _ e
      cases r with
      | expr o =>
        obtain ⟨_, hk, ha⟩ := ha
        cases hk
        obtain ⟨r, ht, ha⟩ := topN_sound n ha
        exact ⟨r, .expr hr ht, ha⟩
      | syn => obtain ⟨_, hk, _⟩ := ha; cases hk
      | stop o => exact ⟨_, .stop hr, ha⟩
      | beg =>
        rcases ha with ⟨_, hk, ha⟩ | ⟨hk, _⟩
        · cases hk
          obtain ⟨r, ht, ha⟩ := topN_sound n ha
          cases r with
          | done =>
            obtain ⟨r, ht2, ha⟩ := topN_sound n ha
            exact ⟨r, .beg hr ht ht2, ha⟩
          | stop o => exact ⟨_, .begStop hr ht, ha⟩
        · cases hk
      | defn b hd t idn' env' st' ln' =>
        obtain ⟨_, hk, ha⟩ := ha
        cases hk
        unfold topDk at ha
        split at ha
        · rename_i e1 heq
          cases heq
          split at ha
          · cases ha
          · rename_i o e2
            obtain ⟨r, ht, ha⟩ := topN_sound n ha
            exact ⟨r, .anon (e := e1) hr (expandExpr_sound H e2) ht, ha⟩
        · rename_i name id loc e1 heq
          cases heq
          simp only [Bool.false_and, Bool.false_eq_true, if_false] at ha
          split at ha
          · rename_i hb
            subst hb
            rcases expandVal_sound H ha with ⟨o, hf, ha⟩ | ⟨v, hd, st', ln', hf, ha⟩ | ⟨o, hf, rfl⟩ | ⟨_, _, _, _, _, _, _, hf, ho, hne, rfl⟩
            · obtain ⟨r, ht, ha⟩ := topN_sound n ha
              exact ⟨r, .stx (e := e1) hr (.code hf .nil) ht, ha⟩
            · obtain ⟨r, ht, ha⟩ := topN_sound n ha
              exact ⟨r, .stx (e := e1) hr (.syn hf .nil) ht, ha⟩
            · exact ⟨_, .stxStop (e := e1) hr (.stop hf), rfl⟩
            · exact ⟨_, .stxStop (e := e1) hr (.beg hf ho hne rfl), rfl⟩
          · rename_i hb
            simp only [Bool.not_eq_true] at hb
            subst hb
            split at ha
            · cases ha
            · rename_i o e2
              obtain ⟨r, ht, ha⟩ := topN_sound n ha
              exact ⟨r, .var (e := e1) hr (expandExpr_sound H e2) ht, ha⟩
        · cases ha
end

end Verif.Expand.Direct

import Verif.Expand.Step
/-
Corresponding forms expand to corresponding outputs: `expand-any` and `expand-def`.
-/
namespace Verif.Expand
open Verif.Macros

section
variable {h : Host} {N : IdRel} {sh : Nat} {gl : Bool} {R : IdRel} {e e' : Env} {idn : Nat} {any any' : AnyT} {dfn dfn' : DefT}

/-- the continuations for definitions of a body: none, except at the top level. -/
def Outer (h : Host) (N : IdRel) (sh : Nat) (gl : Bool) (A : Ans → Ans → Prop) (W : IdRel → Env → Env → Prop) (lsd : Bool) (dk dk' : Option DK)
    (bk bk' : Option BK) : Prop :=
  (lsd = true → ∀ R e e', W R e e') ∧ (lsd = false → dk = none ∧ dk' = none ∧ bk = none ∧ bk' = none) ∧
  Option.Rel (DKRel h N sh gl A W) dk dk' ∧ Option.Rel (BKRel h N sh gl A W) bk bk'

theorem AnySim.outer (ha : AnySim h N sh gl any any') {A : Ans → Ans → Prop} (hA : OutA h N A) {W : IdRel → Env → Env → Prop}
    {x x' : Sx} {st st' : Store} {ln : Nat} {lsd : Bool}
    {ek ek' : Option EK} {sk sk' : Option SK} {dk dk' : Option DK} {bk bk' : Option BK} (hg : Good N sh gl R e e' idn) (hx : SxRel R x x') (hs : StoreRel h N sh gl st st')
    (hek : Option.Rel (EKRel h N A) ek ek') (hsk : Option.Rel (SKRel h N sh gl A) sk sk') (ho : Outer h N sh gl A W lsd dk dk' bk bk') :
    Q A (any x idn e st ln lsd ek sk dk bk) (any' x' (idn + sh) e' st' ln lsd ek' sk' dk' bk') := by
  obtain ⟨h1, h2, h3, h4⟩ := ho
  cases lsd with
  | true => exact ha A W R x x' idn e e' st st' ln true ek ek' sk sk' dk dk' bk bk' hA hg hx hs (fun R2 e2 e2' _ => h1 rfl _ _ _) hek hsk h3 h4
  | false =>
    obtain ⟨rfl, rfl, rfl, rfl⟩ := h2 rfl
    exact ha.simple hA hg hx hs hek hsk false

theorem isEmpty_rel {V W : Type} {P : V → W → Prop} {l : List V} {l' : List W} (hl : List.Forall₂ P l l') : l.isEmpty = l'.isEmpty := by
  cases hl <;> rfl

theorem getD_isEmpty_rel {V W : Type} {P : V → W → Prop} {l : Option (List V)} {l' : Option (List W)}
    (hl : Option.Rel (List.Forall₂ P) l l') : (l.getD []).isEmpty = (l'.getD []).isEmpty := by
  cases hl with
  | none => rfl
  | some hl => exact isEmpty_rel hl

theorem append_rel {V W : Type} {P : V → W → Prop} : ∀ {a b : List V} {a' b' : List W}, List.Forall₂ P a a' → List.Forall₂ P b b' →
    List.Forall₂ P (a ++ b) (a' ++ b')
  | _, _, _, _, .nil, hb => hb
  | _, _, _, _, .cons x y, hb => .cons x (append_rel y hb)

theorem finishBody_sim (ha : AnySim h N sh gl any any') {A : Ans → Ans → Prop} (hA : OutA h N A) {W : IdRel → Env → Env → Prop}
    {first first' : Sx} {rest rest' : List Sx} {vds vds' : List (Sx × Sx)} {exprs exprs' : Option (List Sx)} {lsd : Bool}
    {ek ek' : Option EK} {sk sk' : Option SK} {dk dk' : Option DK} {bk bk' : Option BK} {bd bd' : Option Out}
    (hg : Good N sh gl R e e' idn) (hf : SxRel R first first') (hr : List.Forall₂ (SxRel R) rest rest') (hv : DsRel R R vds vds')
    (he : Option.Rel (List.Forall₂ (SxRel R)) exprs exprs')
    (hek : Option.Rel (EKRel h N A) ek ek') (hsk : Option.Rel (SKRel h N sh gl A) sk sk') (ho : Outer h N sh gl A W lsd dk dk' bk bk')
    (hbd : Option.Rel (OutRel h N) bd bd') {st st' : Store} {ln : Nat} (hs : StoreRel h N sh gl st st') :
    Q A (finishBody any first rest vds exprs idn e lsd ek sk dk bk bd st ln)
      (finishBody any' first' rest' vds' exprs' (idn + sh) e' lsd ek' sk' dk' bk' bd' st' ln) := by
  simp only [finishBody, isEmpty_rel hr, isEmpty_rel hv, getD_isEmpty_rel he]
  split
  · exact ha.outer hA hg hf hs hek hsk ho
  · split
    · rename_i ek exprs r e3
      cases hek with
      | some hek =>
        cases he with
        | some he =>
          obtain ⟨r', q1, q2, q3⟩ := expandVds_sim ha hg hs (List.rel_reverse hv) e3
          rw [q1]
          simp only
          cases e4 : expandExprs any exprs.reverse idn e st ln with
          | none => exact Q.none
          | some os =>
            obtain ⟨os', q4, q5⟩ := expandExprs_sim ha hg hs (List.rel_reverse he) e4
            rw [q4]
            simp only
            split
            · cases e5 : expandExpr any first idn e st ln with
              | none => exact Q.none
              | some o =>
                obtain ⟨o', q6, q7⟩ := expandExpr_sim ha hg hf hs e5
                rw [q6]
                exact hek _ _ (makeLetrec_rel q2 q3 (makeBegin_rel (append_rel q5 (.cons q7 .nil))))
            · cases hbd with
              | none => exact Q.none
              | some hbd =>
                cases e5 : expandExprs any rest idn e st ln with
                | none => exact Q.none
                | some os2 =>
                  obtain ⟨os2', q6, q7⟩ := expandExprs_sim ha hg hs hr e5
                  rw [q6]
                  exact hek _ _ (makeLetrec_rel q2 q3 (makeBegin_rel (append_rel q5 (.cons hbd q7))))
    · exact Q.none

theorem bodyLoop_sim (ha : AnySim h N sh gl any any') (hd : DefSim h N sh gl dfn dfn') {A : Ans → Ans → Prop} (hA : OutA h N A)
    {W : IdRel → Env → Env → Prop} {lsd : Bool}
    {ek ek' : Option EK} {sk sk' : Option SK} {dk dk' : Option DK} {bk bk' : Option BK}
    (hek : Option.Rel (EKRel h N A) ek ek') (hsk : Option.Rel (SKRel h N sh gl A) sk sk') (ho : Outer h N sh gl A W lsd dk dk' bk bk') :
    ∀ {rest rest' : List Sx} {R : IdRel} {first first' : Sx} {vds vds' sds sds' : List (Sx × Sx)} {exprs exprs' : Option (List Sx)}
      {idn : Nat} {e e' : Env} {st st' : Store} {ln : Nat}, List.Forall₂ (SxRel R) rest rest' → Good N sh gl R e e' idn →
      SxRel R first first' → DsRel R R vds vds' → DsRel R R sds sds' → InEnv sds e → Option.Rel (List.Forall₂ (SxRel R)) exprs exprs' →
      StoreRel h N sh gl st st' →
      Q A (bodyLoop any dfn lsd ek sk dk bk first rest vds sds exprs idn e st ln)
        (bodyLoop any' dfn' lsd ek' sk' dk' bk' first' rest' vds' sds' exprs' (idn + sh) e' st' ln)
  | _, _, R, first, first', vds, vds', sds, sds', exprs, exprs', idn, e, e', st, st', ln, .nil, hg, hf, hv, hsd, hin, he, hs => by
    simp only [bodyLoop, expandSynBindings]
    refine synBindLoop_sim ha hA hg hg.toLink hsd hin ?_ hsd .nil ln hs
    intro st st' ln hs
    exact finishBody_sim ha hA hg hf .nil hv he hek hsk ho .none hs
  | next :: rest, next' :: rest', R, first, first', vds, vds', sds, sds', exprs, exprs', idn, e, e', st, st', ln, .cons h1 h2, hg, hf, hv, hsd, hin, he, hs => by
    simp only [bodyLoop]
    refine hd A R _ _ _ _ _ _ _ _ idn e e' st st' ln _ _ _ _ hA hg hf hv hsd hin he hs ?_ ?_
    · intro R2 vds vds' sds sds' exprs exprs' idn e e' st st' ln hle hg hv hsd hin he hs
      exact bodyLoop_sim ha hd hA hek hsk ho (forall₂_mono (fun _ _ q => q.mono hle) h2) hg (h1.mono hle) hv hsd hin he hs
    · cases hek with
      | none => exact .none
      | some hek =>
        refine .some ?_
        intro o o' hoo
        simp only [expandSynBindings]
        refine synBindLoop_sim ha hA hg hg.toLink hsd hin ?_ hsd .nil ln hs
        intro st st' ln hs
        exact finishBody_sim ha hA hg hf (.cons h1 h2) hv he (.some hek) hsk ho (.some hoo) hs

theorem expandBody_sim (ha : AnySim h N sh gl any any') (hd : DefSim h N sh gl dfn dfn') {A : Ans → Ans → Prop} (hA : OutA h N A)
    {W : IdRel → Env → Env → Prop} {lsd : Bool}
    {ek ek' : Option EK} {sk sk' : Option SK} {dk dk' : Option DK} {bk bk' : Option BK}
    (hek : Option.Rel (EKRel h N A) ek ek') (hsk : Option.Rel (SKRel h N sh gl A) sk sk') (ho : Outer h N sh gl A W lsd dk dk' bk bk')
    {xs xs' : List Sx} {st st' : Store} {ln : Nat} (hx : List.Forall₂ (SxRel R) xs xs') (hg : Good N sh gl R e e' idn)
    (hs : StoreRel h N sh gl st st') :
    Q A (expandBody any dfn xs idn e st ln lsd ek sk dk bk) (expandBody any' dfn' xs' (idn + sh) e' st' ln lsd ek' sk' dk' bk') := by
  cases hx with
  | nil => exact Q.none
  | cons h1 h2 =>
    simp only [expandBody]
    refine bodyLoop_sim ha hd hA hek hsk ho h2 hg h1 .nil .nil (by intro d hd; cases hd) ?_ hs
    cases hek with
    | none => exact .none
    | some hek => exact .some .nil

theorem noDup_rel (hg : Good N sh gl R e e' idn) {k k' : Key} (hk : idR R k k') : ∀ {ds ds' : List (Sx × Sx)}, DsRel R R ds ds' →
    noDup k ds = noDup k' ds'
  | _, _, .nil => rfl
  | (s, x) :: ds, (s', x') :: ds', .cons h1 h2 => by
    obtain ⟨⟨a, b, c, a', b', c', q1, q2, q3⟩, q4⟩ := h1
    simp only at q1 q2
    subst q1 q2
    have ih := noDup_rel hg hk h2
    simp only [noDup] at ih ⊢
    have hd : decide (k = b) = decide (k' = b') := decide_eq_decide.mpr (hg.idR_iff hk ⟨_, _, q3, rfl, rfl⟩)
    have : ∀ (p q : Bool) (x y : Bool), p = q → x = y → (!p && x) = (!q && y) := by rintro _ _ _ _ rfl rfl; rfl
    exact this _ _ _ _ hd ih

theorem InEnv.cons {ds : List (Sx × Sx)} (hin : InEnv ds e) (p : Key × Key) : InEnv ds (p :: e) := by
  intro d hd
  simp only [assv]
  split
  · rfl
  · exact hin d hd

theorem defDk_sim {A : Ans → Ans → Prop} {vds vds' sds sds' : List (Sx × Sx)} {exprs exprs' : Option (List Sx)}
    {k k' : DefK} (hv : DsRel R R vds vds') (hsd : DsRel R R sds sds') (hin : InEnv sds e)
    (he : Option.Rel (List.Forall₂ (SxRel R)) exprs exprs') (hk : DefKRel h N sh gl A R k k') :
    DKRel h N sh gl A (fun R2 e2 e2' => Le R R2 ∧ e2 = e ∧ e2' = e') (defDk vds sds exprs k) (defDk vds' sds' exprs' k') := by
  rintro R2 b hd hd' x x' idn e e' st st' ln ⟨hle, rfl, rfl⟩ hg hx hs
  have hv2 : DsRel R2 R2 vds vds' := DsRel.mono hle hle hv
  have hsd2 : DsRel R2 R2 sds sds' := DsRel.mono hle hle hsd
  cases hx with
  | pair h1 h2 =>
    cases h2 with
    | nil =>
      simp only [defDk]
      cases he with
      | none => exact Q.none
      | some he => exact hk R2 _ _ _ _ _ _ _ _ _ _ _ _ hle hg hv2 hsd2 hin (.some (.cons h1 (forall₂_mono (fun _ _ q => q.mono hle) he))) hs
    | pair h3 h4 =>
      cases h4 with
      | nil =>
        cases h1 with
        | sid r =>
          simp only [defDk]
          have hid : idR R2 _ _ := ⟨_, _, r, rfl, rfl⟩
          have he2 : Option.Rel (List.Forall₂ (SxRel R2)) exprs exprs' := by
            cases he with
            | none => exact .none
            | some he => exact .some (forall₂_mono (fun _ _ q => q.mono hle) he)
          rw [noDup_rel hg hid hv2, noDup_rel hg hid hsd2]
          split
          · split
            · refine hk R2 _ _ _ _ _ _ _ _ _ _ _ _ hle (hg.bind hid ln) hv2 (.cons ⟨⟨_, _, _, _, _, _, rfl, rfl, r⟩, h3⟩ hsd2) ?_ he2 hs
              intro d hd
              rcases List.mem_cons.mp hd with rfl | hd
              · simp [sidId, assv]
              · exact hin.cons _ d hd
            · have : exprs.isSome = exprs'.isSome := by cases he <;> rfl
              rw [this]
              split
              · exact hk R2 _ _ _ _ _ _ _ _ _ _ _ _ hle (hg.bind hid ln) (.cons ⟨⟨_, _, _, _, _, _, rfl, rfl, r⟩, h3⟩ hv2) hsd2 (hin.cons _) he2
                  (hs.cons ln (.var (.loc ln ⟨_, _, _, _, hg.name _ _ r⟩)))
              · exact Q.none
          · exact Q.none
        | _ => simp only [defDk]; exact Q.none
      | _ => cases h1 <;> exact Q.none
    | _ => cases h1 <;> exact Q.none
  | _ => exact Q.none

theorem defBkLoop_sim (ha : AnySim h N sh gl any any') (hd : DefSim h N sh gl dfn dfn') {A : Ans → Ans → Prop} (hA : OutA h N A) :
    ∀ {xs xs' : List Sx} {R : IdRel} {vds vds' sds sds' : List (Sx × Sx)} {exprs exprs' : Option (List Sx)} {k k' : DefK}
      {idn : Nat} {e e' : Env} {st st' : Store} {ln : Nat} {ek ek' : Option EK}, List.Forall₂ (SxRel R) xs xs' → Good N sh gl R e e' idn →
      DsRel R R vds vds' → DsRel R R sds sds' → InEnv sds e → Option.Rel (List.Forall₂ (SxRel R)) exprs exprs' →
      StoreRel h N sh gl st st' → DefKRel h N sh gl A R k k' → Option.Rel (EKRel h N A) ek ek' →
      Q A (defBkLoop any dfn k xs vds sds exprs idn e st ln ek) (defBkLoop any' dfn' k' xs' vds' sds' exprs' (idn + sh) e' st' ln ek')
  | _, _, R, vds, vds', sds, sds', exprs, exprs', k, k', idn, e, e', st, st', ln, ek, ek', .nil, hg, hv, hsd, hin, he, hs, hk, hek => by
    simp only [defBkLoop]
    exact hk R _ _ _ _ _ _ _ _ _ _ _ _ (Le.refl R) hg hv hsd hin he hs
  | x :: xs, x' :: xs', R, vds, vds', sds, sds', exprs, exprs', k, k', idn, e, e', st, st', ln, ek, ek', .cons h1 h2, hg, hv, hsd, hin, he, hs, hk, hek => by
    simp only [defBkLoop]
    refine hd A R _ _ _ _ _ _ _ _ idn e e' st st' ln _ _ _ _ hA hg h1 hv hsd hin he hs ?_ ?_
    · intro R2 vds vds' sds sds' exprs exprs' idn e e' st st' ln hle hg hv hsd hin he hs
      refine defBkLoop_sim ha hd hA (forall₂_mono (fun _ _ q => q.mono hle) h2) hg hv hsd hin he hs ?_ .none
      intro R3 a1 a2 a3 a4 a5 a6 a7 a8 a9 a10 a11 a12 q1 q2 q3 q4 q5 q6 q7
      exact hk R3 a1 a2 a3 a4 a5 a6 a7 a8 a9 a10 a11 a12 (hle.trans q1) q2 q3 q4 q5 q6 q7
    · cases hek with
      | none => exact .none
      | some hek =>
        refine .some ?_
        intro o o' hoo
        simp only
        cases e4 : expandExprs any xs idn e st ln with
        | none => exact Q.none
        | some os =>
          obtain ⟨os', q1, q2⟩ := expandExprs_sim ha hg hs h2 e4
          rw [q1]
          exact hek _ _ (makeBegin_rel (.cons hoo q2))

theorem defF_sim (ha : AnySim h N sh gl any any') (hd : DefSim h N sh gl dfn dfn') : DefSim h N sh gl (defF any dfn) (defF any' dfn') := by
  intro A R x x' vds vds' sds sds' exprs exprs' idn e e' st st' ln k k' ek ek' hA hg hx hv hsd hin he hs hk hek
  refine ha A (fun R2 e2 e2' => Le R R2 ∧ e2 = e ∧ e2' = e') R x x' idn e e' st st' ln false ek ek' none none _ _ _ _ hA hg hx hs ?_
    hek .none (.some (defDk_sim hv hsd hin he hk)) (.some ?_)
  · rintro R2 e2 e2' (h | h)
    · cases h
    · exact h
  · rintro R2 hd0 hd0' y y' idn2 e2 e2' st2 st2' ln2 ⟨hle, rfl, rfl⟩ hg2 hy hs2
    simp only
    refine defBkLoop_sim ha hd hA (items_rel hy) hg2 (DsRel.mono hle hle hv) (DsRel.mono hle hle hsd) hin ?_ hs2 ?_ hek
    · cases he with
      | none => exact .none
      | some he => exact .some (forall₂_mono (fun _ _ q => q.mono hle) he)
    · intro R3 a1 a2 a3 a4 a5 a6 a7 a8 a9 a10 a11 a12 q1 q2 q3 q4 q5 q6 q7
      exact hk R3 a1 a2 a3 a4 a5 a6 a7 a8 a9 a10 a11 a12 (hle.trans q1) q2 q3 q4 q5 q6 q7

theorem zip_dsRel {Ri Rs : IdRel} : ∀ {fs fs' xs xs' : List Sx}, List.Forall₂ (SxRel Ri) fs fs' → (∀ f ∈ fs, isSid f = true) →
    List.Forall₂ (SxRel Rs) xs xs' → DsRel Ri Rs (fs.zip xs) (fs'.zip xs')
  | _, _, _, _, .nil, _, _ => .nil
  | _, _, _, _, .cons _ _, _, .nil => .nil
  | f :: _, _, _, _, .cons h1 h2, hs, .cons h3 h4 => by
    have hf := hs f List.mem_cons_self
    refine .cons ⟨?_, h3⟩ (zip_dsRel h2 (fun y hy => hs y (List.mem_cons_of_mem _ hy)) h4)
    cases h1 with
    | sid r => exact ⟨_, _, _, _, _, _, rfl, rfl, r⟩
    | _ => simp [isSid] at hf

theorem applyExpander_sim (ha : AnySim h N sh gl any any') (hd : DefSim h N sh gl dfn dfn') {A : Ans → Ans → Prop} (hA : OutA h N A)
    {W : IdRel → Env → Env → Prop} {lsd : Bool} {v v' : Val} (hv : ValRel h N sh gl v v') {x x' : Sx} (hx : UseRel R x x')
    {ek ek' : Option EK} {sk sk' : Option SK} {dk dk' : Option DK} {bk bk' : Option BK} {st st' : Store} {ln : Nat}
    (hg : Good N sh gl R e e' idn) (hs : StoreRel h N sh gl st st') (hw : Where W lsd R e e')
    (hek : Option.Rel (EKRel h N A) ek ek') (hsk : Option.Rel (SKRel h N sh gl A) sk sk')
    (hdk : Option.Rel (DKRel h N sh gl A W) dk dk') (hbk : Option.Rel (BKRel h N sh gl A W) bk bk') :
    Q A (applyExpander gl any dfn v x idn e st ln lsd ek sk dk bk) (applyExpander false any' dfn' v' x' (idn + sh) e' st' ln lsd ek' sk' dk' bk') := by
  cases hv with
  | var _ => exact Q.none
  | code _ => exact Q.none
  | builtin _ => exact Q.none
  | rules hm =>
    simp only [applyExpander]
    split
    · rename_i y idn2 hr
      obtain ⟨y', R2, q1, q2, q3, q4⟩ := hm.apply hg hx hr
      rw [q1]
      refine ha A W R2 y y' idn2 e e' st st' ln lsd ek ek' sk sk' dk dk' bk bk' hA q3 q4 hs ?_ hek hsk hdk hbk
      rintro R3 e3 e3' (h | ⟨h1, h2, h3⟩)
      · exact hw _ _ _ (Or.inl h)
      · exact hw _ _ _ (Or.inr ⟨Le.trans q2 h1, h2, h3⟩)
    · exact Q.none
  | slam Rm hl hfs hbs hsid hgl =>
    rename_i fs fs' bs bs' de de'
    simp only [applyExpander, hgl]
    split
    · exact Q.none
    · rename_i hok
      simp only [Bool.true_and, Bool.not_eq_true', Bool.not_eq_false, slamOk, Bool.and_eq_true, List.all_eq_true, decide_eq_true_eq,
        List.mem_append] at hok
      rcases hx with ⟨hh, hh', t, t', rfl, rfl, ht⟩ | ⟨a, b, c, a', b', c', rfl, rfl⟩
      · simp only [Bool.false_and, Bool.false_eq_true, if_false]
        have hit := items_rel ht
        rw [hfs.length_eq, hit.length_eq]
        split
        · have hg2 : Good N sh gl (fun s s' => Rm s s' ∧ ∀ a, s.2.1 = .num a → a < idn) de de' idn := restrict_good hl hok.2
          have hfs2 := restrict_rels hfs (fun x hx => hok.1 x (Or.inl hx))
          have hbs2 := restrict_rels hbs (fun x hx => hok.1 x (Or.inr hx))
          have hg3 := bindKeywords_rel hfs2 hsid ln hg2
          have hds := zip_dsRel hfs2 hsid hit
          refine synBindLoop_sim ha hA hg hg3.toLink hds ?_ ?_ hds .nil _ hs
          · intro d hd
            exact bindKeywords_mem fs ln de d.1 (List.of_mem_zip hd).1
          · intro st st' ln hs
            refine expandBody_sim ha hd hA (W := W) hek hsk ⟨?_, ?_, ?_, ?_⟩ hbs2 hg3 hs
            · intro hl R e e'
              exact hw _ _ _ (Or.inl hl)
            · intro hl
              simp [hl]
            · cases lsd
              · exact .none
              · exact hdk
            · cases lsd
              · exact .none
              · exact hbk
        · exact Q.none
      · exact Q.none

theorem okSf_eq {x x' : Sx} (hx : SxRel R x x') (ho : okSf h x = true) : x = x' := by
  induction hx with
  | nil => rfl
  | atom n => rfl
  | sid r => simp [okSf] at ho
  | vec _ _ ih => simp only [okSf] at ho; rw [ih ho]
  | pair _ _ ih1 ih2 =>
    simp only [okSf, Bool.and_eq_true] at ho
    rw [ih1 ho.1.2, ih2 ho.2]

/-- corresponding optional outputs. -/
def OptRel (h : Host) (N : IdRel) (a a' : Option Out) : Prop := ∀ o, a = some o → ∃ o', a' = some o' ∧ OutRel h N o o'

theorem OptRel.none {a' : Option Out} : OptRel h N none a' := fun _ h => by cases h

theorem OptRel.map {os os' : Option (List Out)} (hos : ∀ r, os = some r → ∃ r', os' = some r' ∧ List.Forall₂ (OutRel h N) r r')
    {f f' : List Out → Out} (hf : ∀ r r', List.Forall₂ (OutRel h N) r r' → OutRel h N (f r) (f' r')) :
    OptRel h N (os.map f) (os'.map f') := by
  intro o ho
  cases os with
  | none => cases ho
  | some r =>
    cases ho
    obtain ⟨r', h1, h2⟩ := hos r rfl
    rw [h1]
    exact ⟨_, rfl, hf _ _ h2⟩

theorem optRel_ite {c : Prop} [Decidable c] {a a' b b' : Option Out} (h1 : OptRel h N a a') (h2 : OptRel h N b b') :
    OptRel h N (if c then a else b) (if c then a' else b') := by
  split
  · exact h1
  · exact h2

theorem exprBuiltin_sim (ha : AnySim h N sh gl any any') (hq : QuoteSim h N sh gl any any') {st st' : Store} {ln : Nat} (hg : Good N sh gl R e e' idn)
    (hs : StoreRel h N sh gl st st') (b : String) {t t' : List Sx} (ht : List.Forall₂ (SxRel R) t t') :
    OptRel h N (exprBuiltin h any b t idn e st ln) (exprBuiltin h any' b t' (idn + sh) e' st' ln) := by
  have hname : ∀ s s', R s s' → N s s' := fun s s' hr => hg.name s s' hr
  unfold exprBuiltin
  refine optRel_ite ?_ ?_
  · -- lambda
    match t, t', ht with
    | _, _, .cons h1 (.cons h2 .nil) => intro o ho; exact expandLambda_sim ha hg h1 h2 hs ho
    | _, _, .nil => exact OptRel.none
    | _, _, .cons _ .nil => exact OptRel.none
    | _, _, .cons _ (.cons _ (.cons _ _)) => exact OptRel.none
  refine optRel_ite ?_ ?_
  · -- quote
    match t, t', ht with
    | _, _, .cons h1 .nil =>
      intro o ho
      refine expandExpr_of_Q (hq _ R _ _ idn st st' ln false _ _ _ _ _ _ _ _ hname h1 hs (.some ?_)) ho
      intro o o' ho x hx
      cases hx
      exact ⟨_, rfl, o, o', rfl, rfl, ho⟩
    | _, _, .nil => exact OptRel.none
    | _, _, .cons _ (.cons _ _) => exact OptRel.none
  refine optRel_ite ?_ ?_
  · -- set!
    match t, t', ht with
    | _, _, .cons h1 (.cons h2 .nil) =>
      cases h1 with
      | sid r =>
        rename_i x x' a b c a' b' c'
        simp only
        intro o ho
        split at ho
        · rename_i v o1 e1 e2
          cases ho
          obtain ⟨o', q1, q2⟩ := expandExpr_sim ha hg h2 hs e2
          have hl := lookup2_rel hg.toLink hs r
          rw [e1] at hl
          cases hl2 : lookup2 (.sid a' b' c') e' st' with
          | none => rw [hl2] at hl; cases hl
          | some v' =>
            rw [hl2] at hl
            cases hl with
            | some hv =>
              cases hv with
              | var hv =>
                rw [q1]
                exact ⟨_, rfl, .set hv q2⟩
        · cases ho
      | _ => exact OptRel.none
    | _, _, .nil => exact OptRel.none
    | _, _, .cons h1 .nil => cases h1 <;> exact OptRel.none
    | _, _, .cons h1 (.cons _ (.cons _ _)) => cases h1 <;> exact OptRel.none
  refine optRel_ite ?_ ?_
  · -- if
    rw [ht.length_eq]
    split
    · exact OptRel.map (fun r hr => expandExprs_sim ha hg hs ht hr) (fun r r' hr => .form _ (OutsRel.of hr))
    · exact OptRel.none
  refine optRel_ite ?_ ?_
  · -- letcc
    match t, t', ht with
    | _, _, .cons h1 (.cons h2 .nil) => intro o ho; exact expandLetcc_sim ha hg h1 h2 hs ho
    | _, _, .nil => exact OptRel.none
    | _, _, .cons _ .nil => exact OptRel.none
    | _, _, .cons _ (.cons _ (.cons _ _)) => exact OptRel.none
  refine optRel_ite ?_ ?_
  · -- withcc
    rw [ht.length_eq]
    split
    · exact OptRel.map (fun r hr => expandExprs_sim ha hg hs ht hr) (fun r r' hr => .form _ (OutsRel.of hr))
    · exact OptRel.none
  refine optRel_ite ?_ ?_
  · -- %quote
    match t, t', ht with
    | _, _, .cons h1 .nil =>
      rename_i x x'
      intro o ho
      simp only at ho ⊢
      cases e1 : expandExpr any x idn e st ln with
      | none => rw [e1] at ho; cases ho
      | some o1 =>
        rw [e1] at ho
        cases ho
        obtain ⟨o', q1, q2⟩ := expandExpr_sim ha hg h1 hs e1
        rw [q1]
        exact ⟨_, rfl, .form _ (.cons q2 .nil)⟩
    | _, _, .nil => exact OptRel.none
    | _, _, .cons _ (.cons _ _) => exact OptRel.none
  refine optRel_ite ?_ ?_
  · -- %const
    rw [ht.length_eq]
    split
    · intro o ho
      cases ho
      refine ⟨_, rfl, .raw _ (listOf_crel (.cons (.refl _) (forall₂_mono (fun _ _ q => sx_crel hname q) ht)))⟩
    · exact OptRel.none
  refine optRel_ite ?_ ?_
  · match t, t', ht with
    | _, _, .cons h1 .nil =>
      cases h1 with
      | atom n =>
        simp only
        split
        · intro o ho; cases ho; exact ⟨_, rfl, .raw _ (.refl _)⟩
        · exact OptRel.none
      | _ => exact OptRel.none
    | _, _, .nil => exact OptRel.none
    | _, _, .cons h1 (.cons _ _) => cases h1 <;> exact OptRel.none
  refine optRel_ite ?_ ?_
  · match t, t', ht with
    | _, _, .cons h1 h2 =>
      rename_i sf sf' args args'
      simp only
      split
      · rename_i hok
        have := okSf_eq h1 hok
        subst this
        rw [if_pos hok]
        exact OptRel.map (fun r hr => expandExprs_sim ha hg hs h2 hr) (fun r r' hr => .prim _ _ (OutsRel.of hr))
      · exact OptRel.none
    | _, _, .nil => exact OptRel.none
  · exact OptRel.none

theorem compileSynlambda_sim (hg : Good N sh gl R e e' idn) {t t' : Sx} (ht : SxRel R t t') {v : Val} (hv : compileSynlambda t e = some v)
    (hgl : gl = true) :
    ∃ v', compileSynlambda t' e' = some v' ∧ ValRel h N sh gl v v' := by
  cases ht with
  | pair h1 h2 =>
    simp only [compileSynlambda] at hv ⊢
    split at hv
    · rename_i hc
      cases hv
      simp only [Bool.and_eq_true, decide_eq_true_eq] at hc
      have hi := items_rel h1
      have hsid : ∀ f ∈ items _, isSid f = true := List.all_eq_true.mp hc.1.2
      rw [if_pos]
      · exact ⟨_, rfl, .slam R hg.toLink hi (items_rel h2) hsid hgl⟩
      · simp only [Bool.and_eq_true, decide_eq_true_eq]
        exact ⟨⟨by rw [← isList_rel h1]; exact hc.1.1, by rw [← all_isSid_rel hi]; exact hc.1.2⟩, (hg.nodup hi hsid).mp hc.2⟩
    · cases hv
  | _ => cases hv

theorem useBuiltin_sim (ha : AnySim h N sh gl any any') (hq : QuoteSim h N sh gl any any') {A : Ans → Ans → Prop} (hA : OutA h N A)
    {W : IdRel → Env → Env → Prop} (b : String)
    (hb : gl = false → b ≠ "syntax-lambda") (hd hd' : Sx) {t t' : Sx} (ht : SxRel R t t') {st st' : Store} {ln : Nat}
    {ek ek' : Option EK} {sk sk' : Option SK} {dk dk' : Option DK} {bk bk' : Option BK}
    (hg : Good N sh gl R e e' idn) (hs : StoreRel h N sh gl st st') (hw : W R e e')
    (hek : Option.Rel (EKRel h N A) ek ek') (hsk : Option.Rel (SKRel h N sh gl A) sk sk')
    (hdk : Option.Rel (DKRel h N sh gl A W) dk dk') (hbk : Option.Rel (BKRel h N sh gl A W) bk bk') :
    Q A (useBuiltin h any b hd t idn e st ln ek sk dk bk) (useBuiltin h any' b hd' t' (idn + sh) e' st' ln ek' sk' dk' bk') := by
  have hit := items_rel ht
  simp only [useBuiltin]
  split
  · cases hc : compileSynrules t e with
    | none => exact Q.none
    | some m =>
      obtain ⟨m', q1, q2⟩ := compileSynrules_rel hg.toLink ht hc
      rw [q1]
      cases hsk with
      | none => exact Q.none
      | some hsk => exact hsk _ _ _ _ _ _ _ (.rules q2) hs
  split
  · rw [hit.length_eq]
    split
    · cases hc : compileSynlambda t e with
      | none => exact Q.none
      | some m =>
        obtain ⟨m', q1, q2⟩ := compileSynlambda_sim (h := h) hg ht hc (by
          cases h1 : gl with
          | true => rfl
          | false => exact absurd ‹b = "syntax-lambda"› (hb h1))
        rw [q1]
        cases hsk with
        | none => exact Q.none
        | some hsk => exact hsk _ _ _ _ _ _ _ q2 hs
    · exact Q.none
  split
  · cases hbk with
    | some hbk => exact hbk R hd hd' t t' idn e e' st st' ln hw hg ht hs
    | none =>
      simp only [isEmpty_rel hit]
      split
      · exact Q.none
      · cases e1 : expandExprs any (items t) idn e st ln with
        | none => exact Q.none
        | some os =>
          obtain ⟨os', q1, q2⟩ := expandExprs_sim ha hg hs hit e1
          rw [q1]
          intro x hx
          cases hx
          exact ⟨_, rfl, hA _ _ (makeBegin_rel q2)⟩
  split
  · have hok : defineOk b (items t) = defineOk b (items t') := by
      revert hit
      generalize items t = l
      generalize items t' = l'
      intro hit
      match l, l', hit with
      | _, _, .nil => rfl
      | _, _, .cons _ .nil => rfl
      | _, _, .cons h1 (.cons _ .nil) => exact isSid_rel h1
      | _, _, .cons _ (.cons _ (.cons _ _)) => rfl
    simp only [hok]
    split
    · cases hdk with
      | none => exact Q.none
      | some hdk => exact hdk R _ hd hd' t t' idn e e' st st' ln hw hg ht hs
    · exact Q.none
  · cases hek with
    | none => exact Q.none
    | some hek =>
      have := exprBuiltin_sim ha hq hg hs (ln := ln) b hit
      cases e1 : exprBuiltin h any b (items t) idn e st ln with
      | none => exact Q.none
      | some o =>
        obtain ⟨o', q1, q2⟩ := this o e1
        rw [q1]
        exact hek _ _ q2

theorem handleSyntaxUse_sim (ha : AnySim h N sh gl any any') (hq : QuoteSim h N sh gl any any') (hd : DefSim h N sh gl dfn dfn')
    {A : Ans → Ans → Prop} (hA : OutA h N A)
    {W : IdRel → Env → Env → Prop} {lsd : Bool} {t t' : Sx} (ht : SxRel R t t')
    {ek ek' : Option EK} {sk sk' : Option SK} {dk dk' : Option DK} {bk bk' : Option BK}
    (hg : Good N sh gl R e e' idn) (hw : Where W lsd R e e')
    (hek : Option.Rel (EKRel h N A) ek ek') (hsk : Option.Rel (SKRel h N sh gl A) sk sk')
    (hdk : Option.Rel (DKRel h N sh gl A W) dk dk') (hbk : Option.Rel (BKRel h N sh gl A W) bk bk') :
    SKRel h N sh gl A (handleSyntaxUse h gl any dfn t idn e lsd ek sk dk bk) (handleSyntaxUse h false any' dfn' t' (idn + sh) e' lsd ek' sk' dk' bk') := by
  intro v v' hd0 hd0' st st' ln hv hs
  have hu : UseRel R (.pair hd0 t) (.pair hd0' t') := Or.inl ⟨_, _, _, _, rfl, rfl, ht⟩
  have key := applyExpander_sim ha hd hA hv hu hg hs hw (ln := ln) hek hsk hdk hbk
  cases hv with
  | builtin b hb => exact useBuiltin_sim ha hq hA b hb hd0 hd0' ht hg hs (hw _ _ _ (Or.inr ⟨Le.refl R, rfl, rfl⟩)) hek hsk hdk hbk
  | _ => exact key

theorem handleCombination_sim (ha : AnySim h N sh gl any any') {A : Ans → Ans → Prop} {t t' : Sx} (ht : SxRel R t t') {st st' : Store} {ln : Nat}
    {ek ek' : EK} (hg : Good N sh gl R e e' idn) (hs : StoreRel h N sh gl st st') (hek : EKRel h N A ek ek') :
    EKRel h N A (handleCombination any t idn e st ln ek) (handleCombination any' t' (idn + sh) e' st' ln ek') := by
  intro o o' ho
  have hit := items_rel ht
  have gen : Q A (match expandExprs any (items t) idn e st ln with | none => none | some os => ek (.app o os))
      (match expandExprs any' (items t') (idn + sh) e' st' ln with | none => none | some os => ek' (.app o' os)) := by
    cases e1 : expandExprs any (items t) idn e st ln with
    | none => exact Q.none
    | some os =>
      obtain ⟨os', q1, q2⟩ := expandExprs_sim ha hg hs hit e1
      rw [q1]
      exact hek _ _ (.app ho (OutsRel.of q2))
  revert gen hit
  simp only [handleCombination]
  generalize items t = l
  generalize items t' = l'
  intro hit gen
  cases ho with
  | lam h1 h2 h3 =>
    cases h1 with
    | nil =>
      cases h2 with
      | none =>
        cases hit with
        | nil => exact hek _ _ h3
        | cons _ _ => exact gen
      | some _ => exact gen
    | cons _ _ => exact gen
  | _ => exact gen

theorem anySid_sim (ha : AnySim h N sh gl any any') (hd : DefSim h N sh gl dfn dfn') {A : Ans → Ans → Prop} (hA : OutA h N A)
    {a a' : String} {b b' c c' : Key} (r : R (a, b, c) (a', b', c')) {st st' : Store} {ln : Nat}
    {ek ek' : Option EK} {sk sk' : Option SK} (hg : Good N sh gl R e e' idn) (hs : StoreRel h N sh gl st st')
    (hek : Option.Rel (EKRel h N A) ek ek') (hsk : Option.Rel (SKRel h N sh gl A) sk sk') :
    Q A (anySid gl any dfn a b c idn e st ln ek sk) (anySid false any' dfn' a' b' c' (idn + sh) e' st' ln ek' sk') := by
  have hu : UseRel R (.sid a b c) (.sid a' b' c') := Or.inr ⟨_, _, _, _, _, _, rfl, rfl⟩
  simp only [anySid]
  have hl := hg.look _ _ r
  simp only at hl
  rw [← hl]
  have hv := hs.lookup (lookupSid b c e) (hg.lookOk r)
  revert hv
  generalize lookupLocation (lookupSid b c e) st = v
  generalize lookupLocation (lookupSid b c e) st' = v'
  intro hv
  cases hv with
  | none => exact Q.none
  | some hv =>
    have key : ∀ {k k' : EK}, EKRel h N A k k' → _ := fun {k k'} hk =>
      applyExpander_sim (W := fun _ _ _ => True) (lsd := false) ha hd hA hv hu hg hs (fun _ _ _ _ => trivial) (ln := ln)
        (ek := some k) (ek' := some k') (.some hk) (sk := none) (sk' := none) .none (dk := none) (dk' := none) .none (bk := none) (bk' := none) .none
    cases hv with
    | var hv =>
      cases hek with
      | none => exact Q.none
      | some hek => exact hek _ _ (.var hv)
    | code ho =>
      cases hek with
      | none => exact Q.none
      | some hek => exact hek _ _ ho
    | builtin s hb =>
      cases hsk with
      | none => exact Q.none
      | some hsk => exact hsk _ _ _ _ _ _ _ (.builtin s hb) hs
    | rules hm =>
      cases hsk with
      | some hsk => exact hsk _ _ _ _ _ _ _ (.rules hm) hs
      | none =>
        cases hek with
        | none => exact Q.none
        | some hek => exact key hek
    | slam R h1 h2 h3 h4 h5 =>
      cases hsk with
      | some hsk => exact hsk _ _ _ _ _ _ _ (.slam R h1 h2 h3 h4 h5) hs
      | none =>
        cases hek with
        | none => exact Q.none
        | some hek => exact key hek

theorem anyF_sim (ha : AnySim h N sh gl any any') (hq : QuoteSim h N sh gl any any') (hd : DefSim h N sh gl dfn dfn') :
    AnySim h N sh gl (anyF h gl any dfn) (anyF h false any' dfn') := by
  intro A W R x x' idn e e' st st' ln lsd ek ek' sk sk' dk dk' bk bk' hA hg hx hs hw hek hsk hdk hbk
  cases hx with
  | nil => exact Q.none
  | vec _ _ => exact Q.none
  | atom n => exact hq A R _ _ idn st st' ln lsd ek ek' sk sk' dk dk' bk bk' hg.name (.atom n) hs hek
  | sid r => exact anySid_sim ha hd hA r hg hs hek hsk
  | pair h1 h2 =>
    simp only [anyF, isList_rel h2]
    split
    · refine ha.simple hA hg h1 hs ?_ (.some (handleSyntaxUse_sim ha hq hd hA h2 hg hw hek hsk hdk hbk)) false
      cases hek with
      | none => exact .none
      | some hek => exact .some (handleCombination_sim ha h2 hg hs hek)
    · exact Q.none

theorem quote_sim (n : Nat) : QuoteSim h N sh gl (recs h gl n).any (recs h false n).any := by
  intro A R x x' idn st st' ln lsd ek ek' sk sk' dk dk' bk bk' hR hx hs hek
  simp only [decompose_eq]
  rw [quote_run hs.sane, quote_run hs.sane']
  split
  · exact Q.none
  · rename_i h1
    simp only [not_or] at h1
    have hc := decompose_crel (h := h) hR x x' hx
    simp only [decompose_eq] at hc
    cases hek with
    | none => exact Q.none
    | some hek =>
      have h2 : ¬ (n < 3 ∨ constTail h x' = []) := by
        rintro (h3 | h3)
        · exact h1.1 h3
        · refine h1.2 ?_
          cases hx with
          | nil => exact h3
          | atom n => exact h3
          | sid r => simp [constTail] at h3
          | vec _ r => simp [constTail] at h3
          | pair r s => simp only [constTail] at h3; split at h3 <;> cases h3
      rw [if_neg h2]
      exact hek _ _ (.form _ (.cons (.raw _ hc) .nil))

theorem recs_sim : ∀ n, AnySim h N sh gl (recs h gl n).any (recs h false n).any ∧ DefSim h N sh gl (recs h gl n).dfn (recs h false n).dfn
  | 0 => ⟨by intros _ _ _ _ _ _ _ _ _ _ _ _ _ _ _ _ _ _ _ _ _ _ _ _ _ _ _ _ _; exact Q.none,
          by intros _ _ _ _ _ _ _ _ _ _ _ _ _ _ _ _ _ _ _ _ _ _ _ _ _ _ _ _ _ _; exact Q.none⟩
  | n + 1 => ⟨anyF_sim (recs_sim n).1 (quote_sim n) (recs_sim n).2, defF_sim (recs_sim n).1 (recs_sim n).2⟩

end
end Verif.Expand

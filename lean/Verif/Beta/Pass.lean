import Verif.Beta.Run
/-
`beta-substitute` as a sequence of reductions (C36), continued: the recursion of the pass.
-/
namespace Verif.Beta
open Verif.Core

/-! ### the cases of an application -/

/-- the operator of an application. -/
def headOf (o : Opts) (n : Nat) (s : List Entry) (f : Exp) : Exp × List Act :=
  match f with
  | .var x =>
    (match find x s with
      | some en => (match en.head with | some h => h | none => en.exp)
      | none => .var x, [])
  | f => bs o n s f

/-- the cases except `(let () b)`. -/
def bsApp (o : Opts) (n : Nat) (s : List Entry) (f : Exp) (es : List Exp) : Exp × List Act :=
      if isIdLet (.app f es) then
          match es with
          | [r] => bs o n s r
          | _ => (.app f es, [.fuel])
        else if isLet (.app f es) then
          match f with
          | .lam ids body =>
            let rs := es.map (bs o n s)
            let l := letLoop o body ids (fsts rs) ⟨[], [], s, []⟩
            let r := bs o n l.substs body
            (if l.outIds.isEmpty then r.1 else letExp l.outIds l.outRands r.1, snds rs ++ (l.acts ++ r.2))
          | _ => (.app f es, [.fuel])
        else
          let rf : Exp × List Act := headOf o n s f
          let rs := es.map (bs o n s)
          let e' : Exp := .app rf.1 (fsts rs)
          if isLet e' then
            let r := bs o n s e'
            (r.1, rf.2 ++ (snds rs ++ r.2))
          else (e', rf.2 ++ snds rs)

theorem bs_app_eq (o : Opts) (n : Nat) (s : List Entry) (f : Exp) (es : List Exp) (h0 : isNullLet (.app f es) = false) :
    bs o (n + 1) s (.app f es) = bsApp o n s f es := by
  cases f with
  | lam ids b =>
    cases ids with
    | nil => cases es with
      | nil => cases h0
      | cons => rfl
    | cons => rfl
  | _ => rfl

/-- The result for an application. -/
theorem bs_app (o : Opts) (n : Nat) (s : List Entry) (f : Exp) (es : List Exp) :
    (∃ b, f = .lam [] b ∧ es = [] ∧ bs o (n + 1) s (.app f es) = bs o n s b) ∨
    (∃ x r, f = .lam [x] (.var x) ∧ es = [r] ∧ bs o (n + 1) s (.app f es) = bs o n s r) ∨
    (∃ ids body, f = .lam ids body ∧ ids ≠ [] ∧ ids.length = es.length ∧
      bs o (n + 1) s (.app f es) =
        ((let l := letLoop o body ids (fsts (es.map (bs o n s))) ⟨[], [], s, []⟩
          if l.outIds.isEmpty then (bs o n l.substs body).1 else letExp l.outIds l.outRands (bs o n l.substs body).1),
         snds (es.map (bs o n s)) ++
          ((letLoop o body ids (fsts (es.map (bs o n s))) ⟨[], [], s, []⟩).acts ++
            (bs o n (letLoop o body ids (fsts (es.map (bs o n s))) ⟨[], [], s, []⟩).substs body).2))) ∨
    (isLet (.app f es) = false ∧ isLet (.app (headOf o n s f).1 (fsts (es.map (bs o n s)))) = true ∧
      bs o (n + 1) s (.app f es) = ((bs o n s (.app (headOf o n s f).1 (fsts (es.map (bs o n s))))).1,
        (headOf o n s f).2 ++ (snds (es.map (bs o n s)) ++ (bs o n s (.app (headOf o n s f).1 (fsts (es.map (bs o n s))))).2))) ∨
    (isLet (.app f es) = false ∧ isLet (.app (headOf o n s f).1 (fsts (es.map (bs o n s)))) = false ∧
      bs o (n + 1) s (.app f es) = (.app (headOf o n s f).1 (fsts (es.map (bs o n s))), (headOf o n s f).2 ++ snds (es.map (bs o n s)))) := by
  by_cases h0 : isNullLet (.app f es) = true
  · unfold isNullLet at h0
    split at h0
    · rename_i b heq; cases heq; exact Or.inl ⟨b, rfl, rfl, rfl⟩
    · cases h0
  rw [bs_app_eq o n s f es (by simpa using h0)]
  unfold bsApp
  by_cases h1 : isIdLet (.app f es) = true
  · rw [if_pos h1]
    unfold isIdLet at h1
    split at h1
    · rename_i x y r heq
      cases heq
      have : x = y := by simpa using h1
      subst this
      exact Or.inr (Or.inl ⟨x, r, rfl, rfl, rfl⟩)
    · cases h1
  rw [if_neg h1]
  by_cases h2 : isLet (.app f es) = true
  · rw [if_pos h2]
    have h2' := h2
    unfold isLet at h2
    split at h2
    · rename_i ids body rands heq
      cases heq
      refine Or.inr (Or.inr (Or.inl ⟨ids, body, rfl, ?_, by simpa using h2, rfl⟩))
      rintro rfl
      cases es with
      | nil => exact h0 rfl
      | cons => simp at h2
    · cases h2
  rw [if_neg h2]
  have h2 : isLet (.app f es) = false := by simpa using h2
  by_cases h3 : isLet (.app (headOf o n s f).1 (fsts (es.map (bs o n s)))) = true
  · refine Or.inr (Or.inr (Or.inr (Or.inl ⟨h2, h3, ?_⟩)))
    simp only [h3, if_true]
  · refine Or.inr (Or.inr (Or.inr (Or.inr ⟨h2, by simpa using h3, ?_⟩)))
    simp only [h3, if_false, Bool.false_eq_true]

theorem fsts_map (g : Exp → Exp × List Act) (es : List Exp) : fsts (es.map g) = es.map (fun e => (g e).1) := by simp [fsts]

/-! ### runs that are covered -/

mutual
/-- the expression contains no `withcc` outside of procedures. -/
def plain : Exp → Bool
  | .ite a b c => plain a && plain b && plain c
  | .prim _ _ es => plainAll es
  | .app (.lam _ b) es => plainAll es && plain b
  | .letcc _ b => plain b
  | .withcc _ _ => false
  | _ => true
/-- for lists. -/
def plainAll : List Exp → Bool
  | [] => true
  | e :: es => plain e && plainAll es
end

/-- Substitutions that are covered by the proof. -/
def Act.good : Act → Bool
  | .fuel => false
  | .drop r => plain r
  | .move _ => false
  | .sub _ => true
  | .copy _ => true
  | .copyLam _ => false

/-- for runs. -/
def AllGood (as : List Act) : Prop := ∀ a ∈ as, a.good = true

theorem AllGood.left {as bs : List Act} (h : AllGood (as ++ bs)) : AllGood as := fun a ha => h a (by simp [ha])
theorem AllGood.right {as bs : List Act} (h : AllGood (as ++ bs)) : AllGood bs := fun a ha => h a (by simp [ha])
theorem AllGood.snds {g : Exp → Exp × List Act} {es : List Exp} (h : AllGood (snds (es.map g))) : ∀ e ∈ es, AllGood (g e).2 := by
  intro e he a ha
  refine h a ?_
  simp only [Beta.snds, List.mem_flatMap, List.mem_map]
  exact ⟨g e, ⟨e, he, rfl⟩, ha⟩

/-- the records of the loop grow. -/
theorem letLoop_acts {o : Opts} {body : Exp} : ∀ (ids : List Id) (rands : List Exp) (l : LetLoop), ∀ a ∈ l.acts, a ∈ (letLoop o body ids rands l).acts := by
  intro ids
  induction ids with
  | nil => intro rands l a ha; simpa only [letLoop] using ha
  | cons x ids ih =>
    intro rands l a ha
    cases rands with
    | nil => simpa only [letLoop] using ha
    | cons r rands =>
      rw [letLoop]
      split <;> exact ih rands _ a (by first | exact ha | exact List.mem_cons_of_mem _ ha)

/-- what the decision is based on. -/
theorem decide_cases (o : Opts) (x : Id) (r body : Exp) :
    decideLet o x r body = .pass ∨
    (decideLet o x r body = .skip ∧ refCount x body = 0 ∧ removable r = true) ∨
    (decideLet o x r body = .subst (.sub r) ∧ refCount x body = 1 ∧ transparent r = true) ∨
    (decideLet o x r body = .subst (.copy r) ∧ (cheapTransparent o.cexp r = true ∨ zeroCost o.cexp r = true)) ∨
    (∃ a, a.good = false ∧ (decideLet o x r body = .subst a ∨ decideLet o x r body = .partially a)) := by
  unfold decideLet
  simp only
  split
  · rename_i h0
    split
    · rename_i h1; exact Or.inr (Or.inl ⟨rfl, h0, h1⟩)
    · exact Or.inl rfl
  · split
    · rename_i h0
      split
      · rename_i h1; exact Or.inr (Or.inr (Or.inl ⟨rfl, h0, h1⟩))
      · split
        · exact Or.inr (Or.inr (Or.inr (Or.inr ⟨_, rfl, Or.inl rfl⟩)))
        · exact Or.inl rfl
    · split
      · rename_i h1
        simp only [Bool.and_eq_true] at h1
        exact Or.inr (Or.inr (Or.inr (Or.inl ⟨rfl, Or.inl h1.2⟩)))
      · by_cases hc : (if o.lift = true then isCurry r else cheapLambda o.cexp r) = true
        · rw [if_pos hc]
          split
          · exact Or.inr (Or.inr (Or.inr (Or.inr ⟨_, rfl, Or.inl rfl⟩)))
          · exact Or.inr (Or.inr (Or.inr (Or.inr ⟨_, rfl, Or.inr rfl⟩)))
        · rw [if_neg hc]
          split
          · rename_i h1; exact Or.inr (Or.inr (Or.inr (Or.inl ⟨rfl, Or.inr h1⟩)))
          · exact Or.inl rfl

/-- the loop over the bindings of a good run. -/
theorem letLoop_cons {o : Opts} {body : Exp} {x : Id} {r : Exp} {ids : List Id} {rands : List Exp} {l : LetLoop}
    (hg : AllGood (letLoop o body (x :: ids) (r :: rands) l).acts) :
    letLoop o body (x :: ids) (r :: rands) l = letLoop o body ids rands { l with outIds := x :: l.outIds, outRands := r :: l.outRands } ∨
    (letLoop o body (x :: ids) (r :: rands) l = letLoop o body ids rands { l with acts := .drop r :: l.acts } ∧ refCount x body = 0 ∧ removable r = true ∧ plain r = true) ∨
    (∃ a, letLoop o body (x :: ids) (r :: rands) l = letLoop o body ids rands { l with substs := ⟨x, r, none⟩ :: l.substs, acts := a :: l.acts } ∧
      ((refCount x body = 1 ∧ transparent r = true) ∨ cheapTransparent o.cexp r = true ∨ zeroCost o.cexp r = true)) := by
  rcases decide_cases o x r body with h | ⟨h, h1, h2⟩ | ⟨h, h1, h2⟩ | ⟨h, h1⟩ | ⟨a, ha, h | h⟩
  · rw [letLoop, h]; exact Or.inl rfl
  · rw [letLoop, h] at hg ⊢
    exact Or.inr (Or.inl ⟨rfl, h1, h2, hg (.drop r) (letLoop_acts _ _ _ _ (by simp))⟩)
  · rw [letLoop, h]; exact Or.inr (Or.inr ⟨_, rfl, Or.inl ⟨h1, h2⟩⟩)
  · rw [letLoop, h]; exact Or.inr (Or.inr ⟨_, rfl, Or.inr h1⟩)
  · rw [letLoop, h] at hg
    have := hg a (letLoop_acts _ _ _ _ (by simp))
    rw [ha] at this; cases this
  · rw [letLoop, h] at hg
    have := hg a (letLoop_acts _ _ _ _ (by simp))
    rw [ha] at this; cases this

/-! ### no new references -/

/-- `z` is not referenced in the replacements, and there are no partial substitutions. -/
def OutOf (z : Id) (s : List Entry) : Prop := ∀ en ∈ s, occ z en.exp = 0

/-- there are no partial substitutions. -/
def Full (s : List Entry) : Prop := ∀ en ∈ s, en.head = none

theorem letLoop_full {o : Opts} {body : Exp} : ∀ (ids : List Id) (rands : List Exp) (l : LetLoop), AllGood (letLoop o body ids rands l).acts →
    Full l.substs → Full (letLoop o body ids rands l).substs := by
  intro ids
  induction ids with
  | nil => intro rands l _ h; simp only [letLoop]; exact h
  | cons x ids ih =>
    intro rands l hg h
    cases rands with
    | nil => simp only [letLoop]; exact h
    | cons r rands =>
      rcases letLoop_cons hg with e | ⟨e, _⟩ | ⟨a, e, _⟩
      · rw [e] at hg ⊢; exact ih rands _ hg h
      · rw [e] at hg ⊢; exact ih rands _ hg h
      · rw [e] at hg ⊢
        refine ih rands _ hg ?_
        intro en hen
        rcases List.mem_cons.mp hen with rfl | hen
        · rfl
        · exact h en hen

theorem letLoop_out {o : Opts} {body : Exp} {z : Id} : ∀ (ids : List Id) (rands : List Exp) (l : LetLoop), AllGood (letLoop o body ids rands l).acts →
    (∀ r ∈ rands, occ z r = 0) → (∀ r ∈ l.outRands, occ z r = 0) → OutOf z l.substs →
    (∀ r ∈ (letLoop o body ids rands l).outRands, occ z r = 0) ∧ OutOf z (letLoop o body ids rands l).substs := by
  intro ids
  induction ids with
  | nil => intro rands l _ _ h1 h2; simp only [letLoop]; exact ⟨h1, h2⟩
  | cons x ids ih =>
    intro rands l hg hr h1 h2
    cases rands with
    | nil => simp only [letLoop]; exact ⟨h1, h2⟩
    | cons r rands =>
      have hr0 := hr r (by simp)
      have hrs : ∀ a ∈ rands, occ z a = 0 := fun a ha => hr a (by simp [ha])
      have ho : ∀ a ∈ r :: l.outRands, occ z a = 0 := fun a ha => by
        rcases List.mem_cons.mp ha with rfl | ha
        · exact hr0
        · exact h1 a ha
      rcases letLoop_cons hg with e | ⟨e, _⟩ | ⟨a, e, _⟩
      · rw [e] at hg ⊢; exact ih rands _ hg hrs ho h2
      · rw [e] at hg ⊢; exact ih rands _ hg hrs h1 h2
      · rw [e] at hg ⊢
        refine ih rands _ hg hrs h1 ?_
        intro en hen
        rcases List.mem_cons.mp hen with rfl | hen
        · exact hr0
        · exact h2 en hen

theorem headOf_eq (o : Opts) (n : Nat) {s : List Entry} (hs : Full s) (f : Exp) : (∃ x, f = .var x ∧ headOf o n s f = (sb s (.var x), [])) ∨ headOf o n s f = bs o n s f := by
  cases f with
  | var x =>
    refine Or.inl ⟨x, rfl, ?_⟩
    rw [headOf, sb]
    cases h : find x s with
    | none => rfl
    | some en => simp only [hs en (find_mem h).1]
  | _ => exact Or.inr rfl

/-- The pass makes no new references. -/
theorem occ_bs (o : Opts) (z : Id) : ∀ (n : Nat) (s : List Entry) (e : Exp), Full s → OutOf z s → occ z e = 0 → AllGood (bs o n s e).2 → occ z (bs o n s e).1 = 0 := by
  intro n
  induction n with
  | zero => intro s e _ _ _ hg; exact absurd (hg .fuel (by simp [bs])) (by simp [Act.good])
  | succ n ih =>
    intro s e hf hs h0 hg
    have lists : ∀ es : List Exp, occs z es = 0 → AllGood (snds (es.map (bs o n s))) → ∀ r ∈ fsts (es.map (bs o n s)), occ z r = 0 := by
      intro es h1 h2 r hr
      rw [fsts_map] at hr
      obtain ⟨e, he, rfl⟩ := List.mem_map.mp hr
      exact ih s e hf hs (occs_zero.mp h1 e he) (h2.snds e he)
    cases e with
    | var x =>
      rw [bs]
      cases h : find x s with
      | none => exact h0
      | some en => exact hs en (find_mem h).1
    | set x e => rw [bs] at hg ⊢; exact ih s e hf hs h0 hg
    | ite a b c =>
      rw [bs] at hg ⊢
      simp only [occ] at h0 ⊢
      rw [ih s a hf hs (by omega) hg.left.left, ih s b hf hs (by omega) hg.left.right, ih s c hf hs (by omega) hg.right]
    | prim eff p es => rw [bs] at hg ⊢; exact occs_zero.mpr (lists es h0 hg)
    | lam ids b => rw [bs] at hg ⊢; exact ih s b hf hs h0 hg
    | fix ids lams b =>
      rw [bs] at hg ⊢
      simp only [occ] at h0 ⊢
      rw [occs_zero.mpr (lists lams (by omega) hg.left), ih s b hf hs (by omega) hg.right]
    | letcc x b => rw [bs] at hg ⊢; exact ih s b hf hs h0 hg
    | withcc k e =>
      rw [bs] at hg ⊢
      simp only [occ] at h0 ⊢
      rw [ih s k hf hs (by omega) hg.left, ih s e hf hs (by omega) hg.right]
    | app f es =>
      simp only [occ] at h0
      rcases bs_app o n s f es with ⟨b, rfl, rfl, e⟩ | ⟨x, r, rfl, rfl, e⟩ | ⟨ids, body, rfl, _, _, e⟩ | ⟨_, _, e⟩ | ⟨_, _, e⟩
      · rw [e] at hg ⊢; exact ih s b hf hs (by simp only [occ] at h0; omega) hg
      · rw [e] at hg ⊢; exact ih s r hf hs (by simp only [occs] at h0; omega) hg
      · rw [e] at hg ⊢
        simp only [occ] at h0
        have hl := letLoop_out (z := z) ids (fsts (es.map (bs o n s))) ⟨[], [], s, []⟩ hg.right.left (lists es (by omega) hg.left) (fun _ h => by cases h) hs
        have hfl := letLoop_full ids (fsts (es.map (bs o n s))) ⟨[], [], s, []⟩ hg.right.left hf
        have hb := ih _ body hfl hl.2 (by omega) hg.right.right
        simp only
        split
        · exact hb
        · simp only [letExp, occ]; rw [hb, occs_zero.mpr hl.1]
      all_goals
        rw [e] at hg ⊢
        have hh : occ z (headOf o n s f).1 = 0 := by
          rcases headOf_eq o n hf f with ⟨x, rfl, e1⟩ | e1
          · rw [e1, sb]
            cases h : find x s with
            | none => simp only [occ] at h0 ⊢; omega
            | some en => exact hs en (find_mem h).1
          · have := hg.left
            rw [e1] at this ⊢; exact ih s f hf hs (by omega) this
      · have he' : occ z (.app (headOf o n s f).1 (fsts (es.map (bs o n s)))) = 0 := by
          rw [occ, hh, occs_zero.mpr (lists es (by omega) hg.right.left)]
        exact ih s _ hf hs he' hg.right.right
      · rw [occ, hh, occs_zero.mpr (lists es (by omega) hg.right)]

/-! ### replacements that are not needed -/

theorem find_append {x : Id} {s : List Entry} (hs : ∀ en ∈ s, en.id ≠ x) : ∀ u : List Entry, find x (u ++ s) = find x u := by
  intro u
  induction u with
  | nil => rw [List.nil_append, find_none.mpr hs]; rfl
  | cons n u ih => rw [List.cons_append, find, find, ih]

theorem letLoop_append {o : Opts} {body : Exp} (s : List Entry) : ∀ (ids : List Id) (rands : List Exp) (l : LetLoop),
    letLoop o body ids rands { l with substs := l.substs ++ s } =
      { letLoop o body ids rands l with substs := (letLoop o body ids rands l).substs ++ s } := by
  intro ids
  induction ids with
  | nil => intro rands l; simp only [letLoop]
  | cons x ids ih =>
    intro rands l
    cases rands with
    | nil => simp only [letLoop]
    | cons r rands =>
      rw [letLoop, letLoop]
      cases decideLet o x r body with
      | pass => exact ih rands { l with outIds := x :: l.outIds, outRands := r :: l.outRands }
      | skip => exact ih rands { l with acts := .drop r :: l.acts }
      | subst a => exact ih rands { l with substs := ⟨x, r, none⟩ :: l.substs, acts := a :: l.acts }
      | partially a => exact ih rands { outIds := x :: l.outIds, outRands := r :: l.outRands, substs := ⟨x, .var x, some r⟩ :: l.substs, acts := a :: l.acts }

/-- Replacements of variables that do not occur do not matter. -/
theorem bs_append (o : Opts) (s : List Entry) (hfs : Full s) : ∀ (n : Nat) (u : List Entry) (e : Exp), Full u → (∀ en ∈ s, OutOf en.id u ∧ occ en.id e = 0) →
    AllGood (bs o n (u ++ s) e).2 → bs o n (u ++ s) e = bs o n u e := by
  intro n
  induction n with
  | zero => intro u e _ _ _; rfl
  | succ n ih =>
    intro u e hf hs hg
    have lists : ∀ es : List Exp, (∀ en ∈ s, occs en.id es = 0) → AllGood (snds (es.map (bs o n (u ++ s)))) → es.map (bs o n (u ++ s)) = es.map (bs o n u) := by
      intro es h1 h2
      exact List.map_congr_left (fun e he => ih u e hf (fun en hen => ⟨(hs en hen).1, occs_zero.mp (h1 en hen) e he⟩) (h2.snds e he))
    cases e with
    | var x =>
      rw [bs, bs, find_append]
      intro en hen h
      have := (hs en hen).2
      rw [h] at this; simp [occ] at this
    | set x e => rw [bs] at hg; rw [bs, bs, ih u e hf hs hg]
    | ite a b c =>
      rw [bs] at hg
      simp only [occ] at hs
      rw [bs, bs, ih u a hf (fun en hen => ⟨(hs en hen).1, by have := (hs en hen).2; omega⟩) hg.left.left,
        ih u b hf (fun en hen => ⟨(hs en hen).1, by have := (hs en hen).2; omega⟩) hg.left.right,
        ih u c hf (fun en hen => ⟨(hs en hen).1, by have := (hs en hen).2; omega⟩) hg.right]
    | prim eff p es => rw [bs] at hg; rw [bs, bs, lists es (fun en hen => (hs en hen).2) hg]
    | lam ids b => rw [bs] at hg; rw [bs, bs, ih u b hf hs hg]
    | fix ids lams b =>
      rw [bs] at hg
      simp only [occ] at hs
      rw [bs, bs, lists lams (fun en hen => by have := (hs en hen).2; omega) hg.left, ih u b hf (fun en hen => ⟨(hs en hen).1, by have := (hs en hen).2; omega⟩) hg.right]
    | letcc x b => rw [bs] at hg; rw [bs, bs, ih u b hf hs hg]
    | withcc k e =>
      rw [bs] at hg
      simp only [occ] at hs
      rw [bs, bs, ih u k hf (fun en hen => ⟨(hs en hen).1, by have := (hs en hen).2; omega⟩) hg.left,
        ih u e hf (fun en hen => ⟨(hs en hen).1, by have := (hs en hen).2; omega⟩) hg.right]
    | app f es =>
      simp only [occ] at hs
      have hes : ∀ en ∈ s, occs en.id es = 0 := fun en hen => by have := (hs en hen).2; omega
      by_cases h0 : isNullLet (.app f es) = true
      · unfold isNullLet at h0
        split at h0
        · rename_i b heq
          cases heq
          exact ih u b hf (fun en hen => ⟨(hs en hen).1, by have := (hs en hen).2; simp only [occ] at this; omega⟩) hg
        · cases h0
      have h0' : isNullLet (.app f es) = false := by simpa using h0
      rw [bs_app_eq o n _ f es h0'] at hg ⊢
      rw [bs_app_eq o n _ f es h0']
      clear h0 h0'
      unfold bsApp at hg ⊢
      by_cases h1 : isIdLet (.app f es) = true
      · rw [if_pos h1] at hg ⊢
        rw [if_pos h1]
        clear h1
        split
        · rename_i r
          exact ih u r hf (fun en hen => ⟨(hs en hen).1, by have := hes en hen; simp only [occs] at this; omega⟩) hg
        · rfl
      · rw [if_neg h1] at hg ⊢
        rw [if_neg h1]
        by_cases h2 : isLet (.app f es) = true
        · rw [if_pos h2] at hg ⊢
          rw [if_pos h2]
          clear h1 h2
          split
          · rename_i ids body
            simp only at hg ⊢
            have hL := lists es hes hg.left
            have hll := letLoop_append (o := o) (body := body) s ids (fsts (es.map (bs o n u))) ⟨[], [], u, []⟩
            simp only at hll
            rw [hL, hll] at hg
            rw [hL, hll]
            simp only at hg ⊢
            rw [ih _ body (letLoop_full ids _ _ hg.right.left hf) (fun en hen => ⟨?_, ?_⟩) hg.right.right]
            · refine (letLoop_out ids _ _ hg.right.left ?_ (fun _ h => by cases h) (hs en hen).1).2
              intro r hr
              rw [fsts_map] at hr
              obtain ⟨e, he, rfl⟩ := List.mem_map.mp hr
              exact occ_bs o en.id n u e hf (hs en hen).1 (occs_zero.mp (hes en hen) e he) (hg.left.snds e he)
            · have := (hs en hen).2; simp only [occ] at this; omega
          · rfl
        · rw [if_neg h2] at hg ⊢
          rw [if_neg h2]
          have hfs' : Full (u ++ s) := fun en hen => by
            rcases List.mem_append.mp hen with h | h
            · exact hf en h
            · exact hfs en h
          have hfo : ∀ en ∈ s, occ en.id f = 0 := fun en hen => by have := (hs en hen).2; omega
          have hgh : AllGood (headOf o n (u ++ s) f).2 := by
            simp only at hg
            split at hg <;> exact hg.left
          have hgs : AllGood (snds (es.map (bs o n (u ++ s)))) := by
            simp only at hg
            split at hg
            · exact hg.right.left
            · exact hg.right
          have hh : headOf o n (u ++ s) f = headOf o n u f := by
            cases f with
            | var x =>
              simp only [headOf]
              rw [find_append]
              intro en hen h
              have := hfo en hen
              rw [h] at this; simp [occ] at this
            | _ => exact ih u _ hf (fun en hen => ⟨(hs en hen).1, hfo en hen⟩) hgh
          have hL := lists es hes hgs
          rw [hh] at hgh
          rw [hL] at hgs
          simp only at hg ⊢
          rw [hh, hL] at hg
          rw [hh, hL]
          split
          · rename_i h3
            rw [if_pos h3] at hg
            rw [ih u _ hf (fun en hen => ⟨(hs en hen).1, ?_⟩) hg.right.right]
            rw [occ]
            have h4 : occ en.id (headOf o n u f).1 = 0 := by
              rcases headOf_eq o n hf f with ⟨x, rfl, e1⟩ | e1
              · rw [e1, sb]
                cases h : find x u with
                | none => exact hfo en hen
                | some en' => exact (hs en hen).1 en' (find_mem h).1
              · have := hgh
                rw [e1] at this ⊢; exact occ_bs o en.id n u f hf (hs en hen).1 (hfo en hen) this
            have h5 : occs en.id (fsts (es.map (bs o n u))) = 0 := by
              rw [occs_zero]
              intro r hr
              rw [fsts_map] at hr
              obtain ⟨e, he, rfl⟩ := List.mem_map.mp hr
              exact occ_bs o en.id n u e hf (hs en hen).1 (occs_zero.mp (hes en hen) e he) (hgs.snds e he)
            omega
          · rfl

end Verif.Beta

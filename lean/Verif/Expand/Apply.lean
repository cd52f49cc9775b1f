import Verif.Expand.Rel
/-
Corresponding uses of corresponding macros expand to corresponding forms; `reduce-env` changes nothing.
-/
namespace Verif.Expand
open Verif.Macros

/-- a correspondence for which ids from `idn` on are fresh. -/
structure Good (N : IdRel) (sh : Nat) (gl : Bool) (R : IdRel) (e e' : Env) (idn : Nat) : Prop extends Link N sh gl R e e' where
  fresh : ∀ s s', R s s' → ∀ a, s.2.1 = .num a → a < idn
  envFresh : ∀ a, (assv (.num a) e).isSome = true → a < idn

theorem assv_mem_pair {V : Type} {k : Key} {v : V} : ∀ {l : List (Key × V)}, assv k l = some v → (k, v) ∈ l
  | [], h => by cases h
  | (k', v') :: l, h => by
    simp only [assv] at h
    split at h
    · rename_i hk
      cases h; subst hk; simp
    · exact List.mem_cons_of_mem _ (assv_mem_pair h)

theorem lookupSid_ok {e : Env} (hv : ∀ p ∈ e, ∃ n, p.2 = Key.num n) (id : Key) {loc : Key} (hl : loc ∉ unsafeLocs) :
    lookupSid id loc e ∉ unsafeLocs := by
  simp only [lookupSid]
  cases h : assv id e with
  | none => exact hl
  | some v =>
    obtain ⟨n, hn⟩ := hv _ (assv_mem_pair h)
    simp only at hn
    subst hn
    simp [unsafeLocs]

theorem Good.fresh' {N : IdRel} {sh : Nat} {gl : Bool} {R : IdRel} {e e' : Env} {idn : Nat} (hg : Good N sh gl R e e' idn) :
    ∀ s s', R s s' → ∀ a', s'.2.1 = .num a' → a' < idn + sh := by
  intro s s' hs a' ha'
  obtain ⟨a, ha⟩ := hg.num' s s' hs a' ha'
  obtain ⟨b, hb, hle⟩ := hg.num s s' hs a ha
  have := hg.fresh s s' hs a ha
  rw [ha'] at hb
  cases hb
  omega

theorem Good.new {N : IdRel} {sh : Nat} {gl : Bool} {R Rm : IdRel} {e e' : Env} {idn : Nat} {m m' : Macro} {lits lits' : List Key}
    (hg : Good N sh gl R e e' idn) (hm : MacRel N sh gl Rm m m') (hl : List.Forall₂ (idR Rm) lits lits') (hn : lits.Nodup) :
    Good N sh gl (fun s s' => R s s' ∨ newR Rm m m' idn (idn + sh) lits lits' s s') e e' (idn + lits.length) := by
  have hlen : ∀ t t', Rm t t' → (memv t'.2.1 lits').length = (memv t.2.1 lits).length := fun t t' h =>
    (memv_rel hm ⟨t, t', h, rfl, rfl⟩ hl).symm
  refine { clo := hg.clo, name := ?_, ids := ?_, det := ?_, num := ?_, num' := ?_, look := ?_, envNum := hg.envNum, ok := ?_, vals := hg.vals, vals' := hg.vals',
           fresh := ?_, envFresh := ?_ }
  · rintro s s' (h | ⟨t, t', h, _, rfl, rfl⟩)
    · exact hg.name s s' h
    · simp only [hlen t t' h, ← hm.link.look t t' h]
      have := hg.clo t t' (idn + ((memv t.2.1 lits).length - 1)) (lookupSid t.2.1 t.2.2 m.env) (hm.link.name t t' h)
      rwa [Nat.add_right_comm] at this
  · rintro s s' u u' (h | ⟨t, t', h, _, rfl, rfl⟩) (q | ⟨w, w', q, _, rfl, rfl⟩)
    · exact hg.ids s s' u u' h q
    · constructor
      · intro he
        have := hg.fresh s s' h _ he
        omega
      · intro he
        have := hg.fresh' s s' h _ he
        omega
    · constructor
      · intro he
        have := hg.fresh u u' q _ he.symm
        omega
      · intro he
        have := hg.fresh' u u' q _ he.symm
        omega
    · simp only [hlen t t' h, hlen w w' q, Key.num.injEq]
      omega
  · rintro s s' u u' (h | ⟨t, t', h, ht, rfl, rfl⟩) (q | ⟨w, w', q, hw, rfl, rfl⟩) he
    · exact hg.det s s' u u' h q he
    · have := hg.fresh s s' h _ he
      omega
    · have := hg.fresh u u' q _ he.symm
      omega
    · simp only [Key.num.injEq] at he
      have h1 := memv_length ht
      have h2 := memv_length hw
      obtain ⟨rfl, rfl⟩ := hm.link.det t t' w w' h q (memv_inj hn ht hw (by omega))
      exact ⟨rfl, rfl⟩
  · rintro s s' (h | ⟨t, t', h, _, rfl, rfl⟩) a ha
    · exact hg.num s s' h a ha
    · simp only [Key.num.injEq] at ha
      exact ⟨_, rfl, by rw [hlen t t' h]; omega⟩
  · rintro s s' (h | ⟨t, t', h, _, rfl, rfl⟩) a ha
    · exact hg.num' s s' h a ha
    · exact ⟨_, rfl⟩
  · rintro s s' (h | ⟨t, t', h, _, rfl, rfl⟩)
    · exact hg.look s s' h
    · have h1 : assv (.num (idn + ((memv t.2.1 lits).length - 1))) e = none := by
        rw [← Option.not_isSome_iff_eq_none]
        intro hs
        have := hg.envFresh _ hs
        omega
      have h2 : assv (.num (idn + sh + ((memv t.2.1 lits).length - 1))) e' = none := by
        rw [← Option.not_isSome_iff_eq_none]
        intro hs
        obtain ⟨a, ha, hle⟩ := hg.envNum _ hs
        have := hg.envFresh _ ha
        omega
      simp only [hlen t t' h]
      simp only [lookupSid, h1, h2, Option.getD_none]
      exact hm.link.look t t' h
  · rintro hgl s s' (h | ⟨t, t', h, ht, rfl, rfl⟩)
    · exact hg.ok hgl s s' h
    · exact lookupSid_ok hm.link.vals _ (hm.link.ok hgl t t' h)
  · rintro s s' (h | ⟨t, t', h, ht, rfl, rfl⟩) a ha
    · have := hg.fresh s s' h a ha
      omega
    · simp only [Key.num.injEq] at ha
      have := memv_length ht
      omega
  · intro a ha
    have := hg.envFresh a ha
    omega

/-- corresponding uses of a macro: what is at the head of a list does not matter. -/
def UseRel (R : IdRel) (x x' : Sx) : Prop :=
  (∃ h h' t t', x = .pair h t ∧ x' = .pair h' t' ∧ SxRel R t t') ∨ (∃ a b c a' b' c', x = .sid a b c ∧ x' = .sid a' b' c')

theorem expandTemplate_rel {N : IdRel} {sh : Nat} {gl : Bool} {R Rm : IdRel} {e e' : Env} {idn : Nat} {m m' : Macro}
    (hg : Good N sh gl R e e' idn) (hm : MacRel N sh gl Rm m m') {p p' t t' : Sx} {top top' : List (Key × Sx)} (hp : SxRel Rm p p')
    (ht : SxRel Rm t t') (htop : BindRel Rm R top top') {y : Sx} {idn2 : Nat}
    (hr : expandTemplate m idn p t top = .ok (y, idn2)) :
    ∃ y' R2, expandTemplate m' (idn + sh) p' t' top' = .ok (y', idn2 + sh) ∧ (∀ s s', R s s' → R2 s s') ∧ Good N sh gl R2 e e' idn2 ∧
      SxRel R2 y y' := by
  have hids := listIds_rel hm (pred := fun id => (assv id top).isNone) (pred' := fun id => (assv id top').isNone)
    (fun a a' h => by
      have := assv_rel (P := SxRel R) hm.link h htop
      revert this
      cases assv a top <;> cases assv a' top' <;> intro this
      · rfl
      · cases this
      · cases this
      · rfl) t t' true [] [] ht .nil
  have hlits := removeDups_rel hm hids
  have hell := listIds_rel hm (pred := m.notLit) (pred' := m'.notLit) (fun a a' h => notLit_rel hm h) p p' false [] [] hp .nil
  have hex := expand_rel hm (c := mkCtx m idn p t top) (c' := mkCtx m' (idn + sh) p' t' top') rfl rfl htop hlits hell t t' top top' ht
    htop (fun id hid => ((removeDups_loop _ [] List.nodup_nil).2 id).mpr (Or.inl hid))
  simp only [expandTemplate] at hr ⊢
  revert hr hex
  cases expand (mkCtx m idn p t top) t top <;> cases expand (mkCtx m' (idn + sh) p' t' top') t' top' <;> intro hr hex
  · cases hr
  · cases hr
  · cases hex
  · cases hex with
    | ok hex =>
      simp only [Except.ok.injEq, Prod.mk.injEq] at hr
      obtain ⟨rfl, rfl⟩ := hr
      refine ⟨_, _, ?_, fun s s' h => Or.inl h, hg.new hm hlits (removeDups_loop _ [] List.nodup_nil).1, hex⟩
      simp only [Except.ok.injEq, Prod.mk.injEq, true_and]
      have := hlits.length_eq.symm
      simp only [mkCtx] at this ⊢
      omega

theorem applySynrules_rel {N : IdRel} {sh : Nat} {gl : Bool} {R Rm : IdRel} {e e' : Env} {idn : Nat} {m m' : Macro}
    (hg : Good N sh gl R e e' idn) (hm : MacRel N sh gl Rm m m') {x x' : Sx} (hx : UseRel R x x') {y : Sx} {idn2 : Nat}
    (hr : applySynrules m idn e x = .result (.ok (y, idn2))) :
    ∃ y' R2, applySynrules m' (idn + sh) e' x' = .result (.ok (y', idn2 + sh)) ∧ (∀ s s', R s s' → R2 s s') ∧ Good N sh gl R2 e e' idn2 ∧
      SxRel R2 y y' := by
  have key : ∀ (rs rs' : List (Sx × Sx)), List.Forall₂ (fun r r' => SxRel Rm r.1 r'.1 ∧ SxRel Rm r.2 r'.2) rs rs' →
      applyRules m idn e x rs = .result (.ok (y, idn2)) →
      ∃ y' R2, applyRules m' (idn + sh) e' x' rs' = .result (.ok (y', idn2 + sh)) ∧ (∀ s s', R s s' → R2 s s') ∧ Good N sh gl R2 e e' idn2 ∧
        SxRel R2 y y' := by
    intro rs rs' h
    induction h with
    | nil => intro hr; cases hr
    | cons h1 h2 ih =>
      rename_i r r' rs rs'
      obtain ⟨p, t⟩ := r
      obtain ⟨p', t'⟩ := r'
      obtain ⟨hp, ht⟩ := h1
      intro hr
      rcases hx with ⟨h, h', s, s', rfl, rfl, hs⟩ | ⟨a, b, c, a', b', c', rfl, rfl⟩
      · cases hp with
        | pair hp1 hp2 =>
          rename_i pa pa' pd pd'
          simp only [applyRules] at hr ⊢
          rw [← matches_rel hm hg.toLink pd pd' s s' hp2 hs]
          cases hmat : matches_ m e pd s with
          | false =>
            simp only [hmat, Bool.false_eq_true, if_false] at hr ⊢
            exact ih hr
          | true =>
            simp only [hmat, if_true, Outcome.result.injEq] at hr ⊢
            exact expandTemplate_rel hg hm hp2 ht (bindings_rel hm pd pd' s s' [] [] hp2 hs .nil) hr
        | _ => simp only [applyRules] at hr ⊢; exact ih hr
      · cases hp with
        | sid hp =>
          simp only [applyRules, Outcome.result.injEq] at hr ⊢
          exact expandTemplate_rel hg hm .nil ht .nil hr
        | _ => simp only [applyRules] at hr ⊢; exact ih hr
  exact key _ _ hm.rules hr

/-! ### `reduce-env` -/

theorem reduceEnv_assv (env : Env) (id : Key) : ∀ (ids : List Key) (r : Env), assv id (reduceEnv env ids r) =
    if (assv id r).isSome then assv id r else if id ∈ ids then assv id env else none
  | [], r => by
    simp only [reduceEnv, List.not_mem_nil, if_false]
    cases assv id r <;> rfl
  | k :: ids, r => by
    rw [reduceEnv, reduceEnv_assv env id ids]
    by_cases hk : (assv k r).isNone
    · rw [if_pos hk]
      cases hke : assv k env with
      | none =>
        simp only
        by_cases he : id = k
        · subst he
          simp only [List.mem_cons, true_or, if_true, hke]
          split
          · rfl
          · split <;> rfl
        · simp [he]
      | some l =>
        simp only [assv]
        by_cases he : id = k
        · subst he
          have : assv id r = none := by simpa using hk
          simp [hke, this]
        · simp [he]
    · rw [if_neg hk]
      by_cases he : id = k
      · subst he
        have : (assv id r).isSome = true := by
          cases h : assv id r <;> simp_all
        simp [this]
      · simp [he]

/-- a property of all identifiers of a form. -/
def AllSid (P : String → Key → Key → Prop) : Sx → Prop
  | .sid a b c => P a b c
  | .vec x => AllSid P x
  | .pair a d => AllSid P a ∧ AllSid P d
  | _ => True

theorem AllSid.imp {P Q : String → Key → Key → Prop} (h : ∀ a b c, P a b c → Q a b c) : ∀ (x : Sx), AllSid P x → AllSid Q x
  | .nil, _ => trivial
  | .atom _, _ => trivial
  | .sid _ _ _, hx => h _ _ _ hx
  | .vec x, hx => AllSid.imp h x hx
  | .pair a d, hx => ⟨AllSid.imp h a hx.1, AllSid.imp h d hx.2⟩

section
variable {m m1 : Macro} (hlit : m1.literals = m.literals)

theorem ell_eq {x : Sx} (h : AllSid (fun a b c => m.ell (.sid a b c) = m1.ell (.sid a b c)) x) : m.ell x = m1.ell x := by
  cases x with
  | sid a b c => exact h
  | _ => rfl

theorem ellPair_eq {x : Sx} (h : AllSid (fun a b c => m.ell (.sid a b c) = m1.ell (.sid a b c)) x) :
    m.ellPair x = m1.ellPair x := by
  cases x with
  | pair a d => exact ell_eq h.1
  | _ => rfl

theorem listIds_eq (pred : Key → Bool) : ∀ (x : Sx) (inc : Bool) (l : List Key),
    AllSid (fun a b c => m.ell (.sid a b c) = m1.ell (.sid a b c)) x → listIds m pred x inc l = listIds m1 pred x inc l
  | .nil, _, _, _ => rfl
  | .atom _, _, _, _ => rfl
  | .sid _ _ _, _, _, _ => rfl
  | .vec x, inc, l, h => by simpa only [listIds] using listIds_eq pred x inc l h
  | .pair a d, inc, l, h => by
    rcases pairCase m d with ⟨e, r, rfl, he⟩ | he
    · have he' : m1.ell e = true := by rw [← ell_eq h.2.1]; exact he
      rw [listIds_ell he, listIds_ell he', listIds_eq pred r inc l h.2.2, listIds_eq pred a true _ h.1]
    · have he' : m1.ellPair d = false := by rw [← ellPair_eq h.2]; exact he
      rw [listIds_pair he, listIds_pair he', listIds_eq pred d inc l h.2, listIds_eq pred a inc _ h.1]

include hlit

theorem notLit_eq : m1.notLit = m.notLit := by
  funext id; simp only [Macro.notLit, hlit]

theorem matches_eq (env : Env) : ∀ (p s : Sx),
    AllSid (fun a b c => m.ell (.sid a b c) = m1.ell (.sid a b c) ∧
      (b ∈ m.literals → lookupSid b c m.env = lookupSid b c m1.env)) p → matches_ m env p s = matches_ m1 env p s
  | .nil, s, _ => by simp only [matches_]
  | .atom _, s, _ => by simp only [matches_]
  | .sid a b c, s, h => by
    simp only [matches_, notLit_eq hlit]
    by_cases hb : b ∈ m.literals
    · simp only [h.2 hb]
    · simp [Macro.notLit, hb]
  | .vec x, s, h => by
    simp only [matches_]
    cases s with
    | vec y => exact matches_eq env x y h
    | _ => rfl
  | .pair a d, s, h => by
    have hd := AllSid.imp (fun _ _ _ h => h.1) _ h.2
    rcases pairCase m d with ⟨e, r, rfl, he⟩ | he
    · have he' : m1.ell e = true := by rw [← ell_eq hd.1]; exact he
      rw [matches_ell he, matches_ell he', funext fun s => matches_eq env a s h.1, funext fun s => matches_eq env r s h.2.2]
    · have he' : m1.ellPair d = false := by rw [← ellPair_eq hd]; exact he
      rw [Bool.eq_iff_iff, matches_pair he, matches_pair he']
      simp only [matches_eq env a _ h.1, matches_eq env d _ h.2]

theorem bindings_eq : ∀ (p s : Sx) (b : List (Key × Sx)),
    AllSid (fun a b c => m.ell (.sid a b c) = m1.ell (.sid a b c)) p → bindings m p s b = bindings m1 p s b
  | .nil, s, _, _ => by simp only [bindings]
  | .atom _, s, _, _ => by simp only [bindings]
  | .sid a _ c, s, _, h => by simp only [bindings, notLit_eq hlit]
  | .vec x, s, b, h => by
    simp only [bindings]
    cases s with
    | vec y => exact bindings_eq x y b h
    | _ => rfl
  | .pair a d, s, b, h => by
    rcases pairCase m d with ⟨e, r, rfl, he⟩ | he
    · have he' : m1.ell e = true := by rw [← ell_eq h.2.1]; exact he
      rw [bindings_ell he, bindings_ell he', listIds_eq _ a true [] h.1, notLit_eq hlit, bindings_eq r _ b h.2.2]
      simp only [fun x => bindings_eq a x [] h.1]
    · have he' : m1.ellPair d = false := by rw [← ellPair_eq h.2]; exact he
      cases s with
      | pair x y => rw [bindings_pair he, bindings_pair he', bindings_eq d y b h.2, bindings_eq a x _ h.1]
      | _ =>
        cases d with
        | pair e r =>
          simp only [Macro.ellPair] at he he'
          simp [bindings, he, he']
        | _ => simp [bindings]
end

/-- vectors are represented by lists. -/
def VecOk : Sx → Prop
  | .vec x => isList x = true ∧ VecOk x
  | .pair a d => VecOk a ∧ VecOk d
  | _ => True

theorem SxRel.vecOk {R : IdRel} : {x x' : Sx} → SxRel R x x' → VecOk x ∧ VecOk x'
  | _, _, .nil => ⟨trivial, trivial⟩
  | _, _, .atom _ => ⟨trivial, trivial⟩
  | _, _, .sid _ => ⟨trivial, trivial⟩
  | _, _, .vec l h => ⟨⟨l, h.vecOk.1⟩, ⟨by rw [← isList_rel h]; exact l, h.vecOk.2⟩⟩
  | _, _, .pair h1 h2 => ⟨⟨h1.vecOk.1, h2.vecOk.1⟩, ⟨h1.vecOk.2, h2.vecOk.2⟩⟩

theorem expand_eq {m m1 : Macro} {c c1 : Ctx} (hc : c.m = m) (hc1 : c1.m = m1) (hi : c1.idn = c.idn) (ht : c1.top = c.top) (hl : c1.lits = c.lits)
    (hv : c1.ellVars = c.ellVars) : ∀ (t : Sx) (b : List (Key × Sx)), m.ell t = false → checkEll m true t = true → VecOk t →
    AllSid (fun a b d => m.ell (.sid a b d) = m1.ell (.sid a b d) ∧ (m.ell (.sid a b d) = false → assv b c.top = none →
      lookupSid b d m.env = lookupSid b d m1.env)) t → expand c t b = expand c1 t b
  | .nil, _, _, _, _, _ => rfl
  | .atom _, _, _, _, _, _ => rfl
  | .sid name id loc, b, he, _, _, h => by
    simp only [expand, ht, hl, hi, hc, hc1]
    cases assv id b with
    | some v => rfl
    | none =>
      cases hta : assv id c.top with
      | some v => rfl
      | none => simp only [h.2 he hta]
  | .vec x, b, _, hck, hvo, h => by
    simp only [checkEll, Bool.and_eq_true] at hck
    have hx : m.ell x = false := by
      have := hvo.1
      cases x <;> simp_all [isList, Macro.ell]
    simp only [expand, expand_eq hc hc1 hi ht hl hv x b hx hck.2 hvo.2 h]
  | .pair a d, b, _, hck, hvo, h => by
    have hd := AllSid.imp (fun _ _ _ h => h.1) _ h.2
    have ha := AllSid.imp (fun _ _ _ h => h.1) _ h.1
    rcases pairCase m d with ⟨e, r, rfl, he⟩ | he
    · have he' : m1.ell e = true := by rw [← ell_eq hd.1]; exact he
      rw [checkEll_ell he] at hck
      simp only [Bool.and_eq_true, Bool.not_eq_true', if_true] at hck
      simp only [expand, hc, hc1, he, he', if_true, hv, listIds_eq _ a true [] ha]
      simp only [expand_eq hc hc1 hi ht hl hv a _ hck.1.1 hck.1.2 hvo.1 h.1, expand_eq hc hc1 hi ht hl hv r b hck.2.1.1 hck.2.2 hvo.2.2 h.2.2]
    · have he' : m1.ellPair d = false := by rw [← ellPair_eq hd]; exact he
      rw [checkEll_pair he] at hck
      simp only [Bool.and_eq_true, Bool.not_eq_true'] at hck
      rw [expand_pair he hc, expand_pair he' hc1, expand_eq hc hc1 hi ht hl hv a b hck.1.1.1 hck.1.1.2 hvo.1 h.1,
        expand_eq hc hc1 hi ht hl hv d b hck.1.2 hck.2 hvo.2 h.2]

end Verif.Expand

import Verif.Globals.Subst
/-
The analysis of globals makes related programs (C65).
-/
namespace Verif.Globals
open Verif.Core Verif.Sets
variable {W : Type} {M : Sem W} {Q : Op → List Exp → List Nat} {priv : Id → Bool}

/-- Variables stand for themselves. -/
def isVarE : Exp → Bool
  | .var _ => true
  | _ => false

/-- what the constants of the list are replaced by. -/
def ctxOf (M : Sem W) (Q : Op → List Exp → List Nat) (L : List Entry) : Ctx W where
  M := M
  Q := Q
  S := fun x => match assq x L with
    | some n => if isVarE n.exp then none else some n.exp
    | none => none
  rm := fun x => match assq x L with
    | some n => n.aexp.isSome
    | none => false

theorem ctx_some {L : List Entry} {x : Id} {n : Entry} (h : assq x L = some n) (hv : isVarE n.exp = false) : (ctxOf M Q L).S x = some n.exp := by
  simp [ctxOf, h, hv]

theorem ctx_none {L : List Entry} {x : Id} {n : Entry} (h : assq x L = some n) (hv : isVarE n.exp = true) : (ctxOf M Q L).S x = none := by
  simp [ctxOf, h, hv]

theorem ctx_inv {L : List Entry} {x : Id} {X : Exp} (h : (ctxOf M Q L).S x = some X) : ∃ n, assq x L = some n ∧ isVarE n.exp = false ∧ n.exp = X := by
  simp only [ctxOf] at h
  split at h
  · rename_i n hn
    split at h
    · cases h
    · rename_i hv; cases h; exact ⟨n, hn, by simpa using hv, rfl⟩
  · cases h

theorem ctx_rm {L : List Entry} {x : Id} {n : Entry} (h : assq x L = some n) : (ctxOf M Q L).rm x = n.aexp.isSome := by simp [ctxOf, h]

theorem ctx_good {L : List Entry} (h : Forms M priv L) : (ctxOf M Q L).Good where
  form := by
    intro x X hX
    obtain ⟨n, hn, hv, rfl⟩ := ctx_inv hX
    rcases (h n (assq_mem hn)).2 with ⟨e, _⟩ | ⟨e, _⟩ | ⟨e, hc, _⟩
    · rw [e] at hv; cases hv
    · exact Or.inl ⟨_, _, e⟩
    · exact Or.inr ⟨_, e, hc⟩
  closed := by
    intro x X y hX hy
    obtain ⟨n, hn, hv, rfl⟩ := ctx_inv hX
    exact h.closed (assq_mem hn) (Or.inl hy)
  glob := by
    intro x X hX
    obtain ⟨n, hn, hv, rfl⟩ := ctx_inv hX
    rw [← assq_id hn]; exact (h n (assq_mem hn)).1
  rm := by
    intro x hx
    cases hn : assq x L with
    | none => simp [ctxOf, hn] at hx
    | some n =>
      rw [ctx_rm hn] at hx
      rcases (h n (assq_mem hn)).2 with ⟨_, e⟩ | ⟨e, _⟩ | ⟨e, _⟩
      · rw [e] at hx; cases hx
      · exact ⟨_, ctx_some hn (by rw [e]; rfl)⟩
      · exact ⟨_, ctx_some hn (by rw [e]; rfl)⟩

/-- the assignment `(set! x d)` becomes what it should. -/
def SetOk (C : Ctx W) (l : List Entry) (x : Id) (d : Exp) : Prop :=
  match assq x l with
  | none => C.S x = none
  | some n =>
    match n.aexp with
    | some a => G C (.set x d) a
    | none => C.S x = none ∨ ∃ X, C.S x = some X ∧ C.rm x = false ∧ simple d = true ∧ G C d X

theorem rm_local {L : List Entry} (hF : Forms M priv L) {y : Id} (h : (ctxOf M Q L).rm y = true) (hg : y.isGlobal = false) : False := by
  obtain ⟨X, hX⟩ := (ctx_good (Q := Q) hF).rm y h
  rw [(ctx_good (Q := Q) hF).glob y X hX] at hg; cases hg

mutual
theorem pass {L l : List Entry} (hF : Forms M priv L) (hl : ∀ x n, assq x l = some n → assq x L = some n) : (e : Exp) → (∀ y ∈ binders e, y.isGlobal = false) →
    (∀ y, Free y e → (ctxOf M Q L).rm y = true → ∃ n, assq y l = some n) → (∀ x d, (x, d) ∈ assigns e → SetOk (ctxOf M Q L) l x d) → G (ctxOf M Q L) e (gsub l e)
  | .var x, _, hr, _ => by
    simp only [gsub]
    cases hn : assq x l with
    | none =>
      refine .var ?_
      by_contra hc
      obtain ⟨n, h⟩ := hr x .var (by simpa using hc)
      rw [hn] at h; cases h
    | some n =>
      have hN := hl x n hn
      simp only
      cases hv : isVarE n.exp with
      | false => exact .inl (ctx_some hN hv)
      | true =>
        rcases (hF n (assq_mem hN)).2 with ⟨e, e'⟩ | ⟨e, _⟩ | ⟨e, _⟩
        · rw [e, assq_id hN]; exact .var (by rw [ctx_rm hN, e']; rfl)
        · rw [e] at hv; cases hv
        · rw [e] at hv; cases hv
  | .set x e, hb, hr, hs => by
    have ih := pass hF hl e (fun y hy => hb y (by simpa [binders] using hy)) (fun y hy => hr y (.set x hy)) (fun y d hm => hs y d (by simp [assigns, hm]))
    have h := hs x e (by simp [assigns])
    simp only [SetOk] at h
    simp only [gsub]
    cases hn : assq x l with
    | none => rw [hn] at h; exact .set h ih
    | some n =>
      rw [hn] at h
      simp only at h ⊢
      cases ha : n.aexp with
      | some a => rw [ha] at h; exact h
      | none =>
        rw [ha] at h
        rcases h with h | ⟨X, h1, h2, h3, h4⟩
        · exact .set h ih
        · exact .setD h1 h2 h3 h4 ih
  | .ite a b c, hb, hr, hs =>
    .ite (pass hF hl a (fun y hy => hb y (by simp [binders, hy])) (fun y hy => hr y (.iteA _ _ hy)) (fun y d hm => hs y d (by simp [assigns, hm])))
      (pass hF hl b (fun y hy => hb y (by simp [binders, hy])) (fun y hy => hr y (.iteB _ _ hy)) (fun y d hm => hs y d (by simp [assigns, hm])))
      (pass hF hl c (fun y hy => hb y (by simp [binders, hy])) (fun y hy => hr y (.iteC _ _ hy)) (fun y d hm => hs y d (by simp [assigns, hm])))
  | .prim eff p es, hb, hr, hs =>
    .prim (passes hF hl es (fun y hy => hb y (by simpa [binders] using hy)) (fun y ⟨e, hm, hy⟩ => hr y (.prim _ _ hm hy)) (fun y d hm => hs y d (by simpa [assigns] using hm)))
  | .app f es, hb, hr, hs => by
    rcases gsub_app l f es with ⟨b, rfl, rfl, h1⟩ | ⟨x, a, rfl, rfl, h1⟩ | ⟨h0, h1⟩
    · rw [h1]
      exact .null (pass hF hl b (fun y hy => hb y (by simp [binders, hy])) (fun y hy => hr y (.appF _ (.lam (by simp) hy))) (fun y d hm => hs y d (by simp [assigns, hm])))
    · rw [h1]
      exact .idl (hb x (by simp [binders])) (pass hF hl a (fun y hy => hb y (by simp [binders, bindersAll, hy])) (fun y hy => hr y (.appA _ (by simp) hy)) (fun y d hm => hs y d (by simp [assigns, assignsAll, hm])))
    · rw [h1]
      exact .app h0 (pass hF hl f (fun y hy => hb y (by simp [binders, hy])) (fun y hy => hr y (.appF _ hy)) (fun y d hm => hs y d (by simp [assigns, hm])))
        (passes hF hl es (fun y hy => hb y (by simp [binders, hy])) (fun y ⟨e, hm, hy⟩ => hr y (.appA _ hm hy)) (fun y d hm => hs y d (by simp [assigns, hm])))
  | .lam ids b, hb, hr, hs => by
    refine .lam (pass hF hl b (fun y hy => hb y (by simp [binders, hy])) (fun y hy h => hr y (.lam (fun hm => ?_) hy) h) (fun y d hm => hs y d (by simpa [assigns] using hm)))
    exact rm_local hF h (hb y (by simp [binders, hm]))
  | .fix ids lams b, hb, hr, hs => by
    refine .fix (passes hF hl lams (fun y hy => hb y (by simp [binders, hy])) (fun y ⟨e, hl, hy⟩ h => hr y (.fixL _ (fun hm => ?_) hl hy) h) (fun y d hm => hs y d (by simp [assigns, hm])))
      (pass hF hl b (fun y hy => hb y (by simp [binders, hy])) (fun y hy h => hr y (.fixB _ (fun hm => ?_) hy) h) (fun y d hm => hs y d (by simp [assigns, hm])))
    · exact rm_local hF h (hb y (by simp [binders, hm]))
    · exact rm_local hF h (hb y (by simp [binders, hm]))
  | .letcc x b, hb, hr, hs => by
    refine .letcc (pass hF hl b (fun y hy => hb y (by simp [binders, hy])) (fun y hy h => hr y (.letcc (fun hm => ?_) hy) h) (fun y d hm => hs y d (by simpa [assigns] using hm)))
    exact rm_local hF h (hb y (by simp [binders, hm]))
  | .withcc k e, hb, hr, hs =>
    .withcc (pass hF hl k (fun y hy => hb y (by simp [binders, hy])) (fun y hy => hr y (.withccK _ hy)) (fun y d hm => hs y d (by simp [assigns, hm])))
      (pass hF hl e (fun y hy => hb y (by simp [binders, hy])) (fun y hy => hr y (.withccE _ hy)) (fun y d hm => hs y d (by simp [assigns, hm])))
theorem passes {L l : List Entry} (hF : Forms M priv L) (hl : ∀ x n, assq x l = some n → assq x L = some n) : (es : List Exp) → (∀ y ∈ bindersAll es, y.isGlobal = false) →
    (∀ y, (∃ e ∈ es, Free y e) → (ctxOf M Q L).rm y = true → ∃ n, assq y l = some n) → (∀ x d, (x, d) ∈ assignsAll es → SetOk (ctxOf M Q L) l x d) → Gs (ctxOf M Q L) es (gsubs l es)
  | [], _, _, _ => .nil
  | e :: es, hb, hr, hs =>
    .cons (pass hF hl e (fun y hy => hb y (by simp [bindersAll, hy])) (fun y hy => hr y ⟨e, by simp, hy⟩) (fun y d hm => hs y d (by simp [assignsAll, hm])))
      (passes hF hl es (fun y hy => hb y (by simp [bindersAll, hy])) (fun y ⟨e, hm, hy⟩ => hr y ⟨e, by simp [hm], hy⟩) (fun y d hm => hs y d (by simp [assignsAll, hm])))
end

mutual
theorem simple_assigns : (e : Exp) → simple e = true → assigns e = []
  | .var _, _ => rfl
  | .set _ _, h => by simp [simple] at h
  | .ite _ _ _, h => by simp [simple] at h
  | .prim _ _ es, h => by simp only [simple] at h; simp only [assigns]; exact simples_assigns es h
  | .app f es, h => by
    simp only [simple, Bool.and_eq_true] at h
    simp only [assigns, simple_assigns f h.1, simples_assigns es h.2, List.append_nil]
  | .lam _ b, h => by simp only [simple] at h; simp only [assigns]; exact simple_assigns b h
  | .fix _ _ _, h => by simp [simple] at h
  | .letcc _ _, h => by simp [simple] at h
  | .withcc _ _, h => by simp [simple] at h
theorem simples_assigns : (es : List Exp) → simples es = true → assignsAll es = []
  | [], _ => rfl
  | e :: es, h => by
    simp only [simples, Bool.and_eq_true] at h
    simp only [assignsAll, simple_assigns e h.1, simples_assigns es h.2, List.append_nil]
end

mutual
/-- variables bound in assigned expressions are bound in the program. -/
theorem assigns_binders {x : Id} {d : Exp} : (e : Exp) → (x, d) ∈ assigns e → ∀ y ∈ binders d, y ∈ binders e
  | .var _, h => by simp [assigns] at h
  | .set z e, h => by
    simp only [assigns, List.mem_cons, Prod.mk.injEq] at h
    intro y hy
    rcases h with ⟨_, rfl⟩ | h
    · simpa [binders] using hy
    · simpa [binders] using assigns_binders e h y hy
  | .ite a b c, h => by
    simp only [assigns, List.mem_append] at h
    intro y hy
    simp only [binders, List.mem_append]
    rcases h with h | h | h
    · exact Or.inr (Or.inr (assigns_binders c h y hy))
    · exact Or.inr (Or.inl (assigns_binders b h y hy))
    · exact Or.inl (assigns_binders a h y hy)
  | .prim _ _ es, h => by
    simp only [assigns] at h
    simp only [binders]; exact assignsAll_binders es h
  | .app f es, h => by
    simp only [assigns, List.mem_append] at h
    intro y hy
    simp only [binders, List.mem_append]
    rcases h with h | h
    · exact Or.inr (assignsAll_binders es h y hy)
    · exact Or.inl (assigns_binders f h y hy)
  | .lam _ b, h => by
    simp only [assigns] at h
    intro y hy
    simp only [binders, List.mem_append]; exact Or.inr (assigns_binders b h y hy)
  | .fix _ lams b, h => by
    simp only [assigns, List.mem_append] at h
    intro y hy
    simp only [binders, List.mem_append]
    rcases h with h | h
    · exact Or.inr (Or.inl (assignsAll_binders lams h y hy))
    · exact Or.inr (Or.inr (assigns_binders b h y hy))
  | .letcc _ b, h => by
    simp only [assigns] at h
    intro y hy
    simp only [binders, List.mem_cons]; exact Or.inr (assigns_binders b h y hy)
  | .withcc k e, h => by
    simp only [assigns, List.mem_append] at h
    intro y hy
    simp only [binders, List.mem_append]
    rcases h with h | h
    · exact Or.inr (assigns_binders e h y hy)
    · exact Or.inl (assigns_binders k h y hy)
theorem assignsAll_binders {x : Id} {d : Exp} : (es : List Exp) → (x, d) ∈ assignsAll es → ∀ y ∈ binders d, y ∈ bindersAll es
  | [], h => by simp [assignsAll] at h
  | e :: es, h => by
    simp only [assignsAll, List.mem_append] at h
    intro y hy
    simp only [bindersAll, List.mem_append]
    rcases h with h | h
    · exact Or.inr (assignsAll_binders es h y hy)
    · exact Or.inl (assigns_binders e h y hy)
end

/-- a variable assigned once has one definition. -/
theorem assigned_once {x : Id} {d d' : Exp} : ∀ {l : List (Id × Exp)}, l.countP (fun d => d.1 = x) ≤ 1 → (x, d) ∈ l → (x, d') ∈ l → d = d' := by
  intro l
  induction l with
  | nil => intro _ h; cases h
  | cons a l ih =>
    intro hc h1 h2
    rw [List.countP_cons] at hc
    have pos : ∀ d, (x, d) ∈ l → 0 < l.countP (fun d => d.1 = x) := fun d h => List.countP_pos_iff.mpr ⟨_, h, by simp⟩
    rcases List.mem_cons.mp h1 with h1 | h1 <;> rcases List.mem_cons.mp h2 with h2 | h2
    · rw [← h1] at h2; cases h2; rfl
    · have := pos _ h2; rw [← h1] at hc; simp only [decide_true, if_true] at hc; omega
    · have := pos _ h1; rw [← h2] at hc; simp only [decide_true, if_true] at hc; omega
    · exact ih (by omega) h1 h2

/-- how many times the constants are assigned. -/
theorem defs_once {e : Exp} (hP : Proper M priv e) {x : Id} {d : Exp} (h : (x, d) ∈ defs priv e) : timesAssigned x e ≤ 1 := by
  rw [defs_eq, List.mem_filter] at h
  simp only [Bool.and_eq_true, Bool.or_eq_true, decide_eq_true_eq] at h
  obtain ⟨_, h1, h2 | h2⟩ := h
  · exact hP.once x h2
  · rw [← assignCount_times h1 hP.binders, h2]

theorem defs_ok {e : Exp} (hP : Proper M priv e) : ∀ x d, (x, d) ∈ defs priv e → DefOk M priv x d := by
  intro x d h
  rw [defs_eq, List.mem_filter] at h
  simp only [Bool.and_eq_true] at h
  obtain ⟨h, hg, _⟩ := h
  exact ⟨hg, hP.tidy x d h, fun f e => hP.call x f (e ▸ h), fun ids b e => by subst e; exact hP.closed x ids b h, fun p e => hP.const x p (e ▸ h),
    fun g l e hp => hP.recs x g l (e ▸ h) hp⟩

theorem defs_nodup {e : Exp} (hP : Proper M priv e) : ((defs priv e).map Prod.fst).Nodup := by
  rw [List.nodup_iff_count_le_one]
  intro x
  by_cases hx : x ∈ (defs priv e).map Prod.fst
  · obtain ⟨⟨x', d⟩, hm, rfl⟩ := List.mem_map.mp hx
    refine Nat.le_trans ?_ (defs_once hP hm)
    rw [List.count_eq_countP, List.countP_map, timesAssigned]
    have h1 : (defs priv e).Sublist (assigns e) := by rw [defs_eq]; exact List.filter_sublist.trans (top_sub e)
    refine Nat.le_trans (h1.countP_le (p := (fun y => y == x') ∘ Prod.fst)) (Nat.le_of_eq (List.countP_congr (fun a _ => ?_)))
    simp
  · rw [List.count_eq_zero_of_not_mem hx]; omega

/-- the program and the result of the analysis of globals are related. -/
theorem analyze_rel {e : Exp} (hP : Proper M priv e) : G (ctxOf M Q (finals priv (defs priv e))) e (analyze priv e) := by
  obtain ⟨hF, hids, hent⟩ := finals_ok _ (defs priv e) rfl (defs_ok hP)
  have hnd : ((finals priv (defs priv e)).map Entry.id).Nodup := by rw [hids]; exact List.nodup_reverse.mpr (defs_nodup hP)
  refine pass hF (fun _ _ h => h) e hP.binders (fun y _ h => ?_) (fun x d hm => ?_)
  · cases hn : assq y (finals priv (defs priv e)) with
    | none => simp [ctxOf, hn] at h
    | some n => exact ⟨n, rfl⟩
  · simp only [SetOk]
    cases hn : assq x (finals priv (defs priv e)) with
    | none => simp [ctxOf, hn]
    | some n =>
      obtain ⟨l₁, ds₁, d', ds₂, e1, e2, e3⟩ := hent n (assq_mem hn)
      have hid := assq_id hn
      subst hid
      have hmem : (n.id, d') ∈ defs priv e := by rw [e1]; simp
      have htop : (n.id, d') ∈ topDefs e := by rw [defs_eq] at hmem; exact (List.mem_filter.mp hmem).1
      have hd : d = d' := assigned_once (l := assigns e) (defs_once hP hmem) hm ((top_sub e).subset htop)
      subst hd
      have hbd : ∀ y ∈ binders d, y.isGlobal = false := fun y hy => hP.binders y (assigns_binders e hm y hy)
      -- references from the definition are replaced already
      have href : ∀ y, Free y d → (ctxOf M Q (finals priv (defs priv e))).rm y = true → ∃ m, assq y (finals priv ds₁) = some m := by
        intro y hy hr
        cases hm' : assq y (finals priv (defs priv e)) with
        | none => simp [ctxOf, hm'] at hr
        | some m =>
          rw [ctx_rm hm'] at hr
          have hpr : priv y = true := by
            have : ∀ z, (if priv z then some voidExp else none).isSome = true → priv z = true := by
              intro z h; split at h
              · assumption
              · cases h
            have hmi := assq_id hm'
            rcases (hF m (assq_mem hm')).2 with ⟨_, e⟩ | ⟨_, _, _, e⟩ | ⟨_, _, e⟩
            · rw [e] at hr; cases hr
            · rw [e, hmi] at hr; exact this y hr
            · rw [e, hmi] at hr; exact this y hr
          have key : y ∈ ds₁.map Prod.fst := by
            have hfl := defs_eq priv e
            rw [e1] at hfl
            obtain ⟨t1, t2, h1, h2, h3⟩ := List.filter_eq_append_iff.mp hfl.symm
            obtain ⟨t3, t4, h4, h5, h6, h7⟩ := List.filter_eq_cons_iff.mp h3
            have := hP.order (t1 ++ t3) n.id d t4 (by rw [h1, h4]; simp) y hpr hy
            obtain ⟨⟨y', dy⟩, hmy, rfl⟩ := List.mem_map.mp this
            have hpy : (fun d : Id × Exp => d.1.isGlobal && (priv d.1 || decide (assignCount d.1 e = 1))) (y', dy) = true := by simp [hP.global y' hpr, hpr]
            rcases List.mem_append.mp hmy with h | h
            · rw [← h2]; exact List.mem_map.mpr ⟨(y', dy), List.mem_filter.mpr ⟨h, hpy⟩, rfl⟩
            · exact absurd hpy (h5 _ h)
          have hids1 := (finals_ok (M := M) _ ds₁ rfl (fun x d h => defs_ok hP x d (by rw [e1]; simp [h]))).2.1
          cases hq : assq y (finals priv ds₁) with
          | some m => exact ⟨m, rfl⟩
          | none => rw [assq_none, hids1, List.mem_reverse] at hq; exact absurd key hq
      have hsuf : ∀ x m, assq x (finals priv ds₁) = some m → assq x (finals priv (defs priv e)) = some m := by
        intro x m h
        rw [e2] at hnd ⊢; exact assq_suffix hnd h
      have hdp : ∀ {b : Exp}, simple b = true → (∀ y ∈ binders b, y.isGlobal = false) → (∀ y, Free y b → (ctxOf M Q (finals priv (defs priv e))).rm y = true → ∃ m, assq y (finals priv ds₁) = some m) →
          G (ctxOf M Q (finals priv (defs priv e))) b (gsub (finals priv ds₁) b) := fun hs hb hr =>
        pass hF hsuf _ hb hr (fun x d h => by rw [simple_assigns _ hs] at h; cases h)
      have hvoid : ∀ a, n.aexp = some a → a = voidExp := fun a ha => hF.void n (assq_mem hn) a ha
      have keep : n = ⟨n.id, .var n.id, none⟩ → (match n.aexp with
          | some a => G (ctxOf M Q (finals priv (defs priv e))) (.set n.id d) a
          | none => (ctxOf M Q (finals priv (defs priv e))).S n.id = none ∨ ∃ X, (ctxOf M Q (finals priv (defs priv e))).S n.id = some X ∧
              (ctxOf M Q (finals priv (defs priv e))).rm n.id = false ∧ simple d = true ∧ G (ctxOf M Q (finals priv (defs priv e))) d X) := by
        intro h
        have h1 : n.aexp = none := by rw [h]
        have h2 : isVarE n.exp = true := by rw [h]; rfl
        simp only [h1]
        exact Or.inl (ctx_none hn h2)
      have hform := (hF n (assq_mem hn)).2
      rcases finalize_cases (l := finals priv ds₁) (defs_ok hP n.id d hmem) with h | ⟨h, hnf⟩ | ⟨g, ids, b, hdg, hpr, h, ht, hc⟩
      · exact keep (e3.trans h)
      · rw [h] at e3
        by_cases hs : (simple d && inlineable (gsub (finals priv ds₁) d)) = true
        · have hexp : n.exp = gsub (finals priv ds₁) d := by rw [e3, finish, if_pos hs]
          simp only [Bool.and_eq_true] at hs
          have hg := hdp hs.1 hbd href
          have hv : isVarE n.exp = false := by
            rw [hexp]
            cases hgs : gsub (finals priv ds₁) d with
            | var => rw [hgs] at hs; simp [inlineable] at hs
            | _ => rfl
          have hS : (ctxOf M Q (finals priv (defs priv e))).S n.id = some (gsub (finals priv ds₁) d) := by rw [← hexp]; exact ctx_some hn hv
          cases ha : n.aexp with
          | some a =>
            simp only [ha]
            rw [hvoid a ha]
            exact .setV hS hs.1 hg (by rw [ctx_rm hn, ha]; rfl)
          | none => simp only [ha]; exact Or.inr ⟨_, hS, by rw [ctx_rm hn, ha]; rfl, hs.1, hg⟩
        · exact keep (by rw [finish, if_neg hs] at e3; exact e3)
      · rw [h] at e3
        by_cases hs : (simple (.lam ids b) && inlineable (gsub (finals priv ds₁) (.lam ids b))) = true
        · have hexp : n.exp = .lam ids (gsub (finals priv ds₁) b) := by rw [e3, finish, if_pos hs]; simp only [gsub]
          have ha : n.aexp = some voidExp := by rw [e3, finish, if_pos hs]; simp [hpr]
          simp only [Bool.and_eq_true] at hs
          subst hdg
          have hgl : g.isGlobal = false := hbd g (by simp [binders])
          have hg := hdp (b := b) (by simpa [simple] using hs.1) (fun y hy => hbd y (by simp [binders, bindersAll, hy])) (fun y hy hr => by
            refine href y (.fixL (l := .lam ids b) _ ?_ (by simp) (.lam ?_ hy)) hr
            · intro hm; exact rm_local hF hr (hbd y (by simp at hm; simp [binders, hm]))
            · intro hm; exact rm_local hF hr (hbd y (by simp [binders, bindersAll, hm])))
          simp only [ha]
          exact .setR (by rw [← hexp]; exact ctx_some hn (by rw [hexp]; rfl)) hgl hg (by rw [ctx_rm hn, ha]; rfl)
        · exact keep (by rw [finish, if_neg hs] at e3; exact e3)

end Verif.Globals

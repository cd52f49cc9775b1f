import Verif.Stackfn.Phases
/-
Bodies without jumps: variables, conditionals, primitives, `let`.
-/
namespace Verif.Stackfn
open Verif.Core
variable {W : Type} {G : Prog W}

theorem Labs.mono {n : Nat} {B B' xs : List Id} {ρ : Env} {Γ : Labels} {N N' : Nat} (h : Labs G n B xs ρ Γ N) (hB : B' ⊆ B) (hN : N ≤ N') : Labs G n B' xs ρ Γ N' :=
  fun g ps hp => ⟨fun hb => (h g ps hp).1 (hB hb), fun p hm => by have := (h g ps hp).2.1 p hm; omega, (h g ps hp).2.2⟩

theorem Labs.env {n m : Nat} {B B' xs xs' : List Id} {ρ ρ' : Env} {Γ : Labels} {N N' : Nat} (h : Labs G n B xs ρ Γ N) (hB : B' ⊆ B) (hN : N ≤ N') (hx : xs ⊆ xs') (hm : m ≤ n)
    (hl : ∀ y, y ∈ xs ∨ y ∉ B → ρ'.lookup y = ρ.lookup y) : Labs G m B' xs' ρ' Γ N' := by
  intro g ps hp
  obtain ⟨h1, h2, xsL, ρL, val, h3, h4, h5, h6, h7, h8⟩ := h g ps hp
  refine ⟨fun hb => h1 (hB hb), fun p hm => by have := h2 p hm; omega, xsL, ρL, val, fun x hx' => hx (h3 hx'), ?_, h5, h6, ?_, fun k hk => h8 k (by omega)⟩
  · intro x hx'; rw [hl x (.inl (h3 hx'))]; exact h4 x hx'
  · rcases h7 with h7 | h7
    · exact .inl h7
    · exact .inr ⟨h7.1, by rw [hl g (.inr h1)]; exact h7.2⟩

theorem Loc.sub {B B' : List Id} {code code' : List Stmt} (h : Loc G B code) (hB : B' ⊆ B) (k' : List Stmt)
    (hf : ∀ x ∈ B', findLabel (.id x) code = (findLabel (.id x) code').map (· ++ k')) : Loc G B' code' := by
  obtain ⟨k, h⟩ := h
  refine ⟨k' ++ k, fun x hx => ?_⟩
  rw [h x (hB hx), hf x hx, Option.map_map]
  congr 1
  funext c
  simp

/-- C expressions in bodies. -/
theorem cexp_put {n : Nat} {e : Exp} {t : Tgt} {xs ls : List Id} {Γ : Labels} {N : Nat} {ρ : Env} {κ : Kont} {σ : Store W} {fr : Frame} (hc : isCexp G.T G.f e = true)
    (hS : Stat G e t xs ls Γ N) (hD : Dyn G n e t xs Γ N ρ fr σ) : Sim G.M (n + 1) (.ev e ρ κ σ) (G.ex n [.put t (cgCexp e)] fr σ) (Post G n t (binders e) N κ fr σ) :=
  sim_put rfl (Same.refl _ _ _) (cexp_ok (hD.calls n (Nat.le_refl _)) e xs ls _ ρ κ σ hc hS.ag hS.lc hD.agr hD.glob)

theorem var_ok (x : Id) : BodyOK G (.var x) := by
  intro n t xs ls Γ N ρ κ σ fr hS hD
  exact cexp_put (by simp [isCexp]) hS hD

theorem Same.agrN {B xs : List Id} {N : Nat} {a b : Frame} {ρ : Env} (h : Same B N a b) (h1 : ∀ x ∈ xs, x ∉ B) (h2 : ∀ x ∈ xs, x.ts < N) (ha : Agr xs ρ a) : Agr xs ρ b :=
  h.agr (fun x hx => ⟨h1 x hx, h2 x hx⟩) ha

/-- one branch of a conditional. -/
theorem branch {n : Nat} {e b : Exp} {t : Tgt} {xs ls : List Id} {Γ : Labels} {N m : Nat} {ρ : Env} {κ : Kont} {σ σ0 : Store W} {fr fr0 : Frame} (hb : BodyOK G b)
    (hS : Stat G e t xs ls Γ N) (hD : Dyn G n e t xs Γ N ρ fr0 σ0) (hm : N ≤ m) (hB : binders b ⊆ binders e) (ag : agStack G.f G.known b xs ls (decide (t = .ret)) = true)
    (sn : sane b Γ (decide (t = .ret)) = true) (nd : (binders b).Nodup) (hg : σ.glob = σ0.glob) (hr : Agr xs ρ fr) (B : List Id) (hs : Same B N fr0 fr) (hB' : binders b ⊆ B)
    (hl : t = .ret → Loc G (binders b) (cgBody G.T G.f b t Γ m).1) :
    Sim G.M (n + 1) (.ev b ρ κ σ) (G.ex n (cgBody G.T G.f b t Γ m).1 fr σ) (Post G n t B N κ fr0 σ0) := by
  refine (hb n t xs ls Γ m ρ κ σ fr ⟨ag, sn, nd, fun x hx => hS.lc x (hB hx), fun x hx => by have := hS.bts x (hB hx); omega, fun x hx h => hS.dis x hx (hB h),
    fun x hx => by have := hS.xts x hx; omega, fun x hx => ?_⟩ ⟨hD.calls, hr, by rw [hg]; exact hD.glob, fun h => (hD.labs h).mono hB hm, hl⟩).imp ?_
  · obtain ⟨h1, h2, h3⟩ := hS.tgt x hx
    exact ⟨h1, fun h => h2 (hB h), by omega⟩
  · intro fl s h
    exact h.weak hB' hm hg hs

theorem lexId_ts (k : Nat) : (lexId k).ts = k := rfl

theorem ite_ok {a b c : Exp} (ha : BodyOK G a) (hb : BodyOK G b) (hc : BodyOK G c) : BodyOK G (.ite a b c) := by
  intro n t xs ls Γ N ρ κ σ fr hS hD
  have nd := hS.nd
  simp only [binders, List.nodup_append] at nd
  have Bb : binders b ⊆ binders (.ite a b c) := fun x h => by simp [binders, h]
  have Bc : binders c ⊆ binders (.ite a b c) := fun x h => by simp [binders, h]
  have Ba : binders a ⊆ binders (.ite a b c) := fun x h => by simp [binders, h]
  have nbc : ∀ x ∈ binders b, x ∉ binders c := fun x h1 h2 => nd.2.1.2.2 x h1 x h2 rfl
  have nab : ∀ x ∈ binders b, x ∉ binders a := fun x h1 h2 => nd.2.2 x h2 x (by simp [h1]) rfl
  have nac : ∀ x ∈ binders c, x ∉ binders a := fun x h1 h2 => nd.2.2 x h2 x (by simp [h1]) rfl
  have ag := hS.ag
  simp only [agStack, Bool.and_eq_true] at ag
  have sn := hS.sn
  simp only [sane, Bool.and_eq_true] at sn
  by_cases h1 : (isCexp G.T G.f (.ite a b c) && !tc G.f (.ite a b c)) = true
  · have e1 : cgBody G.T G.f (.ite a b c) t Γ N = ([.put t (cgCexp (.ite a b c))], N) := by simp only [cgBody, h1, if_true]
    rw [e1]
    rw [Bool.and_eq_true] at h1
    exact cexp_put h1.1 hS hD
  by_cases h2 : isCexp G.T G.f a = true
  · have hlo := hD.loc
    simp only [cgBody, h1, h2, Bool.false_eq_true, if_false, if_true] at hlo ⊢
    have lab := (cg_labels G.T G.f)
    show Sim _ _ _ (execs _ _ _ _ _) _
    rw [execs_one, exec]
    refine Sim.step' (any_ite _ _ _ _ _ _) (Sim.bind (cexp_ok (hD.calls n (Nat.le_refl _)) a xs ls false ρ _ σ h2 ag.1.1 (fun x h => hS.lc x (Ba h)) hD.agr hD.glob) ?_)
    rintro ⟨v, σ1⟩ s ⟨rfl, hg1⟩
    refine Sim.step' (any_ret_ite _ _ _ _ _ _) ?_
    have mono := (cg_mono G.T G.f).1 b t Γ N
    cases hv : v.isFalse with
    | true =>
      simp only [if_true]
      refine branch hc hS hD mono Bc ag.2 sn.2 nd.2.1.2.1 hg1 hD.agr _ (Same.refl _ _ _) Bc (fun ht => ?_)
      refine (hlo ht).sub Bc [] (fun x hx => ?_)
      rw [findLabel_ite, (lab x).1 b t Γ N (fun h => nbc x h hx)]
      simp
    | false =>
      simp only [Bool.false_eq_true, if_false]
      refine branch hb hS hD (Nat.le_refl _) Bb ag.1.2 sn.1.2 nd.2.1.1 hg1 hD.agr _ (Same.refl _ _ _) Bb (fun ht => ?_)
      refine (hlo ht).sub Bb [] (fun x hx => ?_)
      rw [findLabel_ite, (lab x).1 c t Γ _ (nbc x hx)]
      cases findLabel (Lab.id x) (cgBody G.T G.f b t Γ N).1 <;> simp
  have hlo := hD.loc
  simp only [cgBody, h1, h2, Bool.false_eq_true, if_false] at hlo ⊢
  -- the test is computed first
  have hst : Stat G a (.var (lexId N)) xs ls Γ (N + 1) := {
    ag := by simpa using ag.1.1
    sn := by simpa using sn.1.1
    nd := nd.1
    lc := fun x h => hS.lc x (Ba h)
    bts := fun x h => by have := hS.bts x (Ba h); omega
    dis := fun x hx h => hS.dis x hx (Ba h)
    xts := fun x hx => by have := hS.xts x hx; omega
    tgt := fun x hx => by
      injection hx with hx; subst hx
      exact ⟨fun h => by have := hS.xts _ h; rw [lexId_ts] at this; omega, fun h => by have := hS.bts _ (Ba h); rw [lexId_ts] at this; omega, by rw [lexId_ts]; omega⟩ }
  have hr0 : Agr xs ρ (fr.set (lexId N) none) := (Same.set fr (lexId N) none N).agrN (fun x hx h => by
    rw [List.mem_singleton] at h; subst h; have := hS.xts _ hx; rw [lexId_ts] at this; omega) hS.xts hD.agr
  have key : ∀ rest, (∀ fr1 σ1 v, σ1.glob = σ.glob → fr1 (lexId N) = some v → Same (binders a) N fr fr1 → Agr xs ρ fr1 →
      Sim G.M (n + 1) (.ret v (.ite b c ρ κ) σ1) (G.ex n rest fr1 σ1) (Post G n t (binders (.ite a b c)) N κ fr σ)) →
      Sim G.M (n + 1) (.ev (.ite a b c) ρ κ σ) (G.ex n [.block (.decl (lexId N) none :: ((cgBody G.T G.f a (.var (lexId N)) Γ (N + 1)).1 ++ rest))] fr σ)
        (Post G n t (binders (.ite a b c)) N κ fr σ) := by
    intro rest hk
    show Sim _ _ _ (execs _ _ _ _ _) _
    rw [execs_block, execs, exec]
    refine Sim.step' (any_ite _ _ _ _ _ _) ?_
    show Sim _ _ _ (execs _ _ _ _ _) _
    refine sim_seq (Q := fun fr1 σ1 s => ∃ v, s = .ret v (.ite b c ρ κ) σ1 ∧ σ1.glob = σ.glob ∧ fr1 (lexId N) = some v ∧ Same (lexId N :: binders a) (N + 1) (fr.set (lexId N) none) fr1)
      ((ha n (.var (lexId N)) xs ls Γ (N + 1) ρ _ σ _ hst ⟨hD.calls, hr0, hD.glob, by simp, by simp⟩).imp ?_) ?_
    · rintro fl s ⟨v, fr', σ', rfl, rfl, h1, h2, h3⟩
      exact ⟨fr', σ', rfl, v, rfl, h1, h2 _ rfl, h3⟩
    rintro fr1 σ1 s ⟨v, rfl, hg1, hv, hs1⟩
    have hs : Same (binders a) N fr fr1 := by
      intro y hy hN
      have hne : y ≠ lexId N := fun e => by subst e; rw [lexId_ts] at hN; omega
      rw [hs1 y (by rw [List.mem_cons, not_or]; exact ⟨hne, hy⟩) (by omega), Frame.set, if_neg hne]
    exact hk fr1 σ1 v hg1 hv hs (hs.agrN (fun x hx h => hS.dis x hx (Ba h)) hS.xts hD.agr)
  have evtmp : ∀ (fr1 : Frame) σ1 v, fr1 (lexId N) = some v → evalC G.M (callee G.M G.P n) fr1 (.var (lexId N)) σ1 = .ok (v, σ1) := by
    intro fr1 σ1 v h
    simp only [evalC, lexId_local, Bool.false_eq_true, if_false, h]
  by_cases h3 : (isCexp G.T G.f b && isCexp G.T G.f c && !(tc G.f b || tc G.f c)) = true
  · simp only [h3, if_true] at hlo ⊢
    rw [Bool.and_eq_true, Bool.and_eq_true] at h3
    refine key _ (fun fr1 σ1 v hg1 hv hs hr => ?_)
    refine sim_put hg1 (hs.weak Ba (Nat.le_refl _)) ?_
    rw [evalC, evtmp fr1 σ1 v hv]
    simp only [Res.bind]
    refine Sim.step' (any_ret_ite _ _ _ _ _ _) ?_
    have hg' : σ1.glob G.f = some G.clos := by rw [hg1]; exact hD.glob
    cases hv' : v.isFalse with
    | true =>
      simp only [if_true]
      exact cexp_ok (hD.calls n (Nat.le_refl _)) c xs ls _ ρ κ σ1 h3.1.2 ag.2 (fun x h => hS.lc x (Bc h)) hr hg'
    | false =>
      simp only [Bool.false_eq_true, if_false]
      exact cexp_ok (hD.calls n (Nat.le_refl _)) b xs ls _ ρ κ σ1 h3.1.1 ag.1.2 (fun x h => hS.lc x (Bb h)) hr hg'
  · simp only [h3, Bool.false_eq_true, if_false] at hlo ⊢
    have m1 := (cg_mono G.T G.f).1 a (.var (lexId N)) Γ (N + 1)
    have m2 := (cg_mono G.T G.f).1 b t Γ (cgBody G.T G.f a (.var (lexId N)) Γ (N + 1)).2
    refine key _ (fun fr1 σ1 v hg1 hv hs hr => ?_)
    show Sim _ _ _ (execs _ _ _ _ _) _
    rw [execs_one, exec, evtmp fr1 σ1 v hv]
    simp only [Res.bind]
    refine Sim.step' (any_ret_ite _ _ _ _ _ _) ?_
    have lab := (cg_labels G.T G.f)
    have find : ∀ x, x ∉ binders a → findLabel (.id x) [Stmt.block (Stmt.decl (lexId N) none :: ((cgBody G.T G.f a (.var (lexId N)) Γ (N + 1)).1 ++
        [Stmt.ite (.var (lexId N)) (cgBody G.T G.f b t Γ (cgBody G.T G.f a (.var (lexId N)) Γ (N + 1)).2).1
          (cgBody G.T G.f c t Γ (cgBody G.T G.f b t Γ (cgBody G.T G.f a (.var (lexId N)) Γ (N + 1)).2).2).1]))] =
        match findLabel (.id x) (cgBody G.T G.f b t Γ (cgBody G.T G.f a (.var (lexId N)) Γ (N + 1)).2).1 with
        | some c => some c
        | none => findLabel (.id x) (cgBody G.T G.f c t Γ (cgBody G.T G.f b t Γ (cgBody G.T G.f a (.var (lexId N)) Γ (N + 1)).2).2).1 := by
      intro x hx
      rw [findLabel_block]
      show findLabel _ (_ ++ _) = _
      rw [findLabel_right ((lab x).1 a _ Γ _ hx), findLabel_ite]
      cases findLabel (.id x) (cgBody G.T G.f b t Γ (cgBody G.T G.f a (.var (lexId N)) Γ (N + 1)).2).1 <;> rfl
    cases hv' : v.isFalse with
    | true =>
      simp only [if_true]
      refine branch hc hS hD (by omega) Bc ag.2 sn.2 nd.2.1.2.1 hg1 hr _ (hs.weak Ba (Nat.le_refl _)) Bc (fun ht => ?_)
      refine (hlo ht).sub Bc [] (fun x hx => ?_)
      rw [find x (nac x hx), (lab x).1 b t Γ _ (fun h => nbc x h hx)]
      simp
    | false =>
      simp only [Bool.false_eq_true, if_false]
      refine branch hb hS hD (by omega) Bb ag.1.2 sn.1.2 nd.2.1.1 hg1 hr _ (hs.weak Ba (Nat.le_refl _)) Bb (fun ht => ?_)
      refine (hlo ht).sub Bb [] (fun x hx => ?_)
      rw [find x (nab x hx), (lab x).1 c t Γ _ (nbc x hx)]
      cases findLabel (Lab.id x) (cgBody G.T G.f b t Γ (cgBody G.T G.f a (.var (lexId N)) Γ (N + 1)).2).1 <;> simp

end Verif.Stackfn

import Verif.Unbox.Env
/-
A program and the program with unboxed values run in step (C63).
-/
namespace Verif.Unbox
open Verif.Core
open Verif.Fold (TEnv tlook exts ctype ctypes Uniform perm_one perm_two ctype_le ctypes_length ctypes_get forall₂_range)
open Verif.Beta (lookup_skip lookup_rel idxOf_none lt_of_get vals_known)
variable {W τ : Type} [DecidableEq τ] {C : Ctx W τ}

/-! ### order of operands -/

theorem flip_flip {n j : Nat} (h : j ≤ n) : flip n (flip n j) = j := by
  unfold flip
  by_cases h0 : j = 0
  · simp [h0]
  · rw [if_neg h0, if_neg (by omega)]; omega

theorem flip_le {n j : Nat} (h : j ≤ n) : flip n j ≤ n := by
  unfold flip; split <;> omega

theorem flip_inj {n i j : Nat} (hi : i ≤ n) (hj : j ≤ n) (h : flip n i = flip n j) : i = j := by
  rw [← flip_flip hi, h, flip_flip hj]

theorem flip_perm (n : Nat) : ((List.range (n + 1)).map (flip n)).Perm (List.range (n + 1)) := by
  refine (List.perm_ext_iff_of_nodup ?_ List.nodup_range).mpr (fun a => ?_)
  · refine List.Nodup.map_on (fun i hi j hj h => ?_) List.nodup_range
    simp at hi hj
    exact flip_inj (by omega) (by omega) h
  · simp only [List.mem_map, List.mem_range]
    constructor
    · rintro ⟨j, h, rfl⟩; have := flip_le (n := n) (j := j) (by omega); omega
    · intro h; exact ⟨flip n a, by have := flip_le (n := n) (j := a) (by omega); omega, flip_flip (by omega)⟩

theorem srcOrder_fair {Q : Op → List Exp → List Nat} (hQ : FairOrder Q) : FairOrder (srcOrder Q) := by
  intro op es
  cases op with
  | prim eff p => exact hQ (.prim eff p) es
  | call =>
    simp only [srcOrder]
    split
    · rename_i h
      cases es with
      | nil => simp [isLetL] at h
      | cons e es =>
        exact ((hQ .call (e :: es)).map _).trans (by simpa using flip_perm es.length)
    · exact hQ .call es

/-! ### typing -/

theorem can_none {t : CTypes τ} {Γ : TEnv τ} {e : Exp} {D : Option τ} (h1 : ctype t.toTypes Γ e = none) (h : Can t Γ e D) : D = none := by
  cases D with
  | none => rfl
  | some T => have := h T rfl; rw [h1] at this; cases this

theorem can_app {t : CTypes τ} {Γ : TEnv τ} {f : Exp} {es : List Exp} {D : Option τ} (hn : isLetL (f :: es) = false) (h : Can t Γ (.app f es) D) : D = none := by
  refine can_none ?_ h
  cases f with
  | lam ids b =>
    simp only [isLetL, decide_eq_false_iff_not] at hn
    simp only [ctype, if_neg hn]
  | _ => simp [ctype]

theorem can_let {t : CTypes τ} {Γ : TEnv τ} {ids : List Id} {b : Exp} {es : List Exp} {D : Option τ} (hl : ids.length = es.length) (h : Can t Γ (.app (.lam ids b) es) D) :
    Can t (exts ids (ctypes t.toTypes Γ es) Γ) b D := by
  intro T hT
  have := h T hT
  simpa only [ctype, if_pos hl] using this

theorem can_ite {t : CTypes τ} {Γ : TEnv τ} {a b c : Exp} {D : Option τ} (h : Can t Γ (.ite a b c) D) : Can t Γ b D ∧ Can t Γ c D := by
  constructor
  · intro T hT
    have := h T hT
    simp only [ctype] at this
    split at this
    · rename_i h1 h2
      split at this
      · rename_i e; subst e; injection this with this; subst this; exact h1
      · cases this
    · cases this
  · intro T hT
    have := h T hT
    simp only [ctype] at this
    split at this
    · rename_i h1 h2
      split at this
      · rename_i e; subst e; injection this with this; subst this; exact h2
      · cases this
    · cases this

/-! ### a `let` with one variable -/

theorem beg_in {M : Sem W} {Q : Op → List Exp → List Nat} {has : τ → View → Bool} {ct : Id → Option τ} (hQ : FairOrder Q) (x : Id) (b e : Exp) (ρ : Env) (κ : Kont) (σ : Store W) :
    ∃ d todo, Wait x b ρ d todo ∧ Quiet (ustep M Q has ct) (.ev (.app (.lam [x] b) [e]) ρ κ σ) (.ev e ρ (.args .call [.lam [x] b, e] d 1 todo ρ κ) σ) := by
  have hp := hQ .call [.lam [x] b, e]
  rcases perm_two hp with h | h
  · refine ⟨upd (fun _ => .trap) 0 (.clos [x] b ρ), [], Or.inr ⟨rfl, rfl⟩, ?_⟩
    have h0 : ustep M Q has ct (.ev (.app (.lam [x] b) [e]) ρ κ σ) = some (.args .call [.lam [x] b, e] (fun _ => .trap) [0, 1] ρ κ σ) := by simp [ustep, step, h]
    exact .step h0 rfl (.step rfl rfl (.step rfl rfl (.step rfl rfl (.one rfl rfl))))
  · refine ⟨fun _ => .trap, [0], Or.inl rfl, ?_⟩
    have h0 : ustep M Q has ct (.ev (.app (.lam [x] b) [e]) ρ κ σ) = some (.args .call [.lam [x] b, e] (fun _ => .trap) [1, 0] ρ κ σ) := by simp [ustep, step, h]
    exact .step h0 rfl (.one rfl rfl)

theorem beg_out {M : Sem W} {Q : Op → List Exp → List Nat} {has : τ → View → Bool} {ct : Id → Option τ} {x : Id} {b e : Exp} {ρ : Env} {d : Nat → Val} {todo : List Nat} (hw : Wait x b ρ d todo) (κ : Kont) (σ : Store W) (v : Val) :
    Quiet (ustep M Q has ct) (.ret v (.args .call [.lam [x] b, e] d 1 todo ρ κ) σ) (.ap (.clos [x] b ρ) [v] κ σ) := by
  rcases hw with rfl | ⟨rfl, h0⟩
  · refine .step rfl rfl (.step rfl rfl (.step rfl rfl (.step rfl rfl (.one ?_ rfl))))
    simp [ustep, step, vals, List.range_succ, upd]
  · have h1 : ustep M Q has ct (.args .call [.lam [x] b, e] (upd d 1 v) [] ρ κ σ) = some (.ap (.clos [x] b ρ) [v] κ σ) := by
      simp [ustep, step, vals, List.range_succ, upd, h0]
    exact .step rfl rfl (.one h1 rfl)

/-! ### evaluation -/

/-- `s` fails, both finish alike, or both get to related states. -/
def Next (C : Ctx W τ) (s t : State W) : Prop :=
  Fails C.src s ∨ (∃ v v' w, Quiet C.src s (.done v w) ∧ Quiet C.tgt t (.done v' w) ∧ v.view = v'.view) ∨
  (∃ s' t', Move C.src s s' ∧ Move C.tgt t t' ∧ Sync C s' t')

theorem Next.left {s s' t : State W} (h : Quiet C.src s s') (ho : Next C s' t) : Next C s t := by
  rcases ho with hf | ⟨v, v', w, h1, h2, hv⟩ | ⟨a, b, h1, h2, hs⟩
  · exact Or.inl (hf.of_reach h.reach)
  · exact Or.inr (Or.inl ⟨v, v', w, h.trans h1, h2, hv⟩)
  · exact Or.inr (Or.inr ⟨a, b, h1.before h, h2, hs⟩)

theorem Next.right {s t t' : State W} (h : Quiet C.tgt t t') (ho : Next C s t') : Next C s t := by
  rcases ho with hf | ⟨v, v', w, h1, h2, hv⟩ | ⟨a, b, h1, h2, hs⟩
  · exact Or.inl hf
  · exact Or.inr (Or.inl ⟨v, v', w, h1, h.trans h2, hv⟩)
  · exact Or.inr (Or.inr ⟨a, b, h1, h2.before h, hs⟩)

theorem Next.sync {s s' t t' : State W} (h1 : C.src s = some s') (h2 : C.tgt t = some t') (hs : Sync C s' t') : Next C s t :=
  Or.inr (Or.inr ⟨s', t', .one h1, .one h2, hs⟩)

theorem Next.moves {s s' t t' : State W} (h1 : Move C.src s s') (h2 : Move C.tgt t t') (hs : Sync C s' t') : Next C s t :=
  Or.inr (Or.inr ⟨s', t', h1, h2, hs⟩)

theorem Next.fail {s t : State W} (h : C.src s = none) (hd : ∀ v w, s ≠ .done v w) : Next C s t := Or.inl (Fails.now h hd)

/-- the tables are right. -/
abbrev Ctx.Honest (C : Ctx W τ) : Prop := Unbox.Honest C.M C.t C.has

theorem ev_ok (hQ : FairOrder C.Q) (hU : Uniform C.Q) (hh : C.Honest) : {e e' : Exp} → {Γ : TEnv τ} → {s : Id → Id} → C.U Γ s e e' → ∀ {D : Option τ} {ρ ρt : Env} {κ κ' : Kont} {σ σt : Store W},
    Can C.t Γ e' D → C.Good Γ ρt → ER C s (Free · e) ρ ρt → KR C D κ κ' → SR C σ σt →
    Next C (.ev e ρ κ σ) (.ev e' ρt κ' σt)
  | _, _, Γ, s, .var (x := x) h1 h2, D, ρ, ρt, κ, κ', σ, σt, hc, hG, he, hk, hs => by
    cases hgl : x.isGlobal with
    | true =>
      rw [h1 hgl] at hc ⊢
      rcases hs.glob x with ⟨h1, _⟩ | ⟨v, w, h1, h2, h3⟩
      · exact .fail (by simp [ustep, step, hgl, h1]) (fun _ _ => by simp)
      · refine .sync (s' := .ret v κ σ) (t' := .ret w κ' σt) (by simp [ustep, step, hgl, h1]) (by simp [ustep, step, hgl, h2]) (.ret (D := D) h3 (fun T hT => ?_) hk hs)
        have := (hG x T (by simpa [ctype] using hc T hT)).1
        rw [hgl] at this; cases this
    | false =>
      cases hl : ρ.lookup x with
      | none => exact .fail (by simp [ustep, step, hgl, hl]) (fun _ _ => by simp)
      | some v =>
        obtain ⟨w, hw⟩ := he.ex x v .var hl
        exact .sync (s' := .ret v κ σ) (t' := .ret w κ' σt) (by simp [ustep, step, hgl, hl]) (by simp [ustep, step, h2 hgl, hw])
          (.ret (he.all x v w .var hl hw) (fun T hT => (hG (s x) T (by simpa [ctype] using hc T hT)).2 w hw) hk hs)
  | _, _, Γ, s, .set (x := x) (e := e) (e' := e') hf, D, ρ, ρt, κ, κ', σ, σt, hc, hG, he, hk, hs => by
    have hD := can_none (by simp [ctype]) hc
    subst hD
    cases hg : x.isGlobal with
    | true =>
      exact .sync (s' := .ev e ρ (.set x κ) σ) (t' := .ev e' ρt (.set x κ') σt) (by simp [ustep, step, hg]) (by simp [ustep, step, hg])
        (.ev (D := none) hf (fun _ h => by cases h) hG (he.weaken (fun y hy => .set x hy)) (.set hk) hs)
    | false => exact .fail (by simp [ustep, step, hg]) (fun _ _ => by simp)
  | _, _, Γ, s, .ite (a := a) (b := b) (c := c) (a' := a') (b' := b') (c' := c') f1 f2 f3, D, ρ, ρt, κ, κ', σ, σt, hc, hG, he, hk, hs => by
    obtain ⟨hc1, hc2⟩ := can_ite hc
    exact .sync (s' := .ev a ρ (.ite b c ρ κ) σ) (t' := .ev a' ρt (.ite b' c' ρt κ') σt) rfl rfl
      (.ev (D := none) f1 (fun _ h => by cases h) hG (he.weaken (fun y hy => .iteA _ _ hy))
        (.ite f2 f3 hc1 hc2 hG (fun y v hy => he.ex y v (hy.elim (fun h => .iteB _ _ h) (fun h => .iteC _ _ h)))
          (fun y v w hy => he.all y v w (hy.elim (fun h => .iteB _ _ h) (fun h => .iteC _ _ h))) hk) hs)
  | _, _, Γ, s, .test (x := x) (c := c) (T := T) (eff := eff) (p := p) (b := b) (b' := b') (d := e) (d' := e') ht hx hsx hct hcl hfr f1 f2, D, ρ, ρt, κ, κ', σ, σt, hc, hG, he, hk, hs => by
    obtain ⟨hc1, hc2⟩ := can_ite hc
    have hc1 := can_let rfl hc1
    simp only [ctypes, ctype, exts] at hc1
    have into : ∀ {ord : Op → List Exp → List Nat} {ct : Id → Option τ} {ρ : Env} {b e : Exp} {κ : Kont} {σ : Store W} {u : Val}, FairOrder ord → ρ.lookup x = some u →
        Quiet (ustep C.M ord C.has ct) (.ev (.ite (.prim eff p [.var x]) b e) ρ κ σ) (.args (.prim eff p) [.var x] (upd (fun _ => .trap) 0 u) [] ρ (.ite b e ρ κ) σ) := by
      intro ord ct ρ b e κ σ u ho hl
      refine .step (b := .ev (.prim eff p [.var x]) ρ (.ite b e ρ κ) σ) rfl rfl (.step (b := .args (.prim eff p) [.var x] (fun _ => .trap) [0] ρ (.ite b e ρ κ) σ) ?_ rfl (.step rfl rfl
        (.step (b := .ret u (.args (.prim eff p) [.var x] (fun _ => .trap) 0 [] ρ (.ite b e ρ κ)) σ) ?_ rfl (.one rfl rfl))))
      · simp only [ustep, step]; rw [perm_one (ho (.prim eff p) [.var x])]
      · simp [ustep, step, hx, hl]
    have hfx : Free x (.ite (.prim eff p [.var x]) b e) := .iteA _ _ (.prim eff p (List.mem_singleton.mpr rfl) .var)
    cases hl : ρ.lookup x with
    | none =>
      have q : Quiet C.src (.ev (.ite (.prim eff p [.var x]) b e) ρ κ σ) (.ev (.var x) ρ (.args (.prim eff p) [.var x] (fun _ => .trap) 0 [] ρ (.ite b e ρ κ)) σ) := by
        refine .step (b := .ev (.prim eff p [.var x]) ρ (.ite b e ρ κ) σ) rfl rfl (.step (b := .args (.prim eff p) [.var x] (fun _ => .trap) [0] ρ (.ite b e ρ κ) σ) ?_ rfl (.one rfl rfl))
        simp only [ustep, step]; rw [perm_one (srcOrder_fair hQ (.prim eff p) [.var x])]
      exact .left q (.fail (by simp [ustep, step, hx, hl]) (fun _ _ => by simp))
    | some u =>
      obtain ⟨w, hlw⟩ := he.ex x u hfx hl
      have hu := he.all x u w hfx hl hlw
      rw [hsx] at hlw
      refine .left (into (srcOrder_fair hQ) hl) (.right (into hQ hlw) ?_)
      rcases doPrim_rel (M := C.M) (p := p) (.cons hu .nil) hs with h1 | ⟨r, r', h1, h2, h3⟩ | ⟨r, r', σ', σt', h1, h2, h3, h4⟩
      · exact .fail (by simp [ustep, step, vals, List.range_succ, upd, h1]) (fun _ _ => by simp)
      · exact Or.inr (Or.inl ⟨r, r', σ.world, .one (by simp [ustep, step, vals, List.range_succ, upd, h1]) rfl,
          .one (by simp [ustep, step, vals, List.range_succ, upd, h2, hs.world]) hs.world, h3.view⟩)
      · refine .sync (s' := .ret r (.ite b e ρ κ) σ') (t' := .ret r' (.ite (.app (.lam [c] b') [.var x]) e' ρt κ') σt')
          (by simp [ustep, step, vals, List.range_succ, upd, h1]) (by simp [ustep, step, vals, List.range_succ, upd, h2])
          (.test h3 hx hsx hct hcl hfr f1 f2 hc1 hc2 hG (he.weaken (fun y hy => ?_)) (fun u' hu' hr => ?_) ⟨u, hl⟩ hk h4)
        · rcases hy with rfl | hy | hy
          · exact hfx
          · exact .iteB _ _ hy
          · exact .iteC _ _ hy
        · rw [hl] at hu'; injection hu' with hu'; subst hu'
          exact hh.check p T u σ r σ' ht h1 (by rw [h3.false]; exact hr)
  | _, _, Γ, s, .prim (eff := eff) (p := p) (es := es) (es' := es') f1, D, ρ, ρt, κ, κ', σ, σt, hc, hG, he, hk, hs => by
    refine .sync (s' := .args (.prim eff p) es (fun _ => .trap) (C.Q (.prim eff p) es) ρ κ σ)
      (t' := .args (.prim eff p) es' (fun _ => .trap) (C.Q (.prim eff p) es) ρt κ' σt) rfl ?_
      (.args f1 (fun T hT => by simpa [ctype] using hc T hT) hG (he.weaken (fun y ⟨e, h, hy⟩ => .prim _ _ h hy)) (fun _ => .trap) hk hs)
    simp only [ustep, step]; rw [hU _ es es' f1.length]
  | _, _, Γ, s, .app (f := f) (f' := f') (es := es) (es' := es') hn hn' f1 f2, D, ρ, ρt, κ, κ', σ, σt, hc, hG, he, hk, hs => by
    have hD := can_app hn' hc
    subst hD
    refine .sync (s' := .args .call (f :: es) (fun _ => .trap) (C.Q .call (f :: es)) ρ κ σ)
      (t' := .args .call (f' :: es') (fun _ => .trap) (C.Q .call (f :: es)) ρt κ' σt) ?_ ?_
      (.args (D := none) (.cons f1 f2) rfl hG (he.weaken (fun y ⟨e, h, hy⟩ => ?_)) (fun _ => .trap) hk hs)
    · simp only [ustep, step, srcOrder, hn]; rfl
    · simp only [ustep, step]; rw [hU _ (f :: es) (f' :: es') (by simp [f2.length])]
    · rcases List.mem_cons.mp h with h | h
      · subst h; exact .appF _ hy
      · exact .appA _ h hy
  | _, _, Γ, s, .letE (s' := s') (ids := ids) (ids' := ids') (b := b) (b' := b') (es := es) (es' := es') hl f1 f2, D, ρ, ρt, κ, κ', σ, σt, hc, hG, he, hk, hs => by
    have hle := f1.length
    have hmem : ∀ j, j ∈ C.Q .call (.lam ids b :: es) ↔ j ≤ es.length := fun j => by
      rw [(hQ .call (.lam ids b :: es)).mem_iff (a := j)]; simp [Nat.lt_succ_iff]
    have hmem' : ∀ j, j ∈ (C.Q .call (.lam ids b :: es)).map (flip es.length) ↔ j ≤ es.length := fun j => by
      simp only [List.mem_map, hmem]
      constructor
      · rintro ⟨i, h, rfl⟩; exact flip_le h
      · intro h; exact ⟨flip es.length j, flip_le h, flip_flip h⟩
    refine .sync (s' := .args .call (.lam ids b :: es) (fun _ => .trap) ((C.Q .call (.lam ids b :: es)).map (flip es.length)) ρ κ σ)
      (t' := .args .call (.lam ids'.reverse b' :: es'.reverse) (fun _ => .trap) (((C.Q .call (.lam ids b :: es)).map (flip es.length)).map (flip es.length)) ρt κ' σt) ?_ ?_
      (.letf hl f1 f2 (can_let (by rw [List.length_reverse, List.length_reverse, hl.len', hl.len, hle]) hc) hG he (fun _ _ => .trap)
        (fun j e T h1 h2 => ?_) (Or.inl ((hmem' 0).mpr (by omega))) (fun j hj => (hmem' j).mp hj) hk hs)
    · simp [ustep, step, srcOrder, isLetL, hl.len]
    · simp only [ustep, step]
      rw [List.map_map, hU .call (.lam ids'.reverse b' :: es'.reverse) (.lam ids b :: es) (by simp [hle])]
      congr 2
      symm
      calc (C.Q .call (.lam ids b :: es)).map (flip es.length ∘ flip es.length) = (C.Q .call (.lam ids b :: es)).map id :=
            List.map_congr_left (fun j hj => by simpa using flip_flip ((hmem j).mp hj))
        _ = _ := by simp
    · exact absurd ((hmem' (j + 1)).mpr (by have := lt_of_get h1; omega)) h2
  | _, _, Γ, s, .lam (ids := ids) (b := b) (b' := b') f1 f2, D, ρ, ρt, κ, κ', σ, σt, hc, hG, he, hk, hs => by
    have hD := can_none (by simp [ctype]) hc
    subst hD
    exact .sync (s' := .ret (.clos ids b ρ) κ σ) (t' := .ret (.clos ids b' ρt) κ' σt) rfl rfl (.ret (D := none) (.clos (.lam f1 f2) hG he.ex he.all) (fun _ h => by cases h) hk hs)
  | _, _, Γ, s, .lamU (ids := ids) (cs := cs) (xs := xs) (b := b) (b' := b') f1 f2 f3, D, ρ, ρt, κ, κ', σ, σt, hc, hG, he, hk, hs => by
    have hD := can_none (by simp [ctype]) hc
    subst hD
    exact .sync (s' := .ret (.clos ids b ρ) κ σ) (t' := .ret (.clos ids (.app (.lam cs b') (xs.map .var)) ρt) κ' σt) rfl rfl
      (.ret (D := none) (.clos (.lamU f1 f2 f3) hG he.ex he.all) (fun _ h => by cases h) hk hs)
  | _, _, Γ, s, .fix (ids := ids) (lams := lams) (lams' := lams') (b := b) (b' := b') f1 f2 f3, D, ρ, ρt, κ, κ', σ, σt, hc, hG, he, hk, hs => by
    have hD := can_none (by simp [ctype]) hc
    subst hD
    exact .sync (s' := .ev b (.fix ids lams ρ) κ σ) (t' := .ev b' (.fix ids lams' ρt) κ' σt) rfl rfl
      (.ev (D := none) f3 (fun _ h => by cases h) (Fold.Good.fix hG (fun y hy => (f1.own y hy).1))
        (he.fix ⟨f1.own, fun y ⟨l, hl, hy⟩ => f1.free y ⟨l, by simp [hl], hy⟩⟩ f2 hG (fun y hy hm => f1.free y ⟨b, by simp, hy⟩ hm) (fun y hy hm => .fixB _ hm hy) (fun y ⟨⟨l, hl, hy⟩, hm⟩ => .fixL _ hm hl hy)) hk hs)
  | _, _, Γ, s, .null (b := b) (b' := b') f1, D, ρ, ρt, κ, κ', σ, σt, hc, hG, he, hk, hs => by
    have ho := perm_one (srcOrder_fair hQ .call [.lam [] b])
    have q : Quiet C.src (.ev (.app (.lam [] b) []) ρ κ σ) (.ev b ρ κ σ) := by
      refine .step (b := .args .call [.lam [] b] (fun _ => .trap) [0] ρ κ σ) ?_ rfl (.step rfl rfl (.step rfl rfl (.step rfl rfl (.step rfl rfl (.one rfl rfl)))))
      simp only [ustep, step]; rw [ho]
    exact .left q (ev_ok hQ hU hh f1 hc hG (he.weaken (fun y hy => .appF _ (.lam (by simp) hy))) hk hs)
  | _, _, Γ, s, .idl (x := x) (e := e) (e' := e') hx f1, D, ρ, ρt, κ, κ', σ, σt, hc, hG, he, hk, hs => by
    obtain ⟨ds, todo, hw, q⟩ := beg_in (M := C.M) (has := C.has) (ct := C.F) (srcOrder_fair hQ) x (.var x) e ρ κ σ
    exact .left q (ev_ok hQ hU hh f1 hc hG (he.weaken (fun y hy => .appA _ (by simp) hy)) (.idl hx hw hk) hs)

theorem args_ok (hh : C.Honest) {D : Option τ} {Γ : TEnv τ} {s : Id → Id} {op : Op} {es es' : List Exp} {d d' : Nat → Val} {todo : List Nat} {ρ ρt : Env} {κ κ' : Kont}
    {σ σt : Store W} (hf : C.Us Γ s es es') (ho : OpOk C.t D op) (hG : C.Good Γ ρt) (he : ER C s (fun y => ∃ e ∈ es, Free y e) ρ ρt)
    (hd : ∀ j, VR C (d j) (d' j)) (hk : KR C D κ κ') (hs : SR C σ σt) :
    Next C (.args op es d todo ρ κ σ) (.args op es' d' todo ρt κ' σt) := by
  cases todo with
  | cons i todo =>
    cases hi : es[i]? with
    | none => exact .fail (by cases op <;> simp [ustep, step, hi]) (fun _ _ => by simp)
    | some e =>
      have hm := List.mem_of_getElem? hi
      obtain ⟨e', hi', f1⟩ := hf.get hi
      exact .sync (s' := .ev e ρ (.args op es d i todo ρ κ) σ) (t' := .ev e' ρt (.args op es' d' i todo ρt κ') σt)
        (by cases op <;> simp [ustep, step, hi]) (by cases op <;> simp [ustep, step, hi'])
        (.ev (D := none) f1 (fun _ h => by cases h) hG (he.weaken (fun y hy => ⟨e, hm, hy⟩)) (.args hf ho hG he.ex he.all hd hk) hs)
  | nil =>
    cases op with
    | prim eff p =>
      rcases doPrim_rel (M := C.M) (p := p) (forall₂_vals hd es.length) hs with h1 | ⟨u, w, h1, h2, h3⟩ | ⟨u, w, σ', σt', h1, h2, h4, h5⟩
      · exact .fail (by simp [ustep, step, h1]) (fun _ _ => by simp)
      · exact Or.inr (Or.inl ⟨u, w, σ.world, .one (by simp [ustep, step, h1]) rfl, .one (by simp [ustep, step, ← hf.length, h2, hs.world]) hs.world, h3.view⟩)
      · exact .sync (s' := .ret u κ σ') (t' := .ret w κ' σt') (by simp [ustep, step, h1]) (by simp [ustep, step, ← hf.length, h2])
          (.ret h4 (fun T hT => hh.ret p T _ σt w σt' (ho T hT) h2) hk h5)
    | call =>
      simp only [OpOk] at ho; subst ho
      have hv := forall₂_vals hd es.length
      generalize h1 : vals d es.length = vs at hv
      generalize h2 : vals d' es.length = ws at hv
      cases hv with
      | nil => exact .fail (by simp [ustep, step, h1]) (fun _ _ => by simp)
      | cons hf' hv =>
        rename_i f g vs ws
        exact .sync (s' := .ap f vs κ σ) (t' := .ap g ws κ' σt) (by simp [ustep, step, h1]) (by simp [ustep, step, ← hf.length, h2]) (.ap hf' hv hk hs)

/-- procedures enter their bodies. -/
theorem enter (hQ : FairOrder C.Q) {Γ : TEnv τ} {s : Id → Id} {ids : List Id} {b e' : Exp} {ρ ρt : Env} {vs ws : List Val} {κ κ' : Kont} {σ σt : Store W} (hf : C.U Γ s (.lam ids b) e')
    (hG : C.Good Γ ρt) (he : ER C s (Free · (.lam ids b)) ρ ρt) (hv : List.Forall₂ (VR C) vs ws) (hl : ids.length = vs.length)
    (hfit : ∀ x v, (x, v) ∈ ids.zip vs → ∀ T, C.F x = some T → C.has T v.view = true) (hk : KR C none κ κ') (hs : SR C σ σt) :
    ∃ b', e' = .lam ids b' ∧ (∀ x w, (x, w) ∈ ids.zip ws → ∀ T, C.ct x = some T → C.has T w.view = true) ∧
      ∃ b'' ρ'', Quiet C.tgt (.ev b' (bindAll ids ws ρt) κ' σt) (.ev b'' ρ'' κ' σt) ∧ Sync C (.ev b (bindAll ids vs ρ) κ σ) (.ev b'' ρ'' κ' σt) := by
  cases hf with
  | lam f1 f2 =>
    rename_i b'
    refine ⟨b', rfl, fun x w hm T hT => ?_, b', _, .refl _, .ev (D := none) f2 (fun _ h => by cases h) (Fold.Good.bind hG (fun y hy => (f1.own y hy).1)) (he.formals f1 hv hl) hk hs⟩
    rw [(f1.own x (List.of_mem_zip hm).1).2.2.1] at hT; cases hT
  | lamU f1 f2 f3 =>
    rename_i s' cs xs b'
    have hlw : ids.length = ws.length := by rw [hl]; exact hv.length_eq
    have her := he.formals f1 hv hl
    refine ⟨_, rfl, fun x w hm T hT => ?_, b', bindAll cs (xs.map (fun x => ((bindAll ids ws ρt).lookup x).getD .trap)) (bindAll ids ws ρt), ?_, ?_⟩
    · rw [(f1.own x (List.of_mem_zip hm).1).2.2.1] at hT; cases hT
    · refine let_vars hQ f2.len (by simp) (fun i x u hx hu => ?_) (fun c u hm T hT => ?_) κ' σt
      · have hxi := f2.sub x (List.mem_of_getElem? hx)
        refine ⟨(f1.own x hxi).2.2.2, ?_⟩
        simp only [List.getElem?_map, hx, Option.map_some, Option.some.injEq] at hu
        obtain ⟨v', w', _, hw, _⟩ := lookup_rel (ρ := ρ) (ρt := ρt) hv hl hxi
        rw [hw] at hu ⊢
        simp at hu; rw [hu]
      · obtain ⟨i, hi⟩ := List.mem_iff_getElem?.mp hm
        rw [List.getElem?_zip_eq_some] at hi
        obtain ⟨hc, hu⟩ := hi
        simp only [List.getElem?_map, Option.map_eq_some_iff] at hu
        obtain ⟨x, hx, hu⟩ := hu
        have hxi := f2.sub x (List.mem_of_getElem? hx)
        have hF := (f2.ren i x c hx hc).2 T hT
        obtain ⟨v, hv1, hv2⟩ := lookup_zip (ρ := ρ) hl hxi
        obtain ⟨v', w', hv', hw, hr⟩ := lookup_rel (ρ := ρ) (ρt := ρt) hv hl hxi
        rw [hv'] at hv1; injection hv1 with hv1; subst hv1
        rw [hw] at hu; simp at hu; subst hu
        rw [← hr.view]
        exact hfit x v' hv2 T hF
    · refine .ev (D := none) f3 (fun _ h => by cases h) (Fold.Good.bind (Fold.Good.bind hG (fun y hy => (f1.own y hy).1)) (fun y hy => (f2.own y hy).1)) ?_ hk hs
      have key : ∀ y, y ∈ xs → ∃ w, (bindAll ids ws ρt).lookup y = some w ∧
          (bindAll cs (xs.map (fun x => ((bindAll ids ws ρt).lookup x).getD .trap)) (bindAll ids ws ρt)).lookup (s' y) = some w := by
        intro y hy
        obtain ⟨i, hi⟩ := List.mem_iff_getElem?.mp hy
        have hlt : i < cs.length := by rw [f2.len]; exact lt_of_get hi
        have hc := (f2.ren i y cs[i] hi (List.getElem?_eq_getElem hlt)).1
        obtain ⟨_, w, _, hw, _⟩ := lookup_rel (ρ := ρ) (ρt := ρt) hv hl (f2.sub y hy)
        refine ⟨w, hw, lookup_at f2.nodup (i := i) (by rw [hc]; exact List.getElem?_eq_getElem hlt) ?_⟩
        simp only [List.getElem?_map, hi, Option.map_some, hw, Option.getD_some]
      refine ⟨fun y v hy h1 => ?_, fun y v w hy h1 h2 => ?_⟩
      · by_cases hm : y ∈ xs
        · obtain ⟨w, _, h⟩ := key y hm
          exact ⟨w, h⟩
        · rw [f2.other y hm, lookup_skip (f2.free y hy hm)]
          exact her.ex y v hy h1
      · by_cases hm : y ∈ xs
        · obtain ⟨w', h3, h⟩ := key y hm
          rw [h] at h2; injection h2 with h2; subst h2
          exact her.all y v w' hy h1 (by rw [(f1.own y (f2.sub y hm)).2.1]; exact h3)
        · rw [f2.other y hm, lookup_skip (f2.free y hy hm)] at h2
          exact her.all y v w hy h1 h2

theorem ap_ok (hQ : FairOrder C.Q) {f g : Val} {vs ws : List Val} {κ κ' : Kont} {σ σt : Store W} (hf : VR C f g) (hv : List.Forall₂ (VR C) vs ws)
    (hk : KR C none κ κ') (hs : SR C σ σt) : Next C (.ap f vs κ σ) (.ap g ws κ' σt) := by
  by_cases hfit : fits C.has C.F f vs = true
  · have hfit' := fits_iff.mp hfit
    cases hf with
    | atom | pair | box | trap => exact .fail (by simp [ustep, step]) (fun _ _ => by simp)
    | clos a2 a3 a4 a5 =>
      rename_i Γ s ids ids' b b' ρ ρt
      by_cases hl : ids.length = vs.length
      · obtain ⟨b1, e1, hft, b2, ρ2, q, hsy⟩ := enter hQ a2 a3 ⟨a4, a5⟩ hv hl (by simpa [binds] using hfit') hk hs
        injection e1 with e1 e2; subst e1; subst e2
        have hl' : ids'.length = ws.length := by rw [hl]; exact hv.length_eq
        have hfc : fits C.has C.ct (.clos ids' b' ρt) ws = true := fits_iff.mpr (by simpa [binds] using hft)
        exact .moves (s' := .ev b (bindAll ids' vs ρ) κ σ) (.one (by simp only [ustep, hfit, if_true, step]; rw [if_pos hl]))
          (Move.after (b := .ev b' (bindAll ids' ws ρt) κ' σt) (.one (by simp only [ustep, hfc, if_true, step]; rw [if_pos hl'])) rfl q) hsy
      · exact .fail (by simp only [ustep, hfit, if_true, step]; rw [if_neg hl]) (fun _ _ => by simp)
    | rclos a1 a2 a3 a4 a5 =>
      rename_i Γ s ids lams lams' i ρ ρt
      cases hi : lams[i]? with
      | none => exact .fail (by simp [ustep, step, hi]) (fun _ _ => by simp)
      | some l =>
        have hmem := List.mem_of_getElem? hi
        obtain ⟨l', hi', hl'⟩ := a2.get hi
        cases l with
        | lam ps b =>
          by_cases hl : ps.length = vs.length
          · have her : ER C s (Free · (.lam ps b)) (.fix ids lams ρ) (.fix ids lams' ρt) :=
              ER.fix (S := fun y => (∃ l ∈ lams, Free y l) ∧ y ∉ ids) ⟨a4, a5⟩ a1 a2 a3 (fun y hy hm => a1.free y ⟨_, hmem, hy⟩ hm) (fun y hy hm => ⟨⟨_, hmem, hy⟩, hm⟩) (fun y h => h)
            obtain ⟨b1, e1, hft, b2, ρ2, q, hsy⟩ := enter hQ hl' (Fold.Good.fix a3 (fun y hy => (a1.own y hy).1)) her hv hl (by simpa [binds, hi] using hfit') hk hs
            subst e1
            have hl' : ps.length = ws.length := by rw [hl]; exact hv.length_eq
            have hfc : fits C.has C.ct (.rclos ids lams' i ρt) ws = true := fits_iff.mpr (by simpa [binds, hi'] using hft)
            exact .moves (s' := .ev b (bindAll ps vs (.fix ids lams ρ)) κ σ) (.one (by simp only [ustep, hfit, if_true, step, hi]; rw [if_pos hl]))
              (Move.after (b := .ev b1 (bindAll ps ws (.fix ids lams' ρt)) κ' σt) (.one (by simp only [ustep, hfc, if_true, step, hi']; rw [if_pos hl'])) rfl q) hsy
          · exact .fail (by simp only [ustep, hfit, if_true, step, hi]; rw [if_neg hl]) (fun _ _ => by simp)
        | _ => exact .fail (by simp [ustep, step, hi]) (fun _ _ => by simp)
  · exact .fail (by simp [ustep, hfit]) (fun _ _ => by simp)

theorem letf_ok {D : Option τ} {Γ : TEnv τ} {s s' : Id → Id} {ids ids' : List Id} {b b' : Exp} {es es' : List Exp} {d d' : Nat → Val} {todo : List Nat} {ρ ρt : Env} {κ κ' : Kont} {σ σt : Store W}
    (hl : LetOk C.t C.ct s s' ids ids' b es es') (f1 : C.Us Γ s es es') (f2 : C.U (exts ids'.reverse (ctypes C.t.toTypes Γ es'.reverse) Γ) s' b b')
    (hc : Can C.t (exts ids'.reverse (ctypes C.t.toTypes Γ es'.reverse) Γ) b' D) (hG : C.Good Γ ρt) (he : ER C s (Free · (.app (.lam ids b) es)) ρ ρt)
    (hd : ∀ j, j < es.length → VR C (d (j + 1)) (d' (es.length - j)))
    (ht : ∀ (j : Nat) (e : Exp) (T : τ), es'[j]? = some e → j + 1 ∉ todo → ctype C.t.toTypes Γ e = some T → C.has T (d' (es.length - j)).view = true)
    (h0 : 0 ∈ todo ∨ (d 0 = .clos ids b ρ ∧ d' 0 = .clos ids'.reverse b' ρt)) (hle : ∀ j ∈ todo, j ≤ es.length) (hk : KR C D κ κ') (hs : SR C σ σt) :
    Next C (.args .call (.lam ids b :: es) d todo ρ κ σ) (.args .call (.lam ids'.reverse b' :: es'.reverse) d' (todo.map (flip es.length)) ρt κ' σt) := by
  have hel := f1.length
  cases todo with
  | cons i todo =>
    cases i with
    | zero =>
      refine .moves (s' := .args .call (.lam ids b :: es) (upd d 0 (.clos ids b ρ)) todo ρ κ σ)
        (t' := .args .call (.lam ids'.reverse b' :: es'.reverse) (upd d' 0 (.clos ids'.reverse b' ρt)) (todo.map (flip es.length)) ρt κ' σt)
        ⟨_, .step rfl rfl (.step rfl rfl (.refl _)), rfl⟩ ⟨_, .step rfl rfl (.step rfl rfl (.refl _)), rfl⟩
        (.letf hl f1 f2 hc hG he (fun j hj => ?_) (fun j e T h1 h2 h3 => ?_) (Or.inr ⟨by simp [upd], by simp [upd]⟩) (fun j hj => hle j (by simp [hj])) hk hs)
      · have : es.length - j ≠ 0 := by omega
        simpa [upd, this] using hd j hj
      · have := lt_of_get h1
        have : es.length - j ≠ 0 := by omega
        simpa [upd, this] using ht j e T h1 (by simpa using h2) h3
    | succ i =>
      have hi : i < es.length := by have := hle (i + 1) (by simp); omega
      obtain ⟨e', hi', f3⟩ := f1.get (List.getElem?_eq_getElem hi)
      have hm := List.getElem_mem hi
      have hfl : flip es.length (i + 1) = es.length - i := by simp [flip]
      have hrev : (Exp.lam ids'.reverse b' :: es'.reverse)[es.length - i]? = some e' := by
        obtain ⟨k, hk⟩ : ∃ k, es.length - i = k + 1 := ⟨es.length - i - 1, by omega⟩
        rw [hk, List.getElem?_cons_succ, List.getElem?_reverse (by omega), ← hi']
        congr 1; omega
      refine .sync (s' := .ev es[i] ρ (.args .call (.lam ids b :: es) d (i + 1) todo ρ κ) σ)
        (t' := .ev e' ρt (.args .call (.lam ids'.reverse b' :: es'.reverse) d' (es.length - i) (todo.map (flip es.length)) ρt κ') σt)
        (by simp [ustep, step, List.getElem?_eq_getElem hi]) ?_
        (.ev f3 (fun T hT => hT) hG (he.weaken (fun y hy => .appA _ hm hy)) (.letf hl f1 f2 hc hG he.ex he.all hd ht (by simpa using h0) (fun j hj => hle j (by simp [hj])) hi' hk) hs)
      simp only [List.map_cons, hfl, ustep, step, hrev]
  | nil =>
    simp only [List.not_mem_nil, false_or] at h0
    obtain ⟨h1, h2⟩ := h0
    have v1 : vals d (es.length + 1) = .clos ids b ρ :: (List.range es.length).map (fun j => d (j + 1)) := by
      simp only [vals, List.range_succ_eq_map, List.map_cons, h1, List.map_map]; rfl
    have v2 : vals d' (es'.length + 1) = .clos ids'.reverse b' ρt :: (List.range es.length).map (fun j => d' (j + 1)) := by
      simp only [vals, List.range_succ_eq_map, List.map_cons, h2, List.map_map, ← f1.length]; rfl
    have q1 : Quiet C.src (.args .call (.lam ids b :: es) d [] ρ κ σ) (.ap (.clos ids b ρ) ((List.range es.length).map (fun j => d (j + 1))) κ σ) :=
      .one (by simp only [ustep, step, List.length_cons, v1]) rfl
    have q2 : Quiet C.tgt (.args .call (.lam ids'.reverse b' :: es'.reverse) d' [] ρt κ' σt) (.ap (.clos ids'.reverse b' ρt) ((List.range es.length).map (fun j => d' (j + 1))) κ' σt) :=
      .one (by simp only [ustep, step, List.length_cons, List.length_reverse, v2]) rfl
    refine .left q1 ?_
    by_cases hfit : fits C.has C.F (.clos ids b ρ) ((List.range es.length).map (fun j => d (j + 1))) = true
    swap
    · exact .fail (by simp [ustep, hfit]) (fun _ _ => by simp)
    refine .right q2 ?_
    have hl1 := hl.len
    have hl2 := hl.len'
    have hfc : fits C.has C.ct (.clos ids'.reverse b' ρt) ((List.range es.length).map (fun j => d' (j + 1))) = true := by
      refine fits_iff.mpr (fun c w hm T hT => ?_)
      simp only [binds] at hm
      obtain ⟨k, hk⟩ := List.mem_iff_getElem?.mp hm
      rw [List.getElem?_zip_eq_some] at hk
      obtain ⟨k1, k2⟩ := hk
      have hkl : k < es.length := by have := lt_of_get k2; simpa using this
      rw [List.getElem?_reverse (by omega)] at k1
      simp only [List.getElem?_map, List.getElem?_range hkl, Option.map_some, Option.some.injEq] at k2
      subst k2
      have hj : ids'.length - 1 - k < es'.length := by omega
      have hty := hl.typed _ c T _ k1 hT (List.getElem?_eq_getElem hj)
      have := ht _ _ T (List.getElem?_eq_getElem hj) (by simp) (ctype_le C.t.toTypes _ (fun x _ U hU => by simp [tlook] at hU) T hty)
      rw [show es.length - (ids'.length - 1 - k) = k + 1 by omega] at this
      exact this
    refine .sync (s' := .ev b (bindAll ids ((List.range es.length).map (fun j => d (j + 1))) ρ) κ σ)
      (t' := .ev b' (bindAll ids'.reverse ((List.range es.length).map (fun j => d' (j + 1))) ρt) κ' σt)
      (by simp only [ustep, hfit, if_true, step]; simp [hl1]) (by simp only [ustep, hfc, if_true, step]; simp [hl1, hl2])
      (.ev f2 hc (Fold.Good.ext hG (by simpa using hl.loc) (by rw [ctypes_length]; simp; omega) ?_) ?_ hk hs)
    · have e1 : ctypes C.t.toTypes Γ es'.reverse = (List.range es.length).map (fun i => (es'.reverse[i]?.map (ctype C.t.toTypes Γ)).getD none) := by
        refine List.ext_getElem? (fun i => ?_)
        rw [ctypes_get]
        by_cases hi : i < es.length
        · have : i < es'.reverse.length := by simp; omega
          rw [List.getElem?_eq_getElem this]
          simp [hi]
          rw [List.getElem?_eq_getElem (by omega)]; simp
        · have : es'.reverse[i]? = none := List.getElem?_eq_none (by simp; omega)
          rw [this]; simp [hi]
      rw [e1]
      refine forall₂_range _ (fun i hi T hT => ?_)
      rw [List.getElem?_reverse (by omega), List.getElem?_eq_getElem (by omega : es'.length - 1 - i < es'.length)] at hT
      have := ht (es'.length - 1 - i) _ T (List.getElem?_eq_getElem (by omega)) (by simp) (by simpa using hT)
      rw [show es.length - (es'.length - 1 - i) = i + 1 by omega] at this
      exact this
    · have key : ∀ y, y ∈ ids → ∃ v w, (bindAll ids ((List.range es.length).map (fun j => d (j + 1))) ρ).lookup y = some v ∧
          (bindAll ids'.reverse ((List.range es.length).map (fun j => d' (j + 1))) ρt).lookup (s' y) = some w ∧ VR C v w := by
        intro y hy
        obtain ⟨i, hi⟩ := List.mem_iff_getElem?.mp hy
        have hil : i < es.length := by have := lt_of_get hi; omega
        have hic : i < ids'.length := by omega
        refine ⟨d (i + 1), d' (es.length - i), lookup_at hl.nodup hi (by simp [hil]), lookup_at (i := es.length - 1 - i) (List.nodup_reverse.mpr hl.nodup') ?_ ?_, hd i hil⟩
        · rw [List.getElem?_reverse (by omega), show ids'.length - 1 - (es.length - 1 - i) = i by omega, hl.ren i y ids'[i] hi (List.getElem?_eq_getElem hic)]
          exact List.getElem?_eq_getElem hic
        · have : es.length - 1 - i < es.length := by omega
          simp only [List.getElem?_map, List.getElem?_range this, Option.map_some, Option.some.injEq]
          congr 1; omega
      refine ⟨fun y v hy h1 => ?_, fun y v w hy h1 h2 => ?_⟩
      · by_cases hm : y ∈ ids
        · obtain ⟨_, w, _, h, _⟩ := key y hm
          exact ⟨w, h⟩
        · rw [lookup_skip hm] at h1
          rw [hl.other y hm, lookup_skip (by simpa using hl.free y hy hm)]
          exact he.ex y v (.appF _ (.lam hm hy)) h1
      · by_cases hm : y ∈ ids
        · obtain ⟨_, _, h3, h4, h5⟩ := key y hm
          rw [h3] at h1; rw [h4] at h2
          injection h1 with h1; injection h2 with h2; subst h1; subst h2
          exact h5
        · rw [lookup_skip hm] at h1
          rw [hl.other y hm, lookup_skip (by simpa using hl.free y hy hm)] at h2
          exact he.all y v w (.appF _ (.lam hm hy)) h1 h2

theorem ret_ok : (κ : Kont) → ∀ {D : Option τ} {κ' : Kont} {v w : Val} {σ σt : Store W}, VR C v w → Sat C.has w D → KR C D κ κ' → SR C σ σt → Next C (.ret v κ σ) (.ret w κ' σt)
  | .halt, _, _, v, w, σ, σt, hv, _, .halt _, hs => Or.inr (Or.inl ⟨v, w, σ.world, .one rfl rfl, .one (by simp [ustep, step, hs.world]) hs.world, hv.view⟩)
  | .set x _, _, _, v, w, σ, σt, hv, _, .set (κ := κ) (κ' := κ') hk, hs =>
    .sync (s' := .ret (.atom 1) κ _) (t' := .ret (.atom 1) κ' _) rfl rfl (.ret (D := none) (.atom 1) (fun _ h => by cases h) hk (hs.set_glob x hv))
  | .ite b c ρ κ, D, _, v, w, σ, σt, hv, hD, .ite (b' := b') (c' := c') (ρt := ρt) (κ' := κ') o1 o2 c1 c2 hG a1 a2 hk, hs => by
    cases hf : v.isFalse with
    | true =>
      exact .sync (s' := .ev c ρ κ σ) (t' := .ev c' ρt κ' σt) (by simp [ustep, step, hf]) (by simp [ustep, step, ← hv.false, hf])
        (.ev o2 c2 hG ⟨fun y v hy => a1 y v (Or.inr hy), fun y v w hy => a2 y v w (Or.inr hy)⟩ hk hs)
    | false =>
      exact .sync (s' := .ev b ρ κ σ) (t' := .ev b' ρt κ' σt) (by simp [ustep, step, hf]) (by simp [ustep, step, ← hv.false, hf])
        (.ev o1 c1 hG ⟨fun y v hy => a1 y v (Or.inl hy), fun y v w hy => a2 y v w (Or.inl hy)⟩ hk hs)
  | .trap, _, _, _, _, _, _, _, _, h, _ => by cases h
  | .throw _, _, _, _, _, _, _, _, _, h, _ => by cases h
  | .withcc _ _, _, _, _, _, _, _, _, _, h, _ => by cases h
  | .args op _ _ _ _ _ κ, D, κ0, v, w, σ, σt, hv, hD, hk, hs => by
    cases hk with
    | args o1 o2 hG a1 a2 hd hk =>
      refine .sync rfl rfl (.args o1 o2 hG ⟨a1, a2⟩ (fun j => ?_) hk hs)
      simp only [upd]; split
      · exact hv
      · exact hd j
    | letf hl f1 f2 hc hG a1 a2 hd ht h0 hle hi hk =>
      rename_i d todo ρ D' Γ s s' ids ids' b b' es es' e d' i ρt κ'
      have hel := f1.length
      have hil := lt_of_get hi
      refine .sync rfl rfl (.letf hl f1 f2 hc hG ⟨a1, a2⟩ (fun j hj => ?_) (fun j r T h1 h2 h3 => ?_) ?_ hle hk hs)
      · by_cases e : j = i
        · subst e; simpa [upd] using hv
        · have : es.length - j ≠ es.length - i := by omega
          simpa [upd, e, this] using hd j hj
      · have hjl := lt_of_get h1
        by_cases e : j = i
        · subst e
          rw [hi] at h1; injection h1 with h1; subst h1
          simpa [upd] using hD T h3
        · have : es.length - j ≠ es.length - i := by omega
          simpa [upd, this] using ht j r T h1 (by simp [e, h2]) h3
      · rcases h0 with h0 | ⟨h1, h2⟩
        · exact Or.inl h0
        · have : 0 ≠ es.length - i := by omega
          exact Or.inr ⟨by simp [upd, h1], by simp only [upd, if_neg this, h2]⟩
    | idl hx hw hk =>
      rename_i d todo ρ x e
      refine .left (beg_out hw κ σ v) ?_
      by_cases hfit : fits C.has C.F (.clos [x] (.var x) ρ) [v] = true
      · refine .left (s' := .ret v κ σ) (.step (b := .ev (.var x) (.bind x v ρ) κ σ) (by simp only [ustep, hfit, if_true, step]; rfl) rfl (.one (by simp [ustep, step, hx, Env.lookup]) rfl)) ?_
        exact ret_ok κ hv hD hk hs
      · exact .fail (by simp [ustep, hfit]) (fun _ _ => by simp)

theorem test_ok (hQ : FairOrder C.Q) {D : Option τ} {Γ : TEnv τ} {s : Id → Id} {x c : Id} {T : τ} {b b' e e' : Exp} {v w : Val} {ρ ρt : Env} {κ κ' : Kont} {σ σt : Store W} (hv : VR C v w)
    (hx : x.isGlobal = false) (hsx : s x = x) (hct : C.ct c = some T) (hcl : c.isGlobal = false) (hfr : ∀ y, Free y b → y ≠ x → s y ≠ c) (f1 : C.U ((c, tlook x Γ) :: Γ) (ren s x c) b b') (f2 : C.U Γ s e e')
    (hc1 : Can C.t ((c, tlook x Γ) :: Γ) b' D) (hc2 : Can C.t Γ e' D) (hG : C.Good Γ ρt) (he : ER C s (fun y => y = x ∨ Free y b ∨ Free y e) ρ ρt)
    (hT : ∀ u, ρ.lookup x = some u → w.isFalse = false → C.has T u.view = true) (hl : ∃ u, ρ.lookup x = some u) (hk : KR C D κ κ') (hs : SR C σ σt) :
    Next C (.ret v (.ite b e ρ κ) σ) (.ret w (.ite (.app (.lam [c] b') [.var x]) e' ρt κ') σt) := by
  cases hf : w.isFalse with
  | true =>
    exact .sync (s' := .ev e ρ κ σ) (t' := .ev e' ρt κ' σt) (by simp [ustep, step, hv.false, hf]) (by simp [ustep, step, hf])
      (.ev f2 hc2 hG (he.weaken (fun y hy => Or.inr (Or.inr hy))) hk hs)
  | false =>
    obtain ⟨u, hu⟩ := hl
    obtain ⟨z, hz⟩ := he.ex x u (Or.inl rfl) hu
    have hr := he.all x u z (Or.inl rfl) hu hz
    rw [hsx] at hz
    have q := let_vars (M := C.M) (ord := C.Q) (has := C.has) (ct := C.ct) hQ (cs := [c]) (xs := [x]) (b := b') (ρ := ρt) (us := [z]) rfl rfl
      (fun i y u' h1 h2 => by
        cases i with
        | zero => simp at h1 h2; subst h1; subst h2; exact ⟨hx, hz⟩
        | succ i => simp at h1)
      (fun y u' hm U hU => by
        simp only [List.zip_cons_cons, List.zip_nil_right, List.mem_singleton, Prod.mk.injEq] at hm
        obtain ⟨rfl, rfl⟩ := hm
        rw [hct] at hU; injection hU with hU; subst hU
        rw [← hr.view]; exact hT u hu hf) κ' σt
    refine .moves (s' := .ev b ρ κ σ) (t' := .ev b' (.bind c z ρt) κ' σt) (.one (by simp [ustep, step, hv.false, hf]))
      (Move.after (b := .ev (.app (.lam [c] b') [.var x]) ρt κ' σt) (.one (by simp [ustep, step, hf])) rfl q) (.ev f1 hc1 ?_ ?_ hk hs)
    · exact Fold.Good.ext (ids := [c]) (ts := [tlook x Γ]) (vs := [z]) hG (by simpa using hcl) rfl (.cons (fun U hU => (hG x U hU).2 z hz) .nil)
    · refine ⟨fun y v' hy h1 => ?_, fun y v' w' hy h1 h2 => ?_⟩
      · by_cases e : y = x
        · subst e; exact ⟨z, by simp [ren, Env.lookup]⟩
        · simp only [ren, if_neg e, Env.lookup, if_neg (hfr y hy e)]
          exact he.ex y v' (Or.inr (Or.inl hy)) h1
      · by_cases e : y = x
        · subst e
          simp only [ren, if_true, Env.lookup] at h2
          rw [hu] at h1
          injection h1 with h1; injection h2 with h2; subst h1; subst h2
          exact hr
        · simp only [ren, if_neg e, Env.lookup, if_neg (hfr y hy e)] at h2
          exact he.all y v' w' (Or.inr (Or.inl hy)) h1 h2

theorem sync_world {s t : State W} (h : Sync C s t) : s.world = t.world := by
  cases h with
  | ev _ _ _ _ _ hs => exact hs.world
  | args _ _ _ _ _ _ hs => exact hs.world
  | letf _ _ _ _ _ _ _ _ _ _ _ hs => exact hs.world
  | ap _ _ _ hs => exact hs.world
  | ret _ _ _ hs => exact hs.world
  | test _ _ _ _ _ _ _ _ _ _ _ _ _ _ _ hs => exact hs.world

theorem sync_sim (hQ : FairOrder C.Q) (hU : Uniform C.Q) (hh : C.Honest) : SimQ C.src C.tgt (Sync C) := by
  refine ⟨fun s t h => ?_, fun s t h => sync_world h⟩
  cases h with
  | ev hf hc hG he hk hs => exact ev_ok hQ hU hh hf hc hG he hk hs
  | args hf ho hG he hd hk hs => exact args_ok hh hf ho hG he hd hk hs
  | letf hl f1 f2 hc hG he hd ht h0 hle hk hs => exact letf_ok hl f1 f2 hc hG he hd ht h0 hle hk hs
  | ap hf hv hk hs => exact ap_ok hQ hf hv hk hs
  | ret hv hD hk hs => exact ret_ok _ hv hD hk hs
  | test h1 h2 h3 h4 h5 h6 h7 h8 h9 h10 h11 h12 h13 h14 h15 h16 => exact test_ok hQ h1 h2 h3 h4 h5 h6 h7 h8 h9 h10 h11 h12 h13 h14 h15 h16

/-- Unboxing preserves the behaviour of a program. -/
theorem unbox_behaves {M : Sem W} {t : CTypes τ} {has : τ → View → Bool} {Q : Op → List Exp → List Nat} {ct F : Id → Option τ} (hQ : FairOrder Q) (hU : Uniform Q) (hh : Honest M t has)
    {e e' : Exp} (hf : U t ct F [] id e e') (w : W) (g : Id → Option Val) (hg : ∀ x v, g x = some v → ∃ n, v = .atom n) :
    Behaves (ustep M (srcOrder Q) has F) (ustep M Q has ct) (.ev e .nil .halt ⟨g, [], w⟩) (.ev e' .nil .halt ⟨g, [], w⟩) := by
  refine SimQ.behaves (sync_sim (C := ⟨M, t, has, Q, ct, F⟩) hQ hU hh) ?_
  refine .ev (C := ⟨M, t, has, Q, ct, F⟩) (Γ := []) (s := id) (D := none) hf (fun _ h => by cases h) (fun x T h => by simp [tlook] at h) ⟨?_, ?_⟩ (.halt _) ⟨?_, .nil, rfl⟩
  · intro y v _ h; simp [Env.lookup] at h
  · intro y v w _ h; simp [Env.lookup] at h
  · intro x
    cases h : g x with
    | none => exact Or.inl ⟨h, h⟩
    | some v =>
      obtain ⟨n, rfl⟩ := hg x v h
      exact Or.inr ⟨_, _, h, h, .atom n⟩

end Verif.Unbox

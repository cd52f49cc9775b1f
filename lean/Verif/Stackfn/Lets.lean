import Verif.Stackfn.Body
/-
Bodies: primitives and `let`.
-/
namespace Verif.Stackfn
open Verif.Core
variable {W : Type} {G : Prog W}

/-- Static conditions on a list of operands. -/
structure StatE (G : Prog W) (es : List Exp) (xs ls : List Id) (Γ : Labels) (N : Nat) : Prop where
  ag : agStacks G.f G.known es xs ls = true
  sn : sanes es Γ = true
  nd : (bindersAll es).Nodup
  lc : ∀ x ∈ bindersAll es, x.isGlobal = false
  bts : ∀ x ∈ bindersAll es, x.ts < N
  dis : ∀ x ∈ xs, x ∉ bindersAll es
  xts : ∀ x ∈ xs, x.ts < N

theorem sanes_mem {es : List Exp} {Γ : Labels} (h : sanes es Γ = true) : ∀ e ∈ es, sane e Γ false = true := by
  induction es with
  | nil => intro e he; cases he
  | cons a es ih =>
    simp only [sanes, Bool.and_eq_true] at h
    intro e he
    rcases List.mem_cons.1 he with rfl | he
    · exact h.1
    · exact ih h.2 e he

theorem StatE.items {es : List Exp} {xs ls : List Id} {Γ : Labels} {N N' : Nat} {L : List Item} (h : StatE G es xs ls Γ N) (hN : N ≤ N') (hL : ∀ a ∈ L, a.e ∈ es)
    (hx : ∀ a ∈ L, a.id ∉ xs) (hb : ∀ a ∈ L, a.id ∉ bindersAll es) (ht : ∀ a ∈ L, a.id.ts < N') (h1 : (L.map Item.id).Nodup) (h2 : (L.map Item.pos).Nodup) : StatL G L xs ls Γ N' where
  ag a ha := agStacks_mem h.ag a.e (hL a ha)
  sn a ha := sanes_mem h.sn a.e (hL a ha)
  nd a ha := nodup_bindersAll h.nd a.e (hL a ha)
  lc a ha x hx := h.lc x (mem_bindersAll.2 ⟨a.e, hL a ha, hx⟩)
  bts a ha x hx := by have := h.bts x (mem_bindersAll.2 ⟨a.e, hL a ha, hx⟩); omega
  dis a ha x hx hm := h.dis x hx (mem_bindersAll.2 ⟨a.e, hL a ha, hm⟩)
  xts x hx := by have := h.xts x hx; omega
  idx := hx
  idb a ha b hb' hm := hb a ha (mem_bindersAll.2 ⟨b.e, hL b hb', hm⟩)
  ids := ht
  ndi := h1
  ndp := h2

theorem bindersI_sub {es : List Exp} {L : List Item} (hL : ∀ a ∈ L, a.e ∈ es) : bindersI L ⊆ bindersAll es := by
  intro x hx
  simp only [bindersI, mem_bindersAll, List.mem_map] at hx
  obtain ⟨e, ⟨a, ha, rfl⟩, hx⟩ := hx
  exact mem_bindersAll.2 ⟨a.e, hL a ha, hx⟩

theorem initsI_append (T : Texts) (f : Id) (A B : List Item) (Γ : Labels) (n : Nat) :
    initsI T f (A ++ B) Γ n = ((initsI T f A Γ n).1 ++ (initsI T f B Γ (initsI T f A Γ n).2).1, (initsI T f B Γ (initsI T f A Γ n).2).2) := by
  induction A generalizing n with
  | nil => simp [initsI]
  | cons a A ih =>
    simp only [List.cons_append, initsI]
    split
    · exact ih n
    · simp only [ih, List.append_assoc]

/-! ### primitives -/

/-- the operands kept in temporaries. -/
def cplx (T : Texts) (f : Id) : List Exp → Nat → Nat → List Item
  | [], _, _ => []
  | e :: es, k, i => if isCexp T f e then cplx T f es k (i + 1) else ⟨i, lexId k, e⟩ :: cplx T f es (k + 1) (i + 1)

theorem cplx_mem {T : Texts} {f : Id} : ∀ (es : List Exp) (k i : Nat), ∀ a ∈ cplx T f es k i, isCexp T f a.e = false ∧ a.e ∈ es ∧
    (∃ j : Nat, a.pos = i + j ∧ es[j]? = some a.e) ∧ ∃ k', a.id = lexId k' ∧ k ≤ k' ∧ k' < k + complex T f es
  | [], _, _, a, h => by simp [cplx] at h
  | e :: es, k, i, a, h => by
    by_cases hc : isCexp T f e = true
    · simp only [cplx, hc, if_true] at h
      obtain ⟨h1, h2, ⟨j, h3, h4⟩, k', h5⟩ := cplx_mem es k (i + 1) a h
      exact ⟨h1, by simp [h2], ⟨j + 1, by omega, by simpa using h4⟩, k', by simpa [complex, hc] using h5⟩
    · simp only [cplx, hc] at h
      rcases List.mem_cons.1 h with rfl | h
      · exact ⟨by simpa using hc, by simp, ⟨0, rfl, rfl⟩, k, rfl, Nat.le_refl _, by simp [complex, hc]⟩
      · obtain ⟨h1, h2, ⟨j, h3, h4⟩, k', h5, h6, h7⟩ := cplx_mem es (k + 1) (i + 1) a h
        refine ⟨h1, by simp [h2], ⟨j + 1, by omega, by simpa using h4⟩, k', h5, by omega, ?_⟩
        simp only [complex, hc]
        simp only [Bool.false_eq_true, if_false]
        omega

theorem lexId_inj {a b : Nat} (h : lexId a = lexId b) : a = b := by
  simp only [lexId, Id.mk.injEq, and_true] at h; omega

theorem cplx_ndi {T : Texts} {f : Id} : ∀ (es : List Exp) (k i : Nat), ((cplx T f es k i).map Item.id).Nodup
  | [], _, _ => by simp [cplx]
  | e :: es, k, i => by
    by_cases hc : isCexp T f e = true
    · simp only [cplx, hc, if_true]; exact cplx_ndi es k (i + 1)
    · simp only [cplx, hc]
      rw [if_neg (by simp), List.map_cons, List.nodup_cons]
      refine ⟨fun h => ?_, cplx_ndi es (k + 1) (i + 1)⟩
      obtain ⟨a, ha, e1⟩ := List.mem_map.1 h
      obtain ⟨-, -, -, k', h1, h2, h3⟩ := cplx_mem es (k + 1) (i + 1) a ha
      rw [h1] at e1
      have := lexId_inj e1
      omega

theorem cplx_perm {T : Texts} {f : Id} : ∀ (es : List Exp) (k i : Nat), ((cplx T f es k i).map Item.pos ++ cexpPos T f es i).Perm (List.range' i es.length)
  | [], _, _ => by simp [cplx, cexpPos]
  | e :: es, k, i => by
    rw [List.length_cons, List.range'_succ]
    by_cases hc : isCexp T f e = true
    · simp only [cplx, cexpPos, hc, if_true]
      exact List.perm_middle.trans ((cplx_perm es k (i + 1)).cons i)
    · simp only [cplx, cexpPos, hc]
      rw [if_neg (by simp), if_neg (by simp), List.map_cons, List.cons_append]
      exact (cplx_perm es (k + 1) (i + 1)).cons i

theorem cplx_ndp {T : Texts} {f : Id} (es : List Exp) (k i : Nat) : ((cplx T f es k i).map Item.pos).Nodup := by
  have := (cplx_perm (T := T) (f := f) es k i).nodup_iff.2 List.nodup_range'
  exact (List.nodup_append.1 this).1

theorem cplx_decls {T : Texts} {f : Id} : ∀ (es : List Exp) (k i : Nat), (temps k (complex T f es)).map (Stmt.decl · none) = declsI T f (cplx T f es k i)
  | [], _, _ => by simp [cplx, complex, temps, declsI]
  | e :: es, k, i => by
    by_cases hc : isCexp T f e = true
    · simp only [cplx, complex, hc, if_true]; exact cplx_decls es k (i + 1)
    · simp only [cplx, complex, hc]
      rw [if_neg (by simp), if_neg (by simp), temps, List.map_cons, cplx_decls es (k + 1) (i + 1)]
      simp [declsI, hc]

theorem cplx_inits {T : Texts} {f : Id} : ∀ (es : List Exp) (k i : Nat) (Γ : Labels) (n : Nat), cgRev T f es k Γ n = initsI T f (cplx T f es k i).reverse Γ n
  | [], _, _, _, _ => by simp [cplx, cgRev, initsI]
  | e :: es, k, i, Γ, n => by
    by_cases hc : isCexp T f e = true
    · simp only [cplx, cgRev, hc, if_true]; exact cplx_inits es k (i + 1) Γ n
    · simp only [cplx, cgRev, hc]
      rw [if_neg (by simp), if_neg (by simp), List.reverse_cons, initsI_append, ← cplx_inits es (k + 1) (i + 1) Γ n]
      simp [initsI, hc]

theorem cplx_tmp {T : Texts} {f : Id} {fr : Frame} {d : Nat → Val} : ∀ (es : List Exp) (k i : Nat), (∀ a ∈ cplx T f es k i, fr a.id = some (d a.pos)) → HTmp T f fr d es k i
  | [], _, _, _ => trivial
  | e :: es, k, i, h => by
    by_cases hc : isCexp T f e = true
    · simp only [cplx, HTmp, hc, if_true] at h ⊢; exact cplx_tmp es k (i + 1) h
    · simp only [cplx, HTmp, hc] at h ⊢
      rw [if_neg (by simp)] at h ⊢
      exact ⟨h ⟨i, lexId k, e⟩ (by simp), cplx_tmp es (k + 1) (i + 1) (fun a ha => h a (by simp [ha]))⟩

/-- the end of a primitive. -/
theorem prim_end {n : Nat} {eff : Effect} {p : PrimName} {es : List Exp} {xs ls : List Id} {Γ : Labels} {N : Nat} {ρ : Env} {κ : Kont} {σ : Store W} {fr : Frame} {d : Nat → Val} {k : Nat}
    (hC : (G.at n).OK) (hS : StatE G es xs ls Γ N) (hr : Agr xs ρ fr) (hg : σ.glob G.f = some G.clos) (ht : HTmp G.T G.f fr d es k 0) :
    Sim G.M (n + 1) (.args (.prim eff p) es d (cexpPos G.T G.f es 0) ρ κ σ) (evalC G.M (callee G.M G.P n) fr (.prim eff.alloc p (hoisted G.T G.f es k)) σ) (Ret κ σ) := by
  rw [evalC]
  have := hoist_ok (C := G.at n) (op := .prim eff p) (ES := es) (ρ := ρ) (κ := κ) (fr := fr) (todo := []) es 0 k d σ
    (fun j e h => by simpa using h) ht hg
    (fun e he hce κ σ hg => cexp_ok hC e xs ls false ρ κ σ hce (agStacks_mem hS.ag e he) (fun x h => hS.lc x (mem_bindersAll.2 ⟨e, he, h⟩)) hr hg)
  rw [List.append_nil] at this
  refine Sim.bind this ?_
  rintro ⟨vs, σ1⟩ t ⟨d', rfl, hg1, -, hv⟩
  simp only at hv hg1 ⊢
  have hvs : vs = vals d' es.length := by rw [hv, vals, List.range_eq_range']
  rw [hvs]
  split
  · trivial
  refine sim_prim.imp ?_
  rintro ⟨v, σ2⟩ t ⟨rfl, v', σ', h1, h2⟩
  refine ⟨rfl, ?_⟩
  injection h2 with h3 h4; subst h3; subst h4
  exact (doPrim_glob h1).trans hg1

theorem prim_ok {eff : Effect} {p : PrimName} {es : List Exp} (h : ∀ e ∈ es, BodyOK G e) : BodyOK G (.prim eff p es) := by
  intro n t xs ls Γ N ρ κ σ fr hS hD
  have hE : StatE G es xs ls Γ N := by
    have ag := hS.ag; have sn := hS.sn
    simp only [agStack, Bool.and_eq_true] at ag
    simp only [sane] at sn
    exact ⟨ag.2, sn, hS.nd, hS.lc, hS.bts, hS.dis, hS.xts⟩
  by_cases hc : areCexp G.T G.f es = true
  · simp only [cgBody, hc, if_true]
    refine sim_put rfl (Same.refl _ _ _) ?_
    refine Sim.step' (any_prim eff p es (cexpPos G.T G.f es 0) (by rw [cexpPos_all hc, List.range_eq_range']) _ _ _) ?_
    rw [← hoisted_all (T := G.T) (f := G.f) hc N]
    exact prim_end (hD.calls n (Nat.le_refl _)) hE hD.agr hD.glob (HTmp_all hc _ _)
  · simp only [cgBody, hc, Bool.false_eq_true, if_false]
    have hm := cplx_mem (T := G.T) (f := G.f) es N 0
    have hL : ∀ a ∈ (cplx G.T G.f es N 0).reverse, a.e ∈ es := fun a ha => (hm a (List.mem_reverse.1 ha)).2.1
    have hSL : StatL G (cplx G.T G.f es N 0).reverse xs ls Γ (N + complex G.T G.f es) := by
      refine hE.items (by omega) hL ?_ ?_ ?_ ?_ ?_
      · intro a ha h
        obtain ⟨-, -, -, k', h1, h2, -⟩ := hm a (List.mem_reverse.1 ha)
        rw [h1] at h; have := hE.xts _ h; rw [lexId_ts] at this; omega
      · intro a ha h
        obtain ⟨-, -, -, k', h1, h2, -⟩ := hm a (List.mem_reverse.1 ha)
        rw [h1] at h; have := hE.bts _ h; rw [lexId_ts] at this; omega
      · intro a ha
        obtain ⟨-, -, -, k', h1, h2, h3⟩ := hm a (List.mem_reverse.1 ha)
        rw [h1, lexId_ts]; omega
      · rw [List.map_reverse]; exact List.nodup_reverse.2 (cplx_ndi _ _ _)
      · rw [List.map_reverse]; exact List.nodup_reverse.2 (cplx_ndp _ _ _)
    have hx : xpos G.T G.f (cplx G.T G.f es N 0).reverse = ((cplx G.T G.f es N 0).map Item.pos).reverse := by
      rw [xpos, List.filter_eq_self.2 (fun a ha => by simp [(hm a (List.mem_reverse.1 ha)).1]), List.map_reverse]
    have hcp : cpos G.T G.f (cplx G.T G.f es N 0).reverse = [] := by
      rw [cpos, List.filter_eq_nil_iff.2 (fun a ha => by simp [(hm a (List.mem_reverse.1 ha)).1]), List.map_nil]
    show Sim _ _ _ (execs _ _ _ _ _) _
    rw [execs_block]
    refine Sim.step' (any_prim eff p es (((cplx G.T G.f es N 0).map Item.pos).reverse ++ cexpPos G.T G.f es 0) (by
      rw [List.range_eq_range']
      exact ((List.reverse_perm _).append_right _).trans (cplx_perm es N 0)) _ _ _) ?_
    have key := items_ok (op := .prim eff p) (ES := es) (ρ := ρ) (κ := κ) (todo := cexpPos G.T G.f es 0) hD.calls (cplx G.T G.f es N 0).reverse (fun _ => .trap) fr σ
      [.put t (.prim eff.alloc p (hoisted G.T G.f es N))] (Post G n t (binders (.prim eff p es)) N κ fr σ) hSL (fun a ha => h a.e (hL a ha)) (fun a ha => by
        obtain ⟨-, -, ⟨j, h1, h2⟩, -⟩ := hm a (List.mem_reverse.1 ha)
        rw [h1, Nat.zero_add]; exact h2) hD.agr hD.glob (fun d' fr' σ' hg hv _ hs hr => by
        refine sim_put hg ?_ (prim_end (hD.calls n (Nat.le_refl _)) hE hr (by rw [hg]; exact hD.glob) (cplx_tmp es N 0 (fun a ha => hv a (List.mem_reverse.2 ha))))
        intro y hy hN
        refine hs y ?_ (by omega)
        rw [List.mem_append, not_or]
        refine ⟨fun hm' => ?_, fun hm' => hy (bindersI_sub hL hm')⟩
        obtain ⟨a, ha, rfl⟩ := List.mem_map.1 hm'
        obtain ⟨-, -, -, k', h1, h2, -⟩ := hm a (List.mem_reverse.1 ha)
        rw [h1, lexId_ts] at hN; omega)
    rw [hcp, hx, List.nil_append] at key
    rw [cplx_inits es N 0, List.map_reverse, cplx_decls es N 0]
    have e2 : declsI G.T G.f (cplx G.T G.f es N 0).reverse = (declsI G.T G.f (cplx G.T G.f es N 0)).reverse := by simp [declsI]
    rw [e2] at key
    exact key

/-! ### operands with a variable each -/

/-- operands and variables, from position `i`. -/
def pairs : List Id → List Exp → Nat → List Item
  | x :: xs, e :: es, i => ⟨i, x, e⟩ :: pairs xs es (i + 1)
  | _, _, _ => []

theorem pairs_mem : ∀ (ids : List Id) (es : List Exp) (i : Nat), ∀ a ∈ pairs ids es i, a.e ∈ es ∧ a.id ∈ ids ∧ ∃ j : Nat, a.pos = i + j ∧ es[j]? = some a.e ∧ ids[j]? = some a.id
  | [], _, _, a, h => by simp [pairs] at h
  | _ :: _, [], _, a, h => by simp [pairs] at h
  | x :: xs, e :: es, i, a, h => by
    simp only [pairs] at h
    rcases List.mem_cons.1 h with rfl | h
    · exact ⟨by simp, by simp, 0, rfl, rfl, rfl⟩
    · obtain ⟨h1, h2, j, h3, h4, h5⟩ := pairs_mem xs es (i + 1) a h
      exact ⟨by simp [h1], by simp [h2], j + 1, by omega, by simpa using h4, by simpa using h5⟩

theorem mem_pairs : ∀ (ids : List Id) (es : List Exp) (i j : Nat) (x : Id) (e : Exp), ids[j]? = some x → es[j]? = some e → (⟨i + j, x, e⟩ : Item) ∈ pairs ids es i
  | [], _, _, _, _, _, h, _ => by simp at h
  | _ :: _, [], _, _, _, _, _, h => by simp at h
  | x :: xs, e :: es, i, 0, y, e', h1, h2 => by
    simp at h1 h2; subst h1; subst h2; simp [pairs]
  | x :: xs, e :: es, i, j + 1, y, e', h1, h2 => by
    simp at h1 h2
    have := mem_pairs xs es (i + 1) j y e' h1 h2
    rw [show i + (j + 1) = i + 1 + j by omega]
    simp [pairs, this]

theorem pairs_id : ∀ (ids : List Id) (es : List Exp) (i : Nat), ids.length = es.length → (pairs ids es i).map Item.id = ids
  | [], _, _, _ => by simp [pairs]
  | _ :: _, [], _, h => by simp at h
  | x :: xs, e :: es, i, h => by simp [pairs, pairs_id xs es (i + 1) (by simpa using h)]

theorem pairs_pos : ∀ (ids : List Id) (es : List Exp) (i : Nat), ids.length = es.length → (pairs ids es i).map Item.pos = List.range' i es.length
  | [], [], _, _ => by simp [pairs]
  | [], _ :: _, _, h => by simp at h
  | _ :: _, [], _, h => by simp at h
  | x :: xs, e :: es, i, h => by simp [pairs, pairs_pos xs es (i + 1) (by simpa using h), List.range'_succ]

theorem pairs_decls {T : Texts} {f : Id} : ∀ (ids : List Id) (es : List Exp) (i : Nat), decls T f ids es = declsI T f (pairs ids es i)
  | [], _, _ => by simp [pairs, decls, declsI]
  | _ :: _, [], _ => by simp [pairs, decls, declsI]
  | x :: xs, e :: es, i => by rw [decls, pairs_decls xs es (i + 1)]; simp [pairs, declsI]

theorem pairs_inits {T : Texts} {f : Id} {Γ : Labels} : ∀ (ids : List Id) (es : List Exp) (i n : Nat), cgInits T f ids es Γ n = initsI T f (pairs ids es i) Γ n
  | [], _, _, _ => by simp [pairs, cgInits, initsI]
  | _ :: _, [], _, _ => by simp [pairs, cgInits, initsI]
  | x :: xs, e :: es, i, n => by
    simp only [cgInits, pairs, initsI]
    split
    · exact pairs_inits xs es (i + 1) n
    · simp only [pairs_inits xs es (i + 1)]

theorem order_perm (T : Texts) (f : Id) (L : List Item) (k : Nat) (h : (L.map Item.pos).Perm (List.range' 1 k)) :
    (0 :: (cpos T f L ++ (xpos T f L ++ []))).Perm (List.range (k + 1)) := by
  rw [List.range_eq_range', List.range'_succ, List.append_nil]
  refine List.Perm.cons 0 (List.Perm.trans ?_ h)
  rw [cpos, xpos, ← List.map_append]
  exact (List.filter_append_perm _ L).map _

/-- the values of operands at their positions. -/
theorem vals_pairs {ids : List Id} {es : List Exp} {fr : Frame} {d : Nat → Val} {v : Val} (hl : ids.length = es.length) (h0 : d 0 = v) (h : ∀ a ∈ pairs ids es 1, fr a.id = some (d a.pos)) :
    ∃ vs, vals d (es.length + 1) = v :: vs ∧ ids.length = vs.length ∧ ∀ (i : Nat) x, ids[i]? = some x → fr x = vs[i]? := by
  refine ⟨(List.range' 1 es.length).map d, by rw [vals_cons, h0], by simp [hl], ?_⟩
  intro i x hx
  have hi : i < es.length := by
    rw [← hl]; exact (List.getElem?_eq_some_iff.1 hx).1
  have := h _ (mem_pairs ids es 1 i x es[i] hx (List.getElem?_eq_getElem hi))
  simp only at this
  rw [this]
  simp [hi]

/-! ### `let` -/

theorem agr_bind {ids xs : List Id} {vs : List Val} {ρ : Env} {fr : Frame} (hn : ids.Nodup) (hl : ids.length = vs.length) (hv : ∀ (i : Nat) x, ids[i]? = some x → fr x = vs[i]?)
    (hd : ∀ x ∈ xs, x ∉ ids) (ha : Agr xs ρ fr) : Agr (ids ++ xs) (bindAll ids vs ρ) fr := by
  intro x hx
  rcases List.mem_append.1 hx with hx | hx
  · obtain ⟨i, hi⟩ := List.getElem?_of_mem hx
    have hlt : i < vs.length := by rw [← hl]; exact (List.getElem?_eq_some_iff.1 hi).1
    exact ⟨vs[i], by rw [bindAll_lookup hn hl hi, List.getElem?_eq_getElem hlt], by rw [hv i x hi, List.getElem?_eq_getElem hlt]⟩
  · obtain ⟨v, h1, h2⟩ := ha x hx
    exact ⟨v, by rw [bindAll_lookup_not (hd x hx)]; exact h1, h2⟩

/-- the static conditions on the operands of a `let`. -/
theorem Stat.letE {ids : List Id} {b : Exp} {es : List Exp} {t : Tgt} {xs ls : List Id} {Γ : Labels} {N : Nat} (hS : Stat G (.app (.lam ids b) es) t xs ls Γ N) : StatE G es xs ls Γ N := by
  have ag := hS.ag; have sn := hS.sn; have nd := hS.nd
  simp only [agStack, Bool.and_eq_true] at ag
  simp only [sane, Bool.and_eq_true] at sn
  simp only [binders, List.nodup_append] at nd
  exact ⟨ag.1.2, sn.1, nd.2.1, fun x h => hS.lc x (by simp [binders, h]), fun x h => hS.bts x (by simp [binders, h]), fun x hx h => hS.dis x hx (by simp [binders, h]), hS.xts⟩

/-- the body of a `let`. -/
theorem let_body {n : Nat} {ids : List Id} {b : Exp} {es : List Exp} {t : Tgt} {xs ls : List Id} {Γ : Labels} {N m : Nat} {ρ : Env} {κ : Kont} {σ σ0 : Store W} {fr fr0 : Frame}
    {vs : List Val} (hb : BodyOK G b) (hS : Stat G (.app (.lam ids b) es) t xs ls Γ N) (hD : Dyn G n (.app (.lam ids b) es) t xs Γ N ρ fr0 σ0) (hm : N ≤ m)
    (ys : List Id) (hys : xs ⊆ ys) (hys' : ys ⊆ ids ++ xs) (ag : agStack G.f G.known b ys ls (decide (t = .ret)) = true) (ht : ∀ x, t = .var x → x ∉ ys)
    (hg : σ.glob = σ0.glob) (hr : Agr ys (bindAll ids vs ρ) fr) (hs : Same (binders (.app (.lam ids b) es)) N fr0 fr)
    (hl : t = .ret → Loc G (binders b) (cgBody G.T G.f b t Γ m).1) :
    Sim G.M (n + 1) (.ev b (bindAll ids vs ρ) κ σ) (G.ex n (cgBody G.T G.f b t Γ m).1 fr σ) (Post G n t (binders (.app (.lam ids b) es)) N κ fr0 σ0) := by
  have sn := hS.sn; have nd := hS.nd
  simp only [sane, Bool.and_eq_true] at sn
  simp only [binders, List.nodup_append] at nd
  have hB : binders b ⊆ binders (.app (.lam ids b) es) := fun x h => by simp [binders, h]
  have hI : ids ⊆ binders (.app (.lam ids b) es) := fun x h => by simp [binders, h]
  refine (hb n t ys ls Γ m _ κ σ fr ⟨ag, sn.2, nd.1.2.1, fun x hx => hS.lc x (hB hx), fun x hx => by have := hS.bts x (hB hx); omega, ?_, ?_, ?_⟩
    ⟨hD.calls, hr, by rw [hg]; exact hD.glob, fun h => (hD.labs h).env hB hm hys (Nat.le_refl _) ?_, hl⟩).imp ?_
  · intro x hx h
    rcases List.mem_append.1 (hys' hx) with hx | hx
    · exact nd.1.2.2 x hx x h rfl
    · exact hS.dis x hx (hB h)
  · intro x hx
    rcases List.mem_append.1 (hys' hx) with hx | hx
    · have := hS.bts x (hI hx); omega
    · have := hS.xts x hx; omega
  · intro x hx
    obtain ⟨h1, h2, h3⟩ := hS.tgt x hx
    exact ⟨ht x hx, fun h => h2 (hB h), by omega⟩
  · intro y hy
    refine bindAll_lookup_not (fun hm' => ?_)
    rcases hy with hy | hy
    · exact hS.dis y hy (hI hm')
    · exact hy (hI hm')
  · intro fl s h
    exact h.weak hB hm hg hs

theorem null_ok {b : Exp} (hb : BodyOK G b) : BodyOK G (.app (.lam [] b) []) := by
  intro n t xs ls Γ N ρ κ σ fr hS hD
  have ag := hS.ag
  simp only [agStack, Bool.and_eq_true, List.nil_append] at ag
  have hlo := hD.loc
  simp only [cgBody] at hlo ⊢
  refine Sim.step' (any_app _ [] [0] (by simp) _ _ _) ?_
  refine Sim.step' (any_arg (e := .lam [] b) rfl _ _ _) ?_
  refine Sim.step' (any_lam _ _ _ _ _) ?_
  refine Sim.step' (any_ret _ _ _ _ _ _ _ _ _) ?_
  refine Sim.step' (any_call (f := .clos [] b ρ) (vs := []) (by simp [vals, upd]) _ _ _) ?_
  refine Sim.step' (any_clos rfl _ _ _ _) ?_
  refine let_body (vs := []) hb hS hD (Nat.le_refl _) xs (List.Subset.refl _) (by simp) ag.2 (fun x hx => (hS.tgt x hx).1) rfl hD.agr (Same.refl _ _ _) (fun h => ?_)
  obtain ⟨k, hk⟩ := hlo h
  exact ⟨k, fun x hx => hk x (by simp [binders, hx])⟩

theorem let_ok {ids : List Id} {b : Exp} {es : List Exp} (hb : BodyOK G b) (he : ∀ e ∈ es, BodyOK G e) (hne : ¬ (ids = [] ∧ es = [])) (h1 : isIdLet (.app (.lam ids b) es) = false)
    (h2 : isBegin (.app (.lam ids b) es) = false) : BodyOK G (.app (.lam ids b) es) := by
  intro n t xs ls Γ N ρ κ σ fr hS hD
  have ag := hS.ag; have nd := hS.nd
  simp only [agStack, Bool.and_eq_true, decide_eq_true_eq] at ag
  simp only [binders, List.nodup_append] at nd
  have hlo := hD.loc
  have e1 : cgBody G.T G.f (.app (.lam ids b) es) t Γ N = ([.block (decls G.T G.f ids es ++ ((cgInits G.T G.f ids es Γ N).1 ++ (cgBody G.T G.f b t Γ (cgInits G.T G.f ids es Γ N).2).1))],
      (cgBody G.T G.f b t Γ (cgInits G.T G.f ids es Γ N).2).2) := by
    rw [cgBody]
    · simp only [h1, h2, Bool.false_eq_true, if_false, ag.1.1, if_true]
    · intro h h'; exact hne ⟨by assumption, by assumption⟩
  rw [e1] at hlo ⊢
  have hm := pairs_mem ids es 1
  have hL : ∀ a ∈ pairs ids es 1, a.e ∈ es := fun a ha => (hm a ha).1
  have hI : ids ⊆ binders (.app (.lam ids b) es) := fun x h => by simp [binders, h]
  have hSL : StatL G (pairs ids es 1) xs ls Γ N := by
    refine hS.letE.items (Nat.le_refl _) hL ?_ ?_ ?_ ?_ ?_
    · intro a ha h; exact hS.dis _ h (hI (hm a ha).2.1)
    · intro a ha h; exact nd.2.2 a.id (by simp [(hm a ha).2.1]) a.id h rfl
    · intro a ha; exact hS.bts _ (hI (hm a ha).2.1)
    · rw [pairs_id _ _ _ ag.1.1]; exact nd.1.1
    · rw [pairs_pos _ _ _ ag.1.1]; exact List.nodup_range'
  show Sim _ _ _ (execs _ _ _ _ _) _
  rw [execs_block]
  refine Sim.step' (any_app _ es (0 :: (cpos G.T G.f (pairs ids es 1) ++ (xpos G.T G.f (pairs ids es 1) ++ [])))
    (by rw [List.length_cons]; exact order_perm _ _ _ _ (by rw [pairs_pos _ _ _ ag.1.1])) _ _ _) ?_
  refine Sim.step' (any_arg (e := .lam ids b) rfl _ _ _) ?_
  refine Sim.step' (any_lam _ _ _ _ _) ?_
  refine Sim.step' (any_ret _ _ _ _ _ _ _ _ _) ?_
  rw [pairs_decls ids es 1, pairs_inits ids es 1] at *
  refine items_ok (op := .call) (ES := .lam ids b :: es) (ρ := ρ) (κ := κ) (todo := []) hD.calls (pairs ids es 1) _ fr σ
    _ (Post G n t (binders (.app (.lam ids b) es)) N κ fr σ) hSL (fun a ha => he a.e (hL a ha)) (fun a ha => by
        obtain ⟨-, -, j, h1, h2, -⟩ := hm a ha
        rw [h1, show 1 + j = j + 1 by omega]; simpa using h2) hD.agr hD.glob (fun d' fr' σ' hg hv hd hs hr => ?_)
  have h0 : d' 0 = .clos ids b ρ := by
    rw [hd 0 (by rw [pairs_pos _ _ _ ag.1.1]; simp)]; simp [upd]
  obtain ⟨vs, e2, e3, e4⟩ := vals_pairs ag.1.1 h0 hv
  refine Sim.step' (any_call (f := .clos ids b ρ) (vs := vs) (by rw [List.length_cons]; exact e2) _ _ _) ?_
  refine Sim.step' (any_clos e3 _ _ _ _) ?_
  refine let_body hb hS hD ?_ (ids ++ xs) (by simp) (List.Subset.refl _) ag.2 ?_ hg (agr_bind nd.1.1 e3 e4 (fun x hx h => hS.dis x hx (hI h)) hr) ?_ ?_
  · rw [← pairs_inits]; exact (cg_mono G.T G.f).2.2.1 ids es Γ N
  · intro x hx h
    rcases List.mem_append.1 h with h | h
    · exact (hS.tgt x hx).2.1 (hI h)
    · exact (hS.tgt x hx).1 h
  · refine hs.weak ?_ (Nat.le_refl _)
    rw [pairs_id _ _ _ ag.1.1]
    intro y hy
    rcases List.mem_append.1 hy with hy | hy
    · exact hI hy
    · have := bindersI_sub hL hy
      simp [binders, this]
  · intro ht
    refine (hlo ht).sub (fun x h => by simp [binders, h]) [] (fun x hx => ?_)
    rw [findLabel_block, ← pairs_decls, findLabel_right (findLabel_decls _ _ _ _), ← pairs_inits, findLabel_right ((cg_labels G.T G.f x).2.2.1 ids es Γ N ?_)]
    · cases findLabel (Lab.id x) (cgBody G.T G.f b t Γ (cgInits G.T G.f ids es Γ N).2).1 <;> simp
    · exact fun h => nd.2.2 x (by simp [hx]) x h rfl

/-! ### `let` with one variable -/

theorem ag_tail (f : Id) (known : Id → Bool) : ∀ (e : Exp) (xs ls : List Id), agStack f known e xs ls false = true → agStack f known e xs ls true = true := by
  intro e xs ls
  have := agStack.induct (motive_1 := fun e xs ls t => t = false → agStack f known e xs ls t = true → agStack f known e xs ls true = true)
    (motive_2 := fun _ _ _ => True) (motive_3 := fun _ _ _ => True)
  refine fun h => this ?_ ?_ ?_ ?_ ?_ ?_ ?_ ?_ ?_ ?_ ?_ ?_ ?_ e xs ls false rfl h
  all_goals intros
  all_goals first
    | trivial
    | (subst_vars; simp_all [agStack])

theorem sane_tail : ∀ (e : Exp) (Γ : Labels), sane e Γ false = true → sane e Γ true = true := by
  intro e Γ
  have := sane.induct (motive_1 := fun e Γ t => t = false → sane e Γ t = true → sane e Γ true = true)
    (motive_2 := fun _ _ => True) (motive_3 := fun _ _ => True)
  refine fun h => this ?_ ?_ ?_ ?_ ?_ ?_ ?_ ?_ ?_ ?_ ?_ ?_ e Γ false rfl h
  all_goals intros
  all_goals first
    | trivial
    | (subst_vars; simp_all [sane])

theorem Post.cont {n : Nat} {t : Tgt} {B : List Id} {N : Nat} {κ κ' : Kont} {fr : Frame} {σ : Store W} {fl : Flow W} {s : State W} (hk : ∀ v (σ : Store W), ∃ m, Runs G.M m (.ret v κ' σ) (.ret v κ σ))
    (h : Post G n t B N κ' fr σ fl s) : ∃ m u, Runs G.M m s u ∧ Post G n t B N κ fr σ fl u := by
  cases t with
  | ret =>
    refine ⟨0, s, .refl s, h.1, h.2.after ?_⟩
    rintro ⟨v, σ1⟩ s ⟨rfl, hg⟩
    obtain ⟨m, hm⟩ := hk v σ1
    exact ⟨m, _, hm, rfl, hg⟩
  | void =>
    obtain ⟨v, fr', σ', rfl, rfl, h1⟩ := h
    obtain ⟨m, hm⟩ := hk v σ'
    exact ⟨m, _, hm, v, fr', σ', rfl, rfl, h1⟩
  | var x =>
    obtain ⟨v, fr', σ', rfl, rfl, h1⟩ := h
    obtain ⟨m, hm⟩ := hk v σ'
    exact ⟨m, _, hm, v, fr', σ', rfl, rfl, h1⟩

/-- to the operand of a `let`. -/
theorem let1_start {M : Sem W} {n : Nat} {α : Type} {x : Id} {b e : Exp} {ρ : Env} {κ : Kont} {σ : Store W} {r : Res W α} {post : α → State W → Prop}
    (h : Sim M n (.ev e ρ (.args .call [.lam [x] b, e] (upd (fun _ => .trap) 0 (.clos [x] b ρ)) 1 [] ρ κ) σ) r post) : Sim M n (.ev (.app (.lam [x] b) [e]) ρ κ σ) r post := by
  refine Sim.step' (any_app _ [e] [0, 1] (by simp [List.range_succ]) _ _ _) ?_
  refine Sim.step' (any_arg (e := .lam [x] b) rfl _ _ _) ?_
  refine Sim.step' (any_lam _ _ _ _ _) ?_
  refine Sim.step' (any_ret _ _ _ _ _ _ _ _ _) ?_
  exact Sim.step' (any_arg (e := e) rfl _ _ _) h

/-- from its value to the body. -/
theorem let1_end {M : Sem W} {x : Id} {b e : Exp} {ρ : Env} {κ : Kont} (v : Val) (σ : Store W) :
    Runs M 3 (.ret v (.args .call [.lam [x] b, e] (upd (fun _ => .trap) 0 (.clos [x] b ρ)) 1 [] ρ κ) σ) (.ev b (bindAll [x] [v] ρ) κ σ) :=
  .step (any_ret _ _ _ _ _ _ _ _ _) (.step (any_call (f := .clos [x] b ρ) (vs := [v]) (by simp [vals, upd, List.range_succ]) _ _ _) (.step (any_clos rfl _ _ _ _) (.refl _)))

theorem idlet_ok {x : Id} {e : Exp} (he : BodyOK G e) : BodyOK G (.app (.lam [x] (.var x)) [e]) := by
  intro n t xs ls Γ N ρ κ σ fr hS hD
  have hE := hS.letE
  have hb : binders e ⊆ binders (.app (.lam [x] (.var x)) [e]) := fun y hy => by simp [binders, bindersAll, hy]
  have hx : x.isGlobal = false := hS.lc x (by simp [binders])
  have e1 : cgBody G.T G.f (.app (.lam [x] (.var x)) [e]) t Γ N = cgBody G.T G.f e t Γ N := by
    rw [cgBody]
    · simp [isIdLet, cgOne]
    · simp
  have hlo := hD.loc
  rw [e1] at hlo ⊢
  refine let1_start ?_
  have ag := agStacks_mem hE.ag e (by simp)
  have sn := sanes_mem hE.sn e (by simp)
  refine (he n t xs ls Γ N ρ _ σ fr ⟨?_, ?_, nodup_bindersAll hE.nd e (by simp), fun y hy => hS.lc y (hb hy), fun y hy => hS.bts y (hb hy), fun y hy h => hS.dis y hy (hb h), hS.xts, fun y hy => ?_⟩
    ⟨hD.calls, hD.agr, hD.glob, fun h => (hD.labs h).mono hb (Nat.le_refl _), fun h => ?_⟩).after ?_
  · cases hd : decide (t = Tgt.ret) with
    | true => exact ag_tail _ _ _ _ _ ag
    | false => exact ag
  · cases hd : decide (t = Tgt.ret) with
    | true => exact sane_tail _ _ sn
    | false => exact sn
  · obtain ⟨h1, h2, h3⟩ := hS.tgt y hy
    exact ⟨h1, fun h => h2 (hb h), h3⟩
  · obtain ⟨k, hk⟩ := hlo h
    exact ⟨k, fun y hy => hk y (hb hy)⟩
  · intro fl s h
    obtain ⟨m, u, h1, h2⟩ := Post.cont (κ := κ) (fun v σ => ⟨4, (let1_end v σ).trans (.one (any_var_loc hx (v := v) (by simp [bindAll, Env.lookup]) _ _))⟩) h
    exact ⟨m, u, h1, h2.weak hb (Nat.le_refl _) rfl (Same.refl _ _ _)⟩

theorem begin_ok {x : Id} {b e : Exp} (he : BodyOK G e) (hb : BodyOK G b) (h1 : isIdLet (.app (.lam [x] b) [e]) = false) (h2 : isBegin (.app (.lam [x] b) [e]) = true) :
    BodyOK G (.app (.lam [x] b) [e]) := by
  intro n t xs ls Γ N ρ κ σ fr hS hD
  have hE := hS.letE
  have ag := hS.ag; have nd := hS.nd
  simp only [agStack, Bool.and_eq_true, decide_eq_true_eq] at ag
  simp only [binders, List.nodup_append] at nd
  have hbe : binders e ⊆ binders (.app (.lam [x] b) [e]) := fun y hy => by simp [binders, bindersAll, hy]
  have e1 : cgBody G.T G.f (.app (.lam [x] b) [e]) t Γ N = ((cgBody G.T G.f e .void Γ N).1 ++ (cgBody G.T G.f b t Γ (cgBody G.T G.f e .void Γ N).2).1,
      (cgBody G.T G.f b t Γ (cgBody G.T G.f e .void Γ N).2).2) := by
    rw [cgBody]
    · simp only [h1, h2, Bool.false_eq_true, if_false, if_true, cgOne]
    · simp
  have hlo := hD.loc
  rw [e1] at hlo ⊢
  have hfx : ¬ Free x b := by
    intro hf
    have := (c47_referenced x b).1.2 hf
    simp [isBegin, this] at h2
  have hxb : x ∉ binders b := fun h => nd.1.2.2 x (by simp) x h rfl
  refine let1_start ?_
  refine sim_seq (Q := fun fr1 σ1 s => ∃ v, s = .ret v (.args .call [.lam [x] b, e] (upd (fun _ => .trap) 0 (.clos [x] b ρ)) 1 [] ρ κ) σ1 ∧ σ1.glob = σ.glob ∧ Same (binders e) N fr fr1)
    ((he n .void xs ls Γ N ρ _ σ fr ⟨by simpa using agStacks_mem hE.ag e (by simp), by simpa using sanes_mem hE.sn e (by simp), nodup_bindersAll hE.nd e (by simp), fun y hy => hS.lc y (hbe hy),
      fun y hy => hS.bts y (hbe hy), fun y hy h => hS.dis y hy (hbe h), hS.xts, by simp⟩ ⟨hD.calls, hD.agr, hD.glob, by simp, by simp⟩).imp ?_) ?_
  · rintro fl s ⟨v, fr', σ', rfl, rfl, h1, h2, h3⟩
    exact ⟨fr', σ', rfl, v, rfl, h1, h3⟩
  rintro fr1 σ1 s ⟨v, rfl, hg1, hs1⟩
  refine (Sim.runs (n := n + 1) (let1_end v σ1) ?_).mono (by omega)
  have hr1 : Agr xs ρ fr1 := hs1.agrN (fun y hy h => hS.dis y hy (hbe h)) hS.xts hD.agr
  refine let_body hb hS hD ((cg_mono G.T G.f).1 e .void Γ N) xs (List.Subset.refl _) (by simp) ?_ (fun y hy => (hS.tgt y hy).1) hg1 ?_ (hs1.weak hbe (Nat.le_refl _)) ?_
  · refine (ag_free G.f G.known).1 b _ ls _ xs (fun y hy hm => ?_) ag.2
    rcases List.mem_append.1 hm with hm | hm
    · rw [List.mem_singleton] at hm; subst hm
      exact (hy.elim hfx hxb).elim
    · exact hm
  · intro y hy
    obtain ⟨w, h3, h4⟩ := hr1 y hy
    exact ⟨w, by rw [bindAll_lookup_not (fun h => hS.dis y hy (by simp [binders, List.mem_singleton.1 h]))]; exact h3, h4⟩
  · intro ht
    refine (hlo ht).sub (fun y h => by simp [binders, h]) [] (fun y hy => ?_)
    rw [findLabel_right ((cg_labels G.T G.f y).1 e .void Γ N (fun h => nd.2.2 y (by simp [hy]) y (by simp [bindersAll, h]) rfl))]
    cases findLabel (Lab.id y) (cgBody G.T G.f b t Γ (cgBody G.T G.f e .void Γ N).2).1 <;> simp

theorem app_lam_ok {ids : List Id} {b : Exp} {es : List Exp} (hb : BodyOK G b) (he : ∀ e ∈ es, BodyOK G e) : BodyOK G (.app (.lam ids b) es) := by
  by_cases h0 : ids = [] ∧ es = []
  · obtain ⟨rfl, rfl⟩ := h0; exact null_ok hb
  cases h1 : isIdLet (.app (.lam ids b) es) with
  | true =>
    unfold isIdLet at h1
    split at h1
    · rename_i x y e heq
      injection heq with h3 h4; injection h3 with h5 h6
      subst h4; subst h5; subst h6
      simp only [decide_eq_true_eq] at h1; subst h1
      exact idlet_ok (he _ (by simp))
    · cases h1
  | false =>
    cases h2 : isBegin (.app (.lam ids b) es) with
    | true =>
      have h2' := h2
      unfold isBegin at h2'
      split at h2'
      · rename_i x y e heq
        injection heq with h3 h4; injection h3 with h5 h6
        subst h4; subst h5; subst h6
        exact begin_ok (he _ (by simp)) hb h1 h2
      · cases h2'
    | false => exact let_ok hb he h0 h1 h2

end Verif.Stackfn

import Verif.Stackfn.Static
/-
What is proved of code for bodies, and the code for operands.
-/
namespace Verif.Stackfn
open Verif.Core
variable {W : Type}

/-- the parameters of labels. -/
def arity (g : Id) (n : Nat) (Γ : Labels) : Bool :=
  match params g Γ with
  | some ps => decide (ps.length = n)
  | none => true

mutual
/-- Calls of the function and of labels have the right number of arguments; a `fix` that is no loop is in tail position
(`ag-stack-function?` checks neither). -/
def sane : Exp → Labels → Bool → Bool
  | .ite a b c, Γ, t => sane a Γ false && sane b Γ t && sane c Γ t
  | .prim _ _ es, Γ, _ => sanes es Γ
  | .app (.lam _ b) es, Γ, t => sanes es Γ && sane b Γ t
  | .app (.fix [x] [.lam ps b] (.var _)) es, Γ, _ =>
    decide (ps.length = es.length) && sanes es (register [x] [.lam ps b] Γ) && sane b (register [x] [.lam ps b] Γ) true
  | .app (.var g) es, Γ, _ => arity g es.length Γ && sanes es Γ
  | .fix ids lams b, Γ, t => t && decide (ids.length = lams.length) && sane b (register ids lams Γ) true && saneLams lams (register ids lams Γ)
  | _, _, _ => true
@[inherit_doc sane]
def sanes : List Exp → Labels → Bool
  | [], _ => true
  | e :: es, Γ => sane e Γ false && sanes es Γ
@[inherit_doc sane]
def saneLams : List Exp → Labels → Bool
  | [], _ => true
  | .lam _ b :: es, Γ => sane b Γ true && saneLams es Γ
  | _ :: _, _ => false
end

/-- What is fixed: meaning of primitives, texts, the procedure and its C function. -/
structure Prog (W : Type) where
  M : Sem W
  T : Texts
  f : Id
  clos : Val
  known : Id → Bool
  P : Fn

/-- calls with fuel `n`. -/
def callee (M : Sem W) (P : Fn) (n : Nat) : Callee W := fun vs σ => if P.params.length = vs.length then run M P n P.code (initFrame P.params vs) σ else .bad

/-- the context of code run with fuel `n + 1`. -/
def Prog.at (G : Prog W) (n : Nat) : Ctx W := ⟨G.M, G.T, G.f, G.clos, G.known, callee G.M G.P n, n⟩

/-- code, with fuel `n + 1`. -/
abbrev Prog.ex (G : Prog W) (n : Nat) (ss : List Stmt) (fr : Frame) (σ : Store W) : Res W (Flow W) := execs G.M (callee G.M G.P n) ss fr σ

/-- a jump. -/
def Prog.jump (G : Prog W) (n : Nat) (l : Lab) (fr : Frame) (σ : Store W) : Res W (Val × Store W) :=
  match findLabel l G.P.code with
  | some k => run G.M G.P n k fr σ
  | none => .bad

/-- what comes after the code. -/
def Prog.after (G : Prog W) (n : Nat) : Flow W → Res W (Val × Store W)
  | .ret v σ => .ok (v, σ)
  | .next _ _ => .fail
  | .jump l fr σ => G.jump n l fr σ

theorem run_succ (G : Prog W) (n : Nat) (code : List Stmt) (fr : Frame) (σ : Store W) :
    run G.M G.P (n + 1) code fr σ = (G.ex n code fr σ).bind (G.after n) := by
  rw [run]
  congr 1

/-- variables written through the target. -/
def tvars : Tgt → List Id
  | .var x => [x]
  | _ => []

/-- The value is in the target, the code goes on. -/
def NextPost (t : Tgt) (B : List Id) (N : Nat) (κ : Kont) (fr : Frame) (σ : Store W) (fl : Flow W) (s : State W) : Prop :=
  ∃ v fr' σ', fl = .next fr' σ' ∧ s = .ret v κ σ' ∧ σ'.glob = σ.glob ∧ (∀ x, t = .var x → fr' x = some v) ∧ Same (tvars t ++ B) N fr fr'

/-- What holds after the code for a body. -/
def Post (G : Prog W) (n : Nat) (t : Tgt) (B : List Id) (N : Nat) (κ : Kont) (fr : Frame) (σ : Store W) (fl : Flow W) (s : State W) : Prop :=
  match t with
  | .ret => (∀ fr' σ', fl ≠ .next fr' σ') ∧ Sim G.M (n + 1) s (G.after n fl) (Ret κ σ)
  | t => NextPost t B N κ fr σ fl s

/-- The label `g` behaves like the procedure `g`. -/
def LabOK (G : Prog W) (n : Nat) (xs : List Id) (ρ : Env) (g : Id) (ps : List Id) : Prop :=
  ∃ (xsL : List Id) (ρL : Env) (val : Val), xsL ⊆ xs ∧ (∀ x ∈ xsL, ρ.lookup x = ρL.lookup x) ∧ (∀ p ∈ ps, p ∉ xsL) ∧ ps.Nodup ∧
    ((g = G.f ∧ val = G.clos) ∨ (g.isGlobal = false ∧ ρ.lookup g = some val)) ∧
    ∀ m ≤ n, ∀ (fr : Frame) vs κ σ, σ.glob G.f = some G.clos → ps.length = vs.length → Agr xsL ρL fr → (∀ (i : Nat) p, ps[i]? = some p → fr p = vs[i]?) →
      Sim G.M m (.ap val vs κ σ) (G.jump m (.id g) fr σ) (Ret κ σ)

/-- All labels in scope. -/
def Labs (G : Prog W) (n : Nat) (B : List Id) (xs : List Id) (ρ : Env) (Γ : Labels) (N : Nat) : Prop :=
  ∀ g ps, params g Γ = some ps → g ∉ B ∧ (∀ p ∈ ps, p.ts < N) ∧ LabOK G n xs ρ g ps

/-- Labels bound in `e` are found in the code for `e`. -/
def Loc (G : Prog W) (B : List Id) (code : List Stmt) : Prop := ∃ k, ∀ x ∈ B, findLabel (.id x) G.P.code = (findLabel (.id x) code).map (· ++ k)

/-- Static conditions. -/
structure Stat (G : Prog W) (e : Exp) (t : Tgt) (xs ls : List Id) (Γ : Labels) (N : Nat) : Prop where
  ag : agStack G.f G.known e xs ls (decide (t = .ret)) = true
  sn : sane e Γ (decide (t = .ret)) = true
  nd : (binders e).Nodup
  lc : ∀ x ∈ binders e, x.isGlobal = false
  bts : ∀ x ∈ binders e, x.ts < N
  dis : ∀ x ∈ xs, x ∉ binders e
  xts : ∀ x ∈ xs, x.ts < N
  tgt : ∀ x, t = .var x → x ∉ xs ∧ x ∉ binders e ∧ x.ts < N

/-- Dynamic conditions. -/
structure Dyn (G : Prog W) (n : Nat) (e : Exp) (t : Tgt) (xs : List Id) (Γ : Labels) (N : Nat) (ρ : Env) (fr : Frame) (σ : Store W) : Prop where
  calls : ∀ m ≤ n, (G.at m).OK
  agr : Agr xs ρ fr
  glob : σ.glob G.f = some G.clos
  labs : t = .ret → Labs G n (binders e) xs ρ Γ N
  loc : t = .ret → Loc G (binders e) (cgBody G.T G.f e t Γ N).1

/-- The code for `e` does what `e` does. -/
def BodyOK (G : Prog W) (e : Exp) : Prop :=
  ∀ n t xs ls Γ N ρ κ σ fr, Stat G e t xs ls Γ N → Dyn G n e t xs Γ N ρ fr σ →
    Sim G.M (n + 1) (.ev e ρ κ σ) (G.ex n (cgBody G.T G.f e t Γ N).1 fr σ) (Post G n t (binders e) N κ fr σ)

/-! ### sequences of statements -/

theorem execs_append (M : Sem W) (F : Callee W) (a b : List Stmt) : ∀ (fr : Frame) (σ : Store W), execs M F (a ++ b) fr σ = (execs M F a fr σ).bind fun fl =>
    match fl with
    | .next fr' σ' => execs M F b fr' σ'
    | fl => .ok fl := by
  induction a with
  | nil => intro fr σ; rfl
  | cons s a ih =>
    intro fr σ
    simp only [List.cons_append, execs]
    cases exec M F s fr σ with
    | ok fl =>
      cases fl with
      | next fr' σ' => exact ih fr' σ'
      | ret v σ' => rfl
      | jump l fr' σ' => rfl
    | fail => rfl
    | stop v w => rfl
    | more => rfl
    | bad => rfl

theorem execs_one (M : Sem W) (F : Callee W) (s : Stmt) (fr : Frame) (σ : Store W) : execs M F [s] fr σ = exec M F s fr σ := by
  simp only [execs]
  cases exec M F s fr σ with
  | ok fl => cases fl <;> rfl
  | fail => rfl
  | stop v w => rfl
  | more => rfl
  | bad => rfl

theorem execs_block (M : Sem W) (F : Callee W) (ss : List Stmt) (fr : Frame) (σ : Store W) : execs M F [.block ss] fr σ = execs M F ss fr σ := by
  rw [execs_one, exec]

/-- first `a`, then `b`. -/
theorem sim_seq {M : Sem W} {F : Callee W} {n : Nat} {s : State W} {a b : List Stmt} {fr : Frame} {σ : Store W} {post : Flow W → State W → Prop}
    {Q : Frame → Store W → State W → Prop} (ha : Sim M n s (execs M F a fr σ) (fun fl t => ∃ fr' σ', fl = .next fr' σ' ∧ Q fr' σ' t))
    (hb : ∀ fr' σ' t, Q fr' σ' t → Sim M n t (execs M F b fr' σ') post) : Sim M n s (execs M F (a ++ b) fr σ) post := by
  rw [execs_append]
  refine Sim.bind ha ?_
  rintro fl t ⟨fr', σ', rfl, h⟩
  exact hb _ _ _ h

/-- code that returns or jumps is not left at its end. -/
theorem sim_cut {G : Prog W} {n m : Nat} {s : State W} {a b : List Stmt} {fr : Frame} {σ : Store W} {B B' : List Id} {N N' : Nat} {κ : Kont} {fr0 fr1 : Frame} {σ0 : Store W}
    (h : Sim G.M m s (G.ex n a fr σ) (Post G n .ret B N κ fr0 σ0)) : Sim G.M m s (G.ex n (a ++ b) fr σ) (Post G n .ret B' N' κ fr1 σ0) := by
  show Sim _ _ _ (execs _ _ _ _ _) _
  rw [execs_append]
  refine Sim.bind h ?_
  rintro fl t ⟨h1, h2⟩
  cases fl with
  | next fr' σ' => exact absurd rfl (h1 fr' σ')
  | ret v σ' => exact Sim.ok ⟨by simp, h2⟩
  | jump l fr' σ' => exact Sim.ok ⟨by simp, h2⟩

/-- the value of a C expression is put into the target. -/
theorem sim_put {G : Prog W} {n : Nat} {t : Tgt} {e : CExp} {B : List Id} {N : Nat} {κ : Kont} {s : State W} {fr fr0 : Frame} {σ σ0 : Store W}
    (hg : σ.glob = σ0.glob) (hs : Same B N fr0 fr)
    (h : Sim G.M (n + 1) s (evalC G.M (callee G.M G.P n) fr e σ) (Ret κ σ)) : Sim G.M (n + 1) s (G.ex n [.put t e] fr σ) (Post G n t B N κ fr0 σ0) := by
  show Sim _ _ _ (execs _ _ _ _ _) _
  rw [execs_one, exec]
  refine Sim.bind h ?_
  rintro ⟨v, σ1⟩ s ⟨rfl, hg1⟩
  cases t with
  | ret => exact Sim.ok ⟨by simp [put], Sim.ok ⟨rfl, hg1.trans hg⟩⟩
  | void => exact Sim.ok ⟨v, fr, σ1, rfl, rfl, hg1.trans hg, by simp, hs⟩
  | var x =>
    refine Sim.ok ⟨v, fr.set x (some v), σ1, rfl, rfl, hg1.trans hg, ?_, ?_⟩
    · intro y hy; injection hy with hy; subst hy; simp [Frame.set]
    · intro y hy hN
      simp only [tvars, List.mem_append, not_or, List.mem_singleton] at hy
      rw [Frame.set, if_neg hy.1]; exact hs y hy.2 hN

theorem Post.weak {G : Prog W} {n : Nat} {t : Tgt} {B B' : List Id} {N N' : Nat} {κ : Kont} {fr0 fr : Frame} {σ σ0 : Store W} {fl : Flow W} {s : State W}
    (h : Post G n t B N κ fr σ fl s) (hB : B ⊆ B') (hN : N' ≤ N) (hg : σ.glob = σ0.glob) (hs : Same B' N' fr0 fr) : Post G n t B' N' κ fr0 σ0 fl s := by
  have nx : ∀ t, NextPost t B N κ fr σ fl s → NextPost t B' N' κ fr0 σ0 fl s := by
    rintro t ⟨v, fr', σ', rfl, rfl, h1, h2, h3⟩
    refine ⟨v, fr', σ', rfl, rfl, h1.trans hg, h2, ?_⟩
    intro y hy ht
    rw [List.mem_append, not_or] at hy
    rw [h3 y (by rw [List.mem_append, not_or]; exact ⟨hy.1, fun e => hy.2 (hB e)⟩) (by omega), hs y hy.2 ht]
  cases t with
  | ret => exact ⟨h.1, h.2.imp (fun r t h => ⟨h.1, h.2.trans hg⟩)⟩
  | void => exact nx _ h
  | var x => exact nx _ h

/-! ### the code for operands -/

/-- An operand, its position, and the variable for its value. -/
structure Item where
  pos : Nat
  id : Id
  e : Exp

/-- declarations. -/
def declsI (T : Texts) (f : Id) (L : List Item) : List Stmt := L.map fun a => .decl a.id (if isCexp T f a.e then some (cgCexp a.e) else none)

/-- code. -/
def initsI (T : Texts) (f : Id) : List Item → Labels → Nat → List Stmt × Nat
  | [], _, n => ([], n)
  | a :: L, Γ, n =>
    if isCexp T f a.e then initsI T f L Γ n
    else
      let c := cgBody T f a.e (.var a.id) Γ n
      let r := initsI T f L Γ c.2
      (c.1 ++ r.1, r.2)

/-- positions of the operands that are C expressions. -/
def cpos (T : Texts) (f : Id) (L : List Item) : List Nat := (L.filter fun a => isCexp T f a.e).map Item.pos
/-- positions of the others. -/
def xpos (T : Texts) (f : Id) (L : List Item) : List Nat := (L.filter fun a => !isCexp T f a.e).map Item.pos

/-- Static conditions on operands. -/
structure StatL (G : Prog W) (L : List Item) (xs ls : List Id) (Γ : Labels) (N : Nat) : Prop where
  ag : ∀ a ∈ L, agStack G.f G.known a.e xs ls false = true
  sn : ∀ a ∈ L, sane a.e Γ false = true
  nd : ∀ a ∈ L, (binders a.e).Nodup
  lc : ∀ a ∈ L, ∀ x ∈ binders a.e, x.isGlobal = false
  bts : ∀ a ∈ L, ∀ x ∈ binders a.e, x.ts < N
  dis : ∀ a ∈ L, ∀ x ∈ xs, x ∉ binders a.e
  xts : ∀ x ∈ xs, x.ts < N
  idx : ∀ a ∈ L, a.id ∉ xs
  idb : ∀ a ∈ L, ∀ b ∈ L, a.id ∉ binders b.e
  ids : ∀ a ∈ L, a.id.ts < N
  ndi : (L.map Item.id).Nodup
  ndp : (L.map Item.pos).Nodup

theorem StatL.tail {G : Prog W} {a : Item} {L : List Item} {xs ls : List Id} {Γ : Labels} {N : Nat} (h : StatL G (a :: L) xs ls Γ N) : StatL G L xs ls Γ N where
  ag b hb := h.ag b (by simp [hb])
  sn b hb := h.sn b (by simp [hb])
  nd b hb := h.nd b (by simp [hb])
  lc b hb := h.lc b (by simp [hb])
  bts b hb := h.bts b (by simp [hb])
  dis b hb := h.dis b (by simp [hb])
  xts := h.xts
  idx b hb := h.idx b (by simp [hb])
  idb b hb c hc := h.idb b (by simp [hb]) c (by simp [hc])
  ids b hb := h.ids b (by simp [hb])
  ndi := (List.nodup_cons.1 (by simpa using h.ndi)).2
  ndp := (List.nodup_cons.1 (by simpa using h.ndp)).2

/-- the first phase. -/
theorem declsI_ok {G : Prog W} {n : Nat} {op : Op} {ES : List Exp} {xs ls : List Id} {Γ : Labels} {N : Nat} {ρ : Env} {κ : Kont} {todo : List Nat} (hC : (G.at n).OK) :
    ∀ (L : List Item) (d : Nat → Val) (fr : Frame) (σ : Store W), StatL G L xs ls Γ N → (∀ a ∈ L, ES[a.pos]? = some a.e) → Agr xs ρ fr → σ.glob G.f = some G.clos →
    Sim G.M (n + 1) (.args op ES d (cpos G.T G.f L ++ todo) ρ κ σ) (G.ex n (declsI G.T G.f L) fr σ) (fun fl s => ∃ fr' σ', fl = .next fr' σ' ∧
      ∃ d', s = .args op ES d' todo ρ κ σ' ∧ σ'.glob = σ.glob ∧ (∀ a ∈ L, isCexp G.T G.f a.e = true → fr' a.id = some (d' a.pos)) ∧
        (∀ i, i ∉ cpos G.T G.f L → d' i = d i) ∧ (∀ y, y ∉ L.map Item.id → fr' y = fr y)) := by
  intro L
  induction L with
  | nil => intro d fr σ _ _ _ _; exact Sim.ok ⟨fr, σ, rfl, d, rfl, rfl, by simp, fun _ _ => rfl, fun _ _ => rfl⟩
  | cons a L ih =>
    intro d fr σ hS hE hr hg
    have hid : a.id ∉ L.map Item.id := (List.nodup_cons.1 (by simpa using hS.ndi)).1
    have hpos : a.pos ∉ L.map Item.pos := (List.nodup_cons.1 (by simpa using hS.ndp)).1
    have hcp : a.pos ∉ cpos G.T G.f L := fun h => hpos (by
      simp only [cpos, List.mem_map, List.mem_filter] at h ⊢
      obtain ⟨b, hb, e⟩ := h; exact ⟨b, hb.1, e⟩)
    have hr' : ∀ v, Agr xs ρ (fr.set a.id v) := by
      intro v x hx
      obtain ⟨w, h1, h2⟩ := hr x hx
      refine ⟨w, h1, ?_⟩
      rw [Frame.set, if_neg (by intro e; subst e; exact hS.idx a (by simp) hx), h2]
    by_cases hc : isCexp G.T G.f a.e = true
    · have e1 : cpos G.T G.f (a :: L) = a.pos :: cpos G.T G.f L := by simp [cpos, hc]
      have e2 : declsI G.T G.f (a :: L) = .decl a.id (some (cgCexp a.e)) :: declsI G.T G.f L := by simp [declsI, hc]
      rw [e1, e2]
      simp only [Prog.ex, execs, exec, List.cons_append]
      refine Sim.step' (any_arg (hE a (by simp)) _ _ _) ?_
      refine Sim.bind (post := fun fl s => ∃ v σ', fl = .next (fr.set a.id (some v)) σ' ∧ s = .ret v (.args op ES d a.pos (cpos G.T G.f L ++ todo) ρ κ) σ' ∧ σ'.glob = σ.glob) ?_ ?_
      · refine Sim.bind (cexp_ok hC a.e xs ls false ρ _ σ hc (hS.ag a (by simp)) (hS.lc a (by simp)) hr hg) ?_
        rintro ⟨v, σ1⟩ s ⟨rfl, hg1⟩
        exact Sim.ok ⟨v, σ1, rfl, rfl, hg1⟩
      rintro fl s ⟨v, σ1, rfl, rfl, hg1⟩
      refine Sim.step' (any_ret _ _ _ _ _ _ _ _ _) ?_
      refine (ih (upd d a.pos v) (fr.set a.id (some v)) σ1 hS.tail (fun b hb => hE b (by simp [hb])) (hr' _) (by rw [hg1]; exact hg)).imp ?_
      rintro fl s ⟨fr', σ', rfl, d', rfl, hg2, h1, h2, h3⟩
      refine ⟨fr', σ', rfl, d', rfl, hg2.trans hg1, ?_, ?_, ?_⟩
      · intro b hb hcb
        rcases List.mem_cons.1 hb with rfl | hb
        · rw [h3 _ hid, h2 _ hcp]; simp [Frame.set, upd]
        · exact h1 b hb hcb
      · intro i hi
        simp only [List.mem_cons, not_or] at hi
        rw [h2 i hi.2, upd, if_neg hi.1]
      · intro y hy
        simp only [List.map_cons, List.mem_cons, not_or] at hy
        rw [h3 y hy.2, Frame.set, if_neg hy.1]
    · have hc' : isCexp G.T G.f a.e = false := by simpa using hc
      have e1 : cpos G.T G.f (a :: L) = cpos G.T G.f L := by simp [cpos, hc']
      have e2 : declsI G.T G.f (a :: L) = .decl a.id none :: declsI G.T G.f L := by simp [declsI, hc']
      rw [e1, e2]
      simp only [Prog.ex, execs, exec, Res.bind]
      refine (ih d (fr.set a.id none) σ hS.tail (fun b hb => hE b (by simp [hb])) (hr' _) hg).imp ?_
      rintro fl s ⟨fr', σ', rfl, d', rfl, hg2, h1, h2, h3⟩
      refine ⟨fr', σ', rfl, d', rfl, hg2, ?_, h2, ?_⟩
      · intro b hb hcb
        rcases List.mem_cons.1 hb with rfl | hb
        · rw [hc'] at hcb; cases hcb
        · exact h1 b hb hcb
      · intro y hy
        simp only [List.map_cons, List.mem_cons, not_or] at hy
        rw [h3 y hy.2, Frame.set, if_neg hy.1]

/-- ids bound in operands. -/
def bindersI (L : List Item) : List Id := bindersAll (L.map Item.e)

/-- the second phase. -/
theorem initsI_ok {G : Prog W} {n : Nat} {op : Op} {ES : List Exp} {xs ls : List Id} {Γ : Labels} {N : Nat} {ρ : Env} {κ : Kont} {todo : List Nat} (hC : ∀ m ≤ n, (G.at m).OK) :
    ∀ (L : List Item) (d : Nat → Val) (fr : Frame) (σ : Store W) (m : Nat), N ≤ m → StatL G L xs ls Γ N → (∀ a ∈ L, BodyOK G a.e) → (∀ a ∈ L, ES[a.pos]? = some a.e) → Agr xs ρ fr →
    σ.glob G.f = some G.clos →
    Sim G.M (n + 1) (.args op ES d (xpos G.T G.f L ++ todo) ρ κ σ) (G.ex n (initsI G.T G.f L Γ m).1 fr σ) (fun fl s => ∃ fr' σ', fl = .next fr' σ' ∧
      ∃ d', s = .args op ES d' todo ρ κ σ' ∧ σ'.glob = σ.glob ∧ (∀ a ∈ L, isCexp G.T G.f a.e = false → fr' a.id = some (d' a.pos)) ∧
        (∀ i, i ∉ xpos G.T G.f L → d' i = d i) ∧ Same ((L.filter fun a => !isCexp G.T G.f a.e).map Item.id ++ bindersI L) N fr fr') := by
  intro L
  induction L with
  | nil => intro d fr σ m _ _ _ _ _ _; exact Sim.ok ⟨fr, σ, rfl, d, rfl, rfl, by simp, fun _ _ => rfl, Same.refl _ _ _⟩
  | cons a L ih =>
    intro d fr σ m hm hS hB hE hr hg
    have hid : a.id ∉ L.map Item.id := (List.nodup_cons.1 (by simpa using hS.ndi)).1
    have hpos : a.pos ∉ L.map Item.pos := (List.nodup_cons.1 (by simpa using hS.ndp)).1
    have hcp : a.pos ∉ xpos G.T G.f L := fun h => hpos (by
      simp only [xpos, List.mem_map, List.mem_filter] at h ⊢
      obtain ⟨b, hb, e⟩ := h; exact ⟨b, hb.1, e⟩)
    by_cases hc : isCexp G.T G.f a.e = true
    · have e1 : xpos G.T G.f (a :: L) = xpos G.T G.f L := by simp [xpos, hc]
      rw [e1]
      simp only [initsI, hc, if_true]
      refine (ih d fr σ m hm hS.tail (fun b hb => hB b (by simp [hb])) (fun b hb => hE b (by simp [hb])) hr hg).imp ?_
      rintro fl s ⟨fr', σ', rfl, d', rfl, hg2, h1, h2, h3⟩
      refine ⟨fr', σ', rfl, d', rfl, hg2, ?_, h2, h3.weak ?_ (Nat.le_refl _)⟩
      · intro b hb hcb
        rcases List.mem_cons.1 hb with rfl | hb
        · rw [hc] at hcb; cases hcb
        · exact h1 b hb hcb
      · intro y hy
        simp only [bindersI, List.map_cons, bindersAll, List.mem_append, List.filter_cons, hc, Bool.not_true, Bool.false_eq_true, if_false] at hy ⊢
        tauto
    · have hc' : isCexp G.T G.f a.e = false := by simpa using hc
      have e1 : xpos G.T G.f (a :: L) = a.pos :: xpos G.T G.f L := by simp [xpos, hc']
      rw [e1]
      simp only [initsI, hc', Bool.false_eq_true, if_false, List.cons_append]
      refine Sim.step' (any_arg (hE a (by simp)) _ _ _) ?_
      have hst : Stat G a.e (.var a.id) xs ls Γ m := {
        ag := by simpa using hS.ag a (by simp)
        sn := by simpa using hS.sn a (by simp)
        nd := hS.nd a (by simp)
        lc := hS.lc a (by simp)
        bts := fun x hx => by have := hS.bts a (by simp) x hx; omega
        dis := hS.dis a (by simp)
        xts := fun x hx => by have := hS.xts x hx; omega
        tgt := fun x hx => by
          injection hx with hx; subst hx
          exact ⟨hS.idx a (by simp), hS.idb a (by simp) a (by simp), by have := hS.ids a (by simp); omega⟩ }
      refine sim_seq (Q := fun fr' σ' s => ∃ v, s = .ret v (.args op ES d a.pos (xpos G.T G.f L ++ todo) ρ κ) σ' ∧ σ'.glob = σ.glob ∧ fr' a.id = some v ∧
        Same (a.id :: binders a.e) m fr fr') ((hB a (by simp) n (.var a.id) xs ls Γ m ρ _ σ fr hst ⟨hC, hr, hg, by simp, by simp⟩).imp ?_) ?_
      · rintro fl s ⟨v, fr', σ', rfl, rfl, h1, h2, h3⟩
        exact ⟨fr', σ', rfl, v, rfl, h1, h2 _ rfl, h3⟩
      rintro fr1 σ1 s ⟨v, rfl, hg1, hv, hs1⟩
      refine Sim.step' (any_ret _ _ _ _ _ _ _ _ _) ?_
      have hr1 : Agr xs ρ fr1 := hs1.agr (fun x hx => ⟨by
        rw [List.mem_cons, not_or]
        exact ⟨fun e => hS.idx a (by simp) (e ▸ hx), hS.dis a (by simp) x hx⟩, by have := hS.xts x hx; omega⟩) hr
      have hmono := (cg_mono G.T G.f).1 a.e (.var a.id) Γ m
      refine (ih (upd d a.pos v) fr1 σ1 _ (Nat.le_trans hm hmono) hS.tail (fun b hb => hB b (by simp [hb])) (fun b hb => hE b (by simp [hb])) hr1 (by rw [hg1]; exact hg)).imp ?_
      rintro fl s ⟨fr', σ', rfl, d', rfl, hg2, h1, h2, h3⟩
      refine ⟨fr', σ', rfl, d', rfl, hg2.trans hg1, ?_, ?_, ?_⟩
      · intro b hb hcb
        rcases List.mem_cons.1 hb with rfl | hb
        · rw [h2 _ hcp, h3 _ ?_ (hS.ids b (by simp)), hv]
          · simp [upd]
          · rw [List.mem_append, not_or]
            refine ⟨fun h => hid ?_, fun h => ?_⟩
            · simp only [List.mem_map, List.mem_filter] at h ⊢
              obtain ⟨c, hc, e⟩ := h; exact ⟨c, hc.1, e⟩
            · simp only [bindersI, mem_bindersAll, List.mem_map] at h
              obtain ⟨e, ⟨c, hc, rfl⟩, h⟩ := h
              exact hS.idb b (by simp) c (by simp [hc]) h
        · exact h1 b hb hcb
      · intro i hi
        simp only [List.mem_cons, not_or] at hi
        rw [h2 i hi.2, upd, if_neg hi.1]
      · have := (hs1.weak (List.Subset.refl _) hm).trans h3
        refine this.weak ?_ (Nat.le_refl _)
        intro y hy
        simp only [bindersI, List.map_cons, bindersAll, List.mem_append, List.filter_cons, hc', Bool.not_false, if_true, List.mem_cons] at hy ⊢
        tauto

/-- both phases. -/
theorem items_ok {G : Prog W} {n : Nat} {op : Op} {ES : List Exp} {xs ls : List Id} {Γ : Labels} {N : Nat} {ρ : Env} {κ : Kont} {todo : List Nat} (hC : ∀ m ≤ n, (G.at m).OK)
    (L : List Item) (d : Nat → Val) (fr : Frame) (σ : Store W) (rest : List Stmt) (post : Flow W → State W → Prop) (hS : StatL G L xs ls Γ N) (hB : ∀ a ∈ L, BodyOK G a.e)
    (hE : ∀ a ∈ L, ES[a.pos]? = some a.e) (hr : Agr xs ρ fr) (hg : σ.glob G.f = some G.clos)
    (hk : ∀ d' fr' σ', σ'.glob = σ.glob → (∀ a ∈ L, fr' a.id = some (d' a.pos)) → (∀ i, i ∉ L.map Item.pos → d' i = d i) → Same (L.map Item.id ++ bindersI L) N fr fr' → Agr xs ρ fr' →
      Sim G.M (n + 1) (.args op ES d' todo ρ κ σ') (G.ex n rest fr' σ') post) :
    Sim G.M (n + 1) (.args op ES d (cpos G.T G.f L ++ (xpos G.T G.f L ++ todo)) ρ κ σ) (G.ex n (declsI G.T G.f L ++ ((initsI G.T G.f L Γ N).1 ++ rest)) fr σ) post := by
  refine sim_seq (declsI_ok (hC n (Nat.le_refl _)) L d fr σ hS hE hr hg) ?_
  rintro fr1 σ1 s ⟨d1, rfl, hg1, h1, h2, h3⟩
  have hr1 : Agr xs ρ fr1 := by
    intro x hx
    obtain ⟨v, e1, e2⟩ := hr x hx
    refine ⟨v, e1, ?_⟩
    rw [h3 x (fun h => ?_), e2]
    obtain ⟨a, ha, rfl⟩ := List.mem_map.1 h
    exact hS.idx a ha hx
  refine sim_seq (initsI_ok hC L d1 fr1 σ1 N (Nat.le_refl _) hS hB hE hr1 (by rw [hg1]; exact hg)) ?_
  rintro fr2 σ2 s ⟨d2, rfl, hg2, h4, h5, h6⟩
  have hib : ∀ a ∈ L, a.id ∉ bindersI L := by
    intro a ha h
    simp only [bindersI, mem_bindersAll, List.mem_map] at h
    obtain ⟨e, ⟨c, hc, rfl⟩, h⟩ := h
    exact hS.idb a ha c hc h
  refine hk d2 fr2 σ2 (hg2.trans hg1) ?_ ?_ ?_ ?_
  · intro a ha
    by_cases hc : isCexp G.T G.f a.e = true
    · rw [h5, h6 _ _ (hS.ids a ha), h1 a ha hc]
      · rw [List.mem_append, not_or]
        refine ⟨fun h => ?_, hib a ha⟩
        obtain ⟨b, hb, e⟩ := List.mem_map.1 h
        rw [List.mem_filter] at hb
        have : b = a := List.inj_on_of_nodup_map hS.ndi hb.1 ha e
        subst this; rw [hc] at hb; simp at hb
      · intro h
        obtain ⟨b, hb, e⟩ := List.mem_map.1 h
        rw [List.mem_filter] at hb
        have : b = a := List.inj_on_of_nodup_map hS.ndp hb.1 ha e
        subst this; rw [hc] at hb; simp at hb
    · exact h4 a ha (by simpa using hc)
  · intro i hi
    rw [h5, h2]
    · intro h; obtain ⟨b, hb, e⟩ := List.mem_map.1 h; exact hi (List.mem_map.2 ⟨b, (List.mem_filter.1 hb).1, e⟩)
    · intro h; obtain ⟨b, hb, e⟩ := List.mem_map.1 h; exact hi (List.mem_map.2 ⟨b, (List.mem_filter.1 hb).1, e⟩)
  · intro y hy hN
    rw [List.mem_append, not_or] at hy
    rw [h6 y _ hN, h3 y hy.1]
    rw [List.mem_append, not_or]
    refine ⟨fun h => hy.1 ?_, hy.2⟩
    obtain ⟨b, hb, e⟩ := List.mem_map.1 h; exact List.mem_map.2 ⟨b, (List.mem_filter.1 hb).1, e⟩
  · refine h6.agr (fun x hx => ⟨?_, hS.xts x hx⟩) hr1
    rw [List.mem_append, not_or]
    refine ⟨fun h => ?_, fun h => ?_⟩
    · obtain ⟨b, hb, rfl⟩ := List.mem_map.1 h
      exact hS.idx b (List.mem_filter.1 hb).1 hx
    · simp only [bindersI, mem_bindersAll, List.mem_map] at h
      obtain ⟨e, ⟨c, hc, rfl⟩, h⟩ := h
      exact hS.dis c hc x hx h

end Verif.Stackfn

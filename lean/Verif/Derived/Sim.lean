import Verif.Derived.Spec
import Batteries.Data.List.Basic
/-
Simulation for C68.
-/
namespace Verif.Derived
open Spec (G F Loop)
variable {W : Type}

/-- the environments agree on the variables of the program. -/
def Ext (env : Spec.Env) (env' : Env) : Prop := ∀ x, env' (.user x) = (env x).map .user

theorem Ext.user {env : Spec.Env} {env' : Env} (h : Ext env env') (x l : Nat) : Ext (Spec.upd x l env) (upd (.user x) (.user l) env') := by
  intro y
  unfold Spec.upd upd
  by_cases hy : y = x
  · subst hy; simp
  · rw [if_neg hy, if_neg (by simpa using hy)]; exact h y

def Temp (x : Name) : Prop := ∀ n, x ≠ .user n

theorem Ext.temp {env : Spec.Env} {env' : Env} (h : Ext env env') {x : Name} (hx : Temp x) (l : Loc) : Ext env (upd x l env') := by
  intro y
  unfold upd
  rw [if_neg (fun e => hx y e.symm)]
  exact h y

/-- the body of the procedure made by `do`. -/
def bodyOf (d : Loop) : C := loopC (expand d.test) (expandL d.rs) (expandL d.cs) (expandSteps d.xs d.steps)
def tailOf (d : Loop) (cs : List E) : C := seqs (expandL cs) (.app (.var .loop :: expandSteps d.xs d.steps))
def tcloOf (d : Loop) (L : Env) : CV := .tclo (names d.xs) (bodyOf d) L

/-- `loop` is the procedure of the loop. -/
def LoopOk (T : List CV) (d : Loop) (env : Spec.Env) (L : Env) : Prop :=
  Ext env L ∧ ∃ l, L .loop = some (.temp l) ∧ T[l]? = some (tcloOf d L)

/-- `x` has the value `v`. -/
def Has (T : List CV) (env' : Env) (x : Name) (v : V) : Prop := ∃ l, env' x = some (.temp l) ∧ T[l]? = some (.v v)

/-- the variables `tmp-a` have these values. -/
def Held (T : List CV) (env' : Env) (us : List V) : Prop := ∀ (i : Nat) (v : V), us[i]? = some v → Has T env' (.val i) v

/-- the rest of let-values. -/
def lvRest (n : Nat) (all : List Nat) (bs : Binds) (b : E) : C :=
  letStarValues (temps n bs.formals) (expandB bs) (.lett (names all) ((List.range all.length).map (fun i => .var (.val i))) (expand b))

inductive GR (T : List CV) : G → List CF → CG → List CV → Prop
  | app (K) : GR T .app K .app []
  | prim (p K) : GR T (.prim p) K (.prim p) []
  | lett {xs b env env'} (K) : Ext env env' → GR T (.lett xs b env) K (.lett (names xs) (expand b) env') []
  | letrec {xs b env env'} (K) : Ext env env' → GR T (.letrec xs b env) K (.letrec (names xs) (expand b) env') []
  | values (K) : GR T .values K (.throw K) []
  | loop {d env L} (K) : LoopOk T d env L → GR T (.loop d env) K .app [tcloOf d L]

/-- continuations. -/
inductive KR (T : List CV) : List F → List CF → Prop
  | nil : KR T [] []
  | args {g g' pre done todo env env' K K'} : GR T g K' g' pre → Ext env env' → KR T K K' →
      KR T (.args g done todo env :: K) (.args g' (pre ++ done.map .v) (expandL todo) env' :: K')
  | set {x env env' K K'} : Ext env env' → KR T K K' → KR T (.set x env :: K) (.set (.user x) env' :: K')
  | ite {b c env env' K K'} : Ext env env' → KR T K K' → KR T (.ite b c env :: K) (.ite (expand b) (expand c) env' :: K')
  | seq {b env env' K K'} : Ext env env' → KR T K K' → KR T (.seq b env :: K) (.seq (expand b) env' :: K')
  | callcc {K K'} : KR T K K' → KR T (.callcc :: K) (.callcc :: K')
  | letS {x xs es b env env' K K'} : Ext env env' → KR T K K' →
      KR T (.letS x xs es b env :: K) (.args (.lett [.user x] (letStar xs (expandL es) (expand b)) env') [] [] env' :: K')
  | letrecS {x xs es b env env' K K'} : Ext env env' → KR T K K' →
      KR T (.letrecS x xs es b env :: K) (.set (.user x) env' :: .seq (assigns xs (expandL es) (expand b)) env' :: K')
  | receive {xs b env env' K K'} : Ext env env' → KR T K K' → KR T (.receive xs b env :: K) (.recv (names xs) (expand b) env' :: K')
  | letvS {xs bs b env env' K K'} : Ext env env' → KR T K K' →
      KR T (.letvS xs bs b env :: K) (.recv (names xs) (expand (.letvS bs b)) env' :: K')
  | letvS1 {x bs b env env' K K'} : Ext env env' → KR T K K' →
      KR T (.letvS [x] bs b env :: K) (.args (.lett [.user x] (expand (.letvS bs b)) env') [] [] env' :: K')
  | letv {ys us xs bs b env env' K K'} : Ext env env' → ys.length = us.length → Held T env' us → KR T K K' →
      KR T (.letv ys us xs bs b env :: K)
        (.recv ((List.range' us.length xs.length).map .val) (lvRest (us.length + xs.length) (ys ++ xs ++ bs.formals.flatten) bs b) env' :: K')
  | letv1 {ys us x bs b env env' K K'} : Ext env env' → ys.length = us.length → Held T env' us → KR T K K' →
      KR T (.letv ys us [x] bs b env :: K)
        (.args (.lett [.val us.length] (lvRest (us.length + 1) (ys ++ [x] ++ bs.formals.flatten) bs b) env') [] [] env' :: K')
  | and {es env env' K K'} : Ext env env' → KR T K K' → KR T (.and es env :: K) (.ite (andC (expandL es)) (.const .f) env' :: K')
  | or {es env env' K K'} : Ext env env' → KR T K K' →
      KR T (.or es env :: K) (.args (.lett [.x] (.ite (.var .x) (.var .x) (orC (expandL es))) env') [] [] env' :: K')
  | condTest {cl env env' K K'} : Ext env env' → KR T K K' →
      KR T (.condTest cl env :: K) (.args (.lett [.x] (.ite (.var .x) (.var .x) (expandCond cl)) env') [] [] env' :: K')
  | condArrow {p cl env env' K K'} : Ext env env' → KR T K K' →
      KR T (.condArrow p cl env :: K) (.args (.lett [.tmp] (.ite (.var .tmp) (.app [expand p, .var .tmp]) (expandCond cl)) env') [] [] env' :: K')
  | condBody {b cl env env' K K'} : Ext env env' → KR T K K' → KR T (.condBody b cl env :: K) (.ite (expand b) (expandCond cl) env' :: K')
  | caseKey {cl env env' K K'} : Ext env env' → KR T K K' → KR T (.caseKey cl env :: K) (.args (.lett [.key] (expandCase cl) env') [] [] env' :: K')
  | callWith {v x env' K K'} : Has T env' x v → KR T K K' → KR T (.callWith v :: K) (.args .app [] [.var x] env' :: K')
  | begin {es env env' K K'} : Ext env env' → KR T K K' → KR T (.begin es env :: K) (.seq (beginC (expandL es)) env' :: K')
  | doTest {d env L env2 env2' K K'} : LoopOk T d env L → Ext env2 env2' → env2' .loop = L .loop → KR T K K' →
      KR T (.doTest d env env2 :: K) (.ite (beginC (voidC :: expandL d.rs)) (tailOf d d.cs) env2' :: K')
  | doCmd {cs d env L env2 env2' K K'} : LoopOk T d env L → Ext env2 env2' → env2' .loop = L .loop → KR T K K' →
      KR T (.doCmd cs d env env2 :: K) (.seq (tailOf d cs) env2' :: K')

theorem pre_get {T T' : List CV} (h : T <+: T') {l : Nat} {v : CV} (hl : T[l]? = some v) : T'[l]? = some v := by
  obtain ⟨t, rfl⟩ := h
  rw [List.getElem?_append_left (List.getElem?_eq_some_iff.mp hl).1]
  exact hl

theorem LoopOk.mono {T T' : List CV} (h : T <+: T') {d env L} : LoopOk T d env L → LoopOk T' d env L := by
  rintro ⟨h1, l, h2, h3⟩
  exact ⟨h1, l, h2, pre_get h h3⟩

theorem Has.mono {T T' : List CV} (h : T <+: T') {env' x v} : Has T env' x v → Has T' env' x v := by
  rintro ⟨l, h2, h3⟩
  exact ⟨l, h2, pre_get h h3⟩

theorem GR.mono {T T' : List CV} (h : T <+: T') {g K g' pre} : GR T g K g' pre → GR T' g K g' pre := by
  intro a
  cases a with
  | app => exact .app _
  | prim => exact .prim _ _
  | lett _ e => exact .lett _ e
  | letrec _ e => exact .letrec _ e
  | values => exact .values _
  | loop _ e => exact .loop _ (e.mono h)

theorem KR.mono {T T' : List CV} (h : T <+: T') {K K'} (a : KR T K K') : KR T' K K' := by
  induction a with
  | nil => exact .nil
  | args e1 e2 _ ih => exact .args (e1.mono h) e2 ih
  | set e _ ih => exact .set e ih
  | ite e _ ih => exact .ite e ih
  | seq e _ ih => exact .seq e ih
  | callcc _ ih => exact .callcc ih
  | letS e _ ih => exact .letS e ih
  | letrecS e _ ih => exact .letrecS e ih
  | receive e _ ih => exact .receive e ih
  | letvS e _ ih => exact .letvS e ih
  | letvS1 e _ ih => exact .letvS1 e ih
  | letv e e2 e3 _ ih => exact .letv e e2 (fun i v hi => (e3 i v hi).mono h) ih
  | letv1 e e2 e3 _ ih => exact .letv1 e e2 (fun i v hi => (e3 i v hi).mono h) ih
  | and e _ ih => exact .and e ih
  | or e _ ih => exact .or e ih
  | condTest e _ ih => exact .condTest e ih
  | condArrow e _ ih => exact .condArrow e ih
  | condBody e _ ih => exact .condBody e ih
  | caseKey e _ ih => exact .caseKey e ih
  | callWith e _ ih => exact .callWith (e.mono h) ih
  | begin e _ ih => exact .begin e ih
  | doTest e e2 e3 _ ih => exact .doTest (e.mono h) e2 e3 ih
  | doCmd e e2 e3 _ ih => exact .doCmd (e.mono h) e2 e3 ih

def CloR (a : List Nat × E × Spec.Env) (b : List Name × C × Env) : Prop := b.1 = names a.1 ∧ b.2.1 = expand a.2.1 ∧ Ext a.2.2 b.2.2

/-- states but for their control. -/
structure Base (s : Spec.S W) (c : CS W) : Prop where
  k : KR c.temps s.k c.k
  cells : c.cells = s.cells.map .v
  clos : List.Forall₂ CloR s.clos c.clos
  conts : List.Forall₂ (KR c.temps) s.conts c.conts
  world : c.world = s.world

inductive CtlR : Spec.Ctl → CCtl → Prop
  | ev {e env env'} : Ext env env' → CtlR (.ev e env) (.ev (expand e) env')
  | ret (vs) : CtlR (.ret vs) (.ret (vs.map .v))

structure R (s : Spec.S W) (c : CS W) : Prop where
  ctl : CtlR s.ctl c.ctl
  base : Base s c

theorem forall₂_mono {α β : Type} {P Q : α → β → Prop} (h : ∀ a b, P a b → Q a b) {l : List α} {l' : List β} (a : List.Forall₂ P l l') : List.Forall₂ Q l l' := by
  induction a with
  | nil => exact .nil
  | cons h1 _ ih => exact .cons (h _ _ h1) ih

theorem forall₂_snoc {α β : Type} {P : α → β → Prop} {l : List α} {l' : List β} (a : List.Forall₂ P l l') {x y} (h : P x y) : List.Forall₂ P (l ++ [x]) (l' ++ [y]) := by
  induction a with
  | nil => exact .cons h .nil
  | cons h1 _ ih => exact .cons h1 ih

theorem forall₂_length {α β : Type} {P : α → β → Prop} {l : List α} {l' : List β} (a : List.Forall₂ P l l') : l.length = l'.length := by
  induction a with
  | nil => rfl
  | cons _ _ ih => simp [ih]

theorem forall₂_get {α β : Type} {P : α → β → Prop} {l : List α} {l' : List β} (a : List.Forall₂ P l l') (i : Nat) :
    (∃ x y, l[i]? = some x ∧ l'[i]? = some y ∧ P x y) ∨ (l[i]? = none ∧ l'[i]? = none) := by
  induction a generalizing i with
  | nil => exact .inr ⟨rfl, rfl⟩
  | cons h1 _ ih =>
    cases i with
    | zero => exact .inl ⟨_, _, rfl, rfl, h1⟩
    | succ i => simpa using ih i

theorem Base.temps {s : Spec.S W} {c : CS W} (h : Base s c) (v : CV) : Base s { c with temps := c.temps ++ [v] } where
  k := h.k.mono ⟨[v], rfl⟩
  cells := h.cells
  clos := h.clos
  conts := forall₂_mono (fun _ _ h => h.mono ⟨[v], rfl⟩) h.conts
  world := h.world

/-! ### runs -/

/-- steps through states of the world in `P`. -/
inductive Tr (pr : Prims W) (P : W → Prop) : CS W → CS W → Prop
  | refl (c) : Tr pr P c c
  | step {c d e} : stepC pr c = some d → P d.world → Tr pr P d e → Tr pr P c e

/-- the run from `c` comes to a state related to `o`, or it stops without a result if there is none. -/
def Sim (pr : Prims W) (w : W) (o : Option (Spec.S W)) (c : CS W) : Prop :=
  match o with
  | some s' => ∃ d e, stepC pr c = some d ∧ (d.world = w ∨ d.world = s'.world) ∧ Tr pr (fun u => u = w ∨ u = s'.world) d e ∧ R s' e
  | none => ∃ e, Tr pr (· = w) c e ∧ stepC pr e = none ∧ resultC e = none

theorem Sim.pre {pr : Prims W} {w : W} {o : Option (Spec.S W)} {c c1 : CS W} (h : stepC pr c = some c1) (hw : c1.world = w) (a : Sim pr w o c1) : Sim pr w o c := by
  cases o with
  | some s' =>
    obtain ⟨d, e, h1, h2, h3, h4⟩ := a
    exact ⟨c1, e, h, .inl hw, .step h1 h2 h3, h4⟩
  | none =>
    obtain ⟨e, h1, h2, h3⟩ := a
    exact ⟨e, .step h hw h1, h2, h3⟩

theorem Sim.of {pr : Prims W} {w : W} {s' : Spec.S W} {c c' : CS W} (h : stepC pr c = some c') (a : R s' c') : Sim pr w (some s') c :=
  ⟨c', c', h, .inr a.base.world, .refl _, a⟩

theorem Sim.stuck {pr : Prims W} {w : W} {c : CS W} (h : stepC pr c = none) (h2 : resultC c = none) : Sim pr w none c :=
  ⟨c, .refl _, h, h2⟩

/-- variables of the program are bound. -/
theorem bind_sim (xs : List Nat) : ∀ (vs : List V) {env : Spec.Env} {env' : Env} {s : Spec.S W} {c : CS W}, Base s c → Ext env env' →
    (∃ env2 s2 env2' c2, Spec.bind xs vs env s = some (env2, s2) ∧ bindC (names xs) (vs.map .v) env' c = some (env2', c2) ∧ Ext env2 env2' ∧ Base s2 c2 ∧
      c2.temps = c.temps ∧ c2.world = c.world ∧ c2.k = c.k ∧ ∀ y, Temp y → env2' y = env' y) ∨
    (Spec.bind xs vs env s = none ∧ bindC (names xs) (vs.map .v) env' c = none) := by
  induction xs with
  | nil =>
    intro vs env env' s c h he
    cases vs with
    | nil => exact .inl ⟨env, s, env', c, rfl, rfl, he, h, rfl, rfl, rfl, fun _ _ => rfl⟩
    | cons v vs => exact .inr ⟨rfl, rfl⟩
  | cons x xs ih =>
    intro vs env env' s c h he
    cases vs with
    | nil => exact .inr ⟨rfl, rfl⟩
    | cons v vs =>
      have hl : c.cells.length = s.cells.length := by rw [h.cells]; simp
      have hb : Base { s with cells := s.cells ++ [v] } { c with cells := c.cells ++ [.v v] } := ⟨h.k, by simp [h.cells], h.clos, h.conts, h.world⟩
      rcases ih vs hb (he.user x s.cells.length) with ⟨e2, s2, e2', c2, h1, h2, h3, h4, h5, h6, h7, h8⟩ | ⟨h1, h2⟩
      · refine .inl ⟨e2, s2, e2', c2, h1, ?_, h3, h4, h5, h6, h7, ?_⟩
        · show bindC (names xs) (vs.map .v) (upd (.user x) (.user c.cells.length) env') _ = _
          rw [hl]; exact h2
        · intro y hy
          rw [h8 y hy]
          unfold upd
          rw [if_neg (hy x)]
      · refine .inr ⟨h1, ?_⟩
        show bindC (names xs) (vs.map .v) (upd (.user x) (.user c.cells.length) env') _ = _
        rw [hl]; exact h2

theorem bindT (x : Name) (hx : Temp x) (v : CV) (env' : Env) (c : CS W) :
    bindC [x] [v] env' c = some (upd x (.temp c.temps.length) env', { c with temps := c.temps ++ [v] }) := by
  cases x with
  | user n => exact absurd rfl (hx n)
  | _ => rfl

theorem get_sim {s : Spec.S W} {c : CS W} (h : Base s c) {env : Spec.Env} {env' : Env} (he : Ext env env') (x : Nat) :
    getC env' (.user x) c = (Spec.get env x s).map .v := by
  unfold getC Spec.get
  rw [he x]
  cases env x with
  | none => rfl
  | some l => simp [h.cells]

theorem getT {c : CS W} {env' : Env} {x : Name} {v : V} (h : Has c.temps env' x v) : getC env' x c = some (.v v) := by
  obtain ⟨l, h1, h2⟩ := h
  unfold getC
  rw [h1]
  exact h2

theorem put_sim {s : Spec.S W} {c : CS W} (h : Base s c) {env : Spec.Env} {env' : Env} (he : Ext env env') (x : Nat) (v : V) :
    (∃ s2 c2, Spec.put env x v s = some s2 ∧ putC env' (.user x) (.v v) c = some c2 ∧ Base s2 c2 ∧ c2.temps = c.temps ∧ c2.world = c.world ∧ c2.k = c.k) ∨
    (Spec.put env x v s = none ∧ putC env' (.user x) (.v v) c = none) := by
  unfold Spec.put putC
  rw [he x]
  cases env x with
  | none => exact .inr ⟨rfl, rfl⟩
  | some l =>
    have hl : c.cells.length = s.cells.length := by rw [h.cells]; simp
    by_cases hlt : l < s.cells.length
    · refine .inl ⟨{ s with cells := s.cells.set l v }, { c with cells := c.cells.set l (.v v) }, by simp [hlt], by simp [hl, hlt], ⟨h.k, ?_, h.clos, h.conts, h.world⟩, rfl, rfl, rfl⟩
      simp [h.cells, List.map_set]
    · exact .inr ⟨by simp [hlt], by simp [hl, hlt]⟩

theorem putAll_sim (xs : List Nat) : ∀ (vs : List V) {env : Spec.Env} {env' : Env} {s : Spec.S W} {c : CS W}, Base s c → Ext env env' →
    (∃ s2 c2, Spec.putAll env xs vs s = some s2 ∧ putAllC env' (names xs) (vs.map .v) c = some c2 ∧ Base s2 c2 ∧ c2.temps = c.temps ∧ c2.world = c.world ∧ c2.k = c.k) ∨
    (Spec.putAll env xs vs s = none ∧ putAllC env' (names xs) (vs.map .v) c = none) := by
  induction xs with
  | nil =>
    intro vs env env' s c h he
    cases vs with
    | nil => exact .inl ⟨s, c, rfl, rfl, h, rfl, rfl, rfl⟩
    | cons v vs => exact .inr ⟨rfl, rfl⟩
  | cons x xs ih =>
    intro vs env env' s c h he
    cases vs with
    | nil => exact .inr ⟨rfl, rfl⟩
    | cons v vs =>
      rcases put_sim h he x v with ⟨s2, c2, h1, h2, h3, h4, h5, h6⟩ | ⟨h1, h2⟩
      · rcases ih vs h3 he with ⟨s3, c3, g1, g2, g3, g4, g5, g6⟩ | ⟨g1, g2⟩
        · exact .inl ⟨s3, c3, by simp [Spec.putAll, h1, g1], by simp only [names, List.map_cons, putAllC, h2]; exact g2, g3, g4.trans h4, g5.trans h5, g6.trans h6⟩
        · exact .inr ⟨by simp [Spec.putAll, h1, g1], by simp only [names, List.map_cons, putAllC, h2]; exact g2⟩
      · exact .inr ⟨by simp [Spec.putAll, h1], by simp only [names, List.map_cons, putAllC, h2]; rfl⟩

theorem plain_map (vs : List V) : plain (vs.map .v) = some vs := by
  induction vs with
  | nil => rfl
  | cons v vs ih => simp [plain, ih]

/-- a form is evaluated in the state with the parts of `c0`. -/
theorem Sim.ev {pr : Prims W} {w : W} {s0 : Spec.S W} {c c0 : CS W} {e : E} {env : Spec.Env} {env' : Env} (h : stepC pr c = some { c0 with ctl := .ev (expand e) env' })
    (hb : Base s0 c0) (he : Ext env env') : Sim pr w (some { s0 with ctl := .ev e env }) c :=
  .of h ⟨.ev he, hb.k, hb.cells, hb.clos, hb.conts, hb.world⟩

theorem Sim.ret {pr : Prims W} {w : W} {s0 : Spec.S W} {c c0 : CS W} {vs : List V} (h : stepC pr c = some { c0 with ctl := .ret (vs.map .v) })
    (hb : Base s0 c0) : Sim pr w (some { s0 with ctl := .ret vs }) c :=
  .of h ⟨.ret vs, hb.k, hb.cells, hb.clos, hb.conts, hb.world⟩

theorem bind_ev {pr : Prims W} {w : W} {s0 : Spec.S W} {c c0 : CS W} {xs : List Nat} {vs : List V} {e : E} {env : Spec.Env} {env' : Env}
    (h : stepC pr c = (bindC (names xs) (vs.map .v) env' c0).map (fun p => { p.2 with ctl := .ev (expand e) p.1 })) (hr : resultC c = none)
    (hb : Base s0 c0) (he : Ext env env') : Sim pr w ((Spec.bind xs vs env s0).map (fun p => { p.2 with ctl := .ev e p.1 })) c := by
  rcases bind_sim xs vs hb he with ⟨e2, s2, e2', c2, h1, h2, h3, h4, _⟩ | ⟨h1, h2⟩
  · rw [h1]; rw [h2] at h; exact .ev h h4 h3
  · rw [h1]; rw [h2] at h; exact .stuck h hr

theorem call_sim {pr : Prims W} {w : W} {s0 : Spec.S W} {c c0 : CS W} {f : V} {vs : List V} (h : stepC pr c = callC (.v f) (vs.map .v) c0) (hr : resultC c = none)
    (hb : Base s0 c0) : Sim pr w (Spec.call f vs s0) c := by
  unfold Spec.call
  unfold callC at h
  cases f with
  | atom n => exact .stuck h hr
  | clo i =>
    simp only at h ⊢
    rcases forall₂_get hb.clos i with ⟨a, b, h1, h2, h3, h4, h5⟩ | ⟨h1, h2⟩
    · rw [h1]; rw [h2] at h
      simp only [Option.bind_some] at h ⊢
      rw [h3, h4] at h
      exact bind_ev h hr hb h5
    · rw [h1]; rw [h2] at h; exact .stuck h hr
  | cont i =>
    simp only at h ⊢
    rcases forall₂_get hb.conts i with ⟨a, b, h1, h2, h3⟩ | ⟨h1, h2⟩
    · rw [h1]; rw [h2] at h
      exact .of h ⟨.ret vs, h3, hb.cells, hb.clos, hb.conts, hb.world⟩
    · rw [h1]; rw [h2] at h; exact .stuck h hr

theorem finish_sim {pr : Prims W} {w : W} {s0 : Spec.S W} {c c0 : CS W} {g : G} {g' : CG} {pre : List CV} {done : List V}
    (h : stepC pr c = finishC pr g' (pre ++ done.map .v) c0) (hr : resultC c = none) (hw : w = s0.world) (hg : GR c0.temps g c0.k g' pre)
    (hb : Base s0 c0) : Sim pr w (Spec.finish pr g done s0) c := by
  cases hg with
  | app =>
    cases done with
    | nil => exact .stuck h hr
    | cons f vs => exact call_sim h hr hb
  | prim p =>
    unfold finishC at h
    simp only [List.nil_append, plain_map, Option.bind_some] at h
    unfold Spec.finish
    simp only
    rw [hb.world] at h
    cases hp : pr.prim p done s0.world with
    | none => rw [hp] at h; exact .stuck h hr
    | some r => rw [hp] at h; exact .of h ⟨.ret [r.1], hb.k, hb.cells, hb.clos, hb.conts, rfl⟩
  | lett _ e => exact bind_ev h hr hb e
  | @letrec xs b env env' _ e =>
    unfold finishC at h
    unfold Spec.finish
    simp only [List.nil_append] at h ⊢
    rcases putAll_sim xs done hb e with ⟨s2, c2, h1, h2, h3, _⟩ | ⟨h1, h2⟩
    · rw [h1]; rw [h2] at h; exact .ev h h3 e
    · rw [h1]; rw [h2] at h; exact .stuck h hr
  | values => exact .ret h ⟨hb.k, hb.cells, hb.clos, hb.conts, hb.world⟩
  | @loop d env L _ e =>
    obtain ⟨e1, l, e2, e3⟩ := e
    unfold Spec.finish
    simp only
    change stepC pr c = (bindC (names d.xs) (done.map .v) L c0).map (fun p => { p.2 with ctl := .ev (bodyOf d) p.1 }) at h
    rcases bind_sim d.xs done hb e1 with ⟨e2', s2, e2'', c2, h1, h2, h3, h4, h5, h6, h7, h8⟩ | ⟨h1, h2⟩
    · rw [h1]; rw [h2] at h
      refine .pre h (by rw [hw, ← hb.world]; exact h6) ?_
      refine .of (c' := { c2 with ctl := .ev (expand d.test) e2'', k := .ite (beginC (voidC :: expandL d.rs)) (tailOf d d.cs) e2'' :: c2.k }) rfl
        ⟨.ev h3, .doTest ⟨e1, l, e2, ?_⟩ h3 (h8 _ (by intro n; simp)) h4.k, h4.cells, h4.clos, h4.conts, h4.world⟩
      show c2.temps[l]? = _
      rw [h5]; exact e3
    · rw [h1]; rw [h2] at h; exact .stuck h hr

theorem args_sim {pr : Prims W} {w : W} {s0 : Spec.S W} {c c0 : CS W} {g : G} {g' : CG} {pre : List CV} {done : List V} {todo : List E} {env : Spec.Env} {env' : Env}
    (h : stepC pr c = argsC pr g' (pre ++ done.map .v) (expandL todo) env' c0) (hr : resultC c = none) (hw : w = s0.world) (hg : GR c0.temps g c0.k g' pre)
    (hb : Base s0 c0) (he : Ext env env') : Sim pr w (Spec.args pr g done todo env s0) c := by
  cases todo with
  | nil => exact finish_sim h hr hw hg hb
  | cons e es => exact .of h ⟨.ev he, .args hg he hb.k, hb.cells, hb.clos, hb.conts, hb.world⟩

theorem steps_eq (xs : List Nat) : ∀ (l : Steps), expandSteps xs l = expandL (Spec.stepExps xs l) := by
  induction xs with
  | nil => intro l; cases l <;> simp [expandSteps, Spec.stepExps, expandL]
  | cons x xs ih =>
    intro l
    cases l with
    | nil => simp [expandSteps, Spec.stepExps, expandL]
    | keep l => simp [expandSteps, Spec.stepExps, expandL, expand, ih]
    | step e l => simp [expandSteps, Spec.stepExps, expandL, ih]

theorem resultC_ev {c : CS W} {e : C} {env : Env} (h : c.ctl = .ev e env) : resultC c = none := by
  unfold resultC; rw [h]

theorem resultC_ret {c : CS W} {f : CF} {k : List CF} (h : c.k = f :: k) : resultC c = none := by
  unfold resultC; rw [h]; cases c.ctl <;> rfl

/-- the commands of a loop. -/
theorem cmds_sim {pr : Prims W} {w : W} {s0 : Spec.S W} {c : CS W} {cs : List E} {d : Loop} {env env2 : Spec.Env} {L env2' : Env}
    (h : c.ctl = .ev (tailOf d cs) env2') (hw : w = s0.world) (hb : Base s0 c) (hl : LoopOk c.temps d env L) (he : Ext env2 env2') (hloop : env2' .loop = L .loop) :
    Sim pr w (Spec.cmds pr cs d env env2 s0) c := by
  cases cs with
  | nil =>
    have hl' := hl
    obtain ⟨e1, l, e2, e3⟩ := hl
    refine .pre (c1 := { c with ctl := .ev (.var .loop) env2', k := .args .app [] (expandSteps d.xs d.steps) env2' :: c.k }) ?_ (by rw [hw]; exact hb.world) ?_
    · unfold stepC; rw [h]; rfl
    refine .pre (c1 := { c with ctl := .ret [tcloOf d L], k := .args .app [] (expandSteps d.xs d.steps) env2' :: c.k }) ?_ (by rw [hw]; exact hb.world) ?_
    · unfold stepC getC; simp only; rw [hloop, e2]; simp only; rw [e3]; rfl
    refine args_sim (c0 := { c with ctl := .ret [tcloOf d L] }) (pre := [tcloOf d L]) (done := []) (env' := env2') ?_ (resultC_ret rfl) hw (.loop _ hl') ⟨hb.k, hb.cells, hb.clos, hb.conts, hb.world⟩ he
    rw [← steps_eq]; rfl
  | cons c' cs =>
    refine .of (c' := { c with ctl := .ev (expand c') env2', k := .seq (tailOf d cs) env2' :: c.k }) ?_ ⟨.ev he, .doCmd hl he hloop hb.k, hb.cells, hb.clos, hb.conts, hb.world⟩
    unfold stepC; rw [h]; rfl

end Verif.Derived

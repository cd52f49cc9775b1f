import Verif.Exc.Travel
/-
Simulation of the specification by the library.
-/
namespace Verif.Exc
open Wind (Tree Extent inside left thunks WF Rep)
variable {W : Type}

/-! ### executions -/

section
variable {σ : Type} {f : σ → Option σ}

def Reach (f : σ → Option σ) (s s' : σ) : Prop := ∃ n, iter f n s = some s'
def Reach1 (f : σ → Option σ) (s s' : σ) : Prop := ∃ n, iter f (n + 1) s = some s'

theorem iter_add (n m : Nat) (s : σ) : iter f (n + m) s = (iter f n s).bind (iter f m) := by
  induction n generalizing s with
  | zero => simp [iter]
  | succ n ih =>
    rw [Nat.succ_add, iter, iter]
    cases f s with
    | none => rfl
    | some t => exact ih t

theorem Reach.refl (s : σ) : Reach f s s := ⟨0, rfl⟩
theorem Reach1.cons {a b c : σ} (h : f a = some b) (h2 : Reach f b c) : Reach1 f a c := by
  obtain ⟨n, hn⟩ := h2
  exact ⟨n, by rw [iter, h]; exact hn⟩
theorem Reach.cons {a b c : σ} (h : f a = some b) (h2 : Reach f b c) : Reach f a c := by
  obtain ⟨n, hn⟩ := h2
  exact ⟨n + 1, by rw [iter, h]; exact hn⟩
theorem Reach1.one {a b : σ} (h : f a = some b) : Reach1 f a b := .cons h (.refl _)
theorem Reach1.reach {a b : σ} (h : Reach1 f a b) : Reach f a b := by
  obtain ⟨n, h⟩ := h; exact ⟨_, h⟩
theorem Reach.trans {a b c : σ} (h1 : Reach f a b) (h2 : Reach f b c) : Reach f a c := by
  obtain ⟨n, hn⟩ := h1
  obtain ⟨m, hm⟩ := h2
  exact ⟨n + m, by rw [iter_add, hn]; exact hm⟩
end

/-! ### the tree grows -/

theorem envL_append {t : Tree (Thunk W)} {E0 : Cells} (e : Extent (Thunk W)) : ∀ {l : List Nat}, (∀ x ∈ l, 0 < x ∧ x ≤ t.length) → envL (t ++ [e]) E0 l = envL t E0 l := by
  intro l
  induction l with
  | nil => intro _; rfl
  | cons x l ih =>
    intro h
    have hx := h x List.mem_cons_self
    simp only [envL]
    rw [List.getElem?_append_left (by omega), ih (fun y hy => h y (List.mem_cons_of_mem _ hy))]

theorem env_append {t : Tree (Thunk W)} {E0 : Cells} (hw : WF t) (e : Extent (Thunk W)) {c : Nat} (hc : c ≤ t.length) : env (t ++ [e]) E0 c = env t E0 c := by
  unfold env
  rw [show inside (t ++ [e]) c = inside t c from Wind.inside_append hw e hc]
  exact envL_append e (fun x hx => by have := Wind.inside_le hw hc hx; omega)

theorem ws_append {t : Tree (Thunk W)} {E0 : Cells} (hw : WF t) (e : Extent (Thunk W)) {c : Nat} (hc : c ≤ t.length) :
    wsOf (t ++ [e]) E0 (inside (t ++ [e]) c) = wsOf t E0 (inside t c) := by
  rw [show inside (t ++ [e]) c = inside t c from Wind.inside_append hw e hc]
  unfold wsOf
  apply List.filterMap_congr
  intro x hx
  have := Wind.inside_le hw hc hx
  unfold wnd
  rw [List.getElem?_append_left (by omega)]
  split
  · rename_i p b a h
    have hp := hw _ _ h
    rw [env_append hw e (by simp at hp; omega)]
    simp [h]
  · rfl

/-- values for the list of handlers. -/
def chain : List V → V
  | [] => .dflt
  | h :: hs => .hand h (chain hs)

/-- dynamic environments of extents. -/
structure DynRel (t : Tree (Thunk W)) (E0 : Cells) (c : Nat) (d : Spec.Dyn W) : Prop where
  le : c ≤ t.length
  ws : d.ws = wsOf t E0 (inside t c)
  ps : d.ps = user (env t E0 c)
  hs : env t E0 c 0 = chain d.hs

theorem DynRel.append {t : Tree (Thunk W)} {E0 : Cells} (hw : WF t) (e : Extent (Thunk W)) {c : Nat} {d : Spec.Dyn W} (h : DynRel t E0 c d) : DynRel (t ++ [e]) E0 c d where
  le := by have := h.le; simp; omega
  ws := by rw [ws_append hw e h.le]; exact h.ws
  ps := by rw [env_append hw e h.le]; exact h.ps
  hs := by rw [env_append hw e h.le]; exact h.hs

/-- related continuations; `G` are the continuations captured in `guard`. -/
inductive KR (t : Tree (Thunk W)) (E0 : Cells) (G : List (List (Frame W) × Nat)) : List (Frame W) → List (Spec.Frame W) → Prop
  | nil : KR t E0 G [] []
  | bind {k : V → Prog W} {κ : List (Frame W)} {κ' : List (Spec.Frame W)} : KR t E0 G κ κ' → KR t E0 G (.bind k :: κ) (.bind k :: κ')
  | leave {h : Nat} {d : Spec.Dyn W} {κ : List (Frame W)} {κ' : List (Spec.Frame W)} : DynRel t E0 h d → KR t E0 G κ κ' → KR t E0 G (.leave h :: κ) (.restore d :: κ')
  | guard {h i : Nat} {d : Spec.Dyn W} {κ : List (Frame W)} {κ' : List (Spec.Frame W)} : DynRel t E0 h d → KR t E0 G κ κ' → G[i]? = some (callF :: κ, h) →
      KR t E0 G (.bind (fun v => .app (.gcont i) (.tret v)) :: .leave h :: callF :: κ) (.restore d :: κ')

theorem KR.append {t : Tree (Thunk W)} {E0 : Cells} {G : List (List (Frame W) × Nat)} (hw : WF t) (e : Extent (Thunk W)) {κ : List (Frame W)} {κ' : List (Spec.Frame W)}
    (h : KR t E0 G κ κ') : KR (t ++ [e]) E0 G κ κ' := by
  induction h with
  | nil => exact .nil
  | bind _ ih => exact .bind ih
  | leave hd _ ih => exact .leave (hd.append hw e) ih
  | guard hd _ hi ih => exact .guard (hd.append hw e) ih hi

theorem KR.more {t : Tree (Thunk W)} {E0 : Cells} {G : List (List (Frame W) × Nat)} (g : List (Frame W) × Nat) {κ : List (Frame W)} {κ' : List (Spec.Frame W)}
    (h : KR t E0 G κ κ') : KR t E0 (G ++ [g]) κ κ' := by
  induction h with
  | nil => exact .nil
  | bind _ ih => exact .bind ih
  | leave hd _ ih => exact .leave hd ih
  | guard hd _ hi ih =>
    refine .guard hd ih ?_
    have : _ < G.length := (List.getElem?_eq_some_iff.mp hi).1
    rw [List.getElem?_append_left this]; exact hi

/-- related captured continuations. -/
def CR (t : Tree (Thunk W)) (E0 : Cells) (G : List (List (Frame W) × Nat)) (c : List (Frame W) × Nat) (c' : List (Spec.Frame W) × Spec.Dyn W) : Prop :=
  KR t E0 G c.1 c'.1 ∧ DynRel t E0 c.2 c'.2

/-- related continuations captured in `guard`. -/
def GR (t : Tree (Thunk W)) (E0 : Cells) (G : List (List (Frame W) × Nat)) (c : List (Frame W) × Nat) (c' : List (Spec.Frame W) × Spec.Dyn W) : Prop :=
  ∃ κ, c.1 = callF :: κ ∧ KR t E0 G κ c'.1 ∧ DynRel t E0 c.2 c'.2

/-- related lists. -/
inductive All {α β : Type} (R : α → β → Prop) : List α → List β → Prop
  | nil : All R [] []
  | cons {a : α} {b : β} {l : List α} {l' : List β} : R a b → All R l l' → All R (a :: l) (b :: l')

namespace All
variable {α β : Type} {R : α → β → Prop}
theorem len {l : List α} {l' : List β} (h : All R l l') : l.length = l'.length := by
  induction h with
  | nil => rfl
  | cons _ _ ih => simp [ih]
theorem get {l : List α} {l' : List β} (h : All R l l') (i : Nat) : (l[i]? = none ∧ l'[i]? = none) ∨ ∃ a b, l[i]? = some a ∧ l'[i]? = some b ∧ R a b := by
  induction h generalizing i with
  | nil => simp
  | cons hr _ ih =>
    cases i with
    | zero => exact .inr ⟨_, _, rfl, rfl, hr⟩
    | succ i => simpa using ih i
theorem snoc {l : List α} {l' : List β} {a : α} {b : β} (h : All R l l') (hr : R a b) : All R (l ++ [a]) (l' ++ [b]) := by
  induction h with
  | nil => exact .cons hr .nil
  | cons h0 _ ih => exact .cons h0 ih
theorem mono {R' : α → β → Prop} (hR : ∀ a b, R a b → R' a b) {l : List α} {l' : List β} (h : All R l l') : All R' l l' := by
  induction h with
  | nil => exact .nil
  | cons h0 _ ih => exact .cons (hR _ _ h0) ih
end All

/-- related states, apart from control. -/
structure Rel (t : Tree (Thunk W)) (E0 : Cells) (s : State W) (s' : Spec.State W) : Prop where
  k : KR t E0 s.gconts s.k s'.k
  rep : Rep t s.dyn.cur s.dyn
  cells : s.cells = env t E0 s.dyn.cur
  d : DynRel t E0 s.dyn.cur s'.d
  world : s.world = s'.world
  n : s'.n = t.length
  clos : s.clos = s'.clos
  cls : s.cls = s'.cls
  conts : All (CR t E0 s.gconts) s.conts s'.conts
  gconts : All (GR t E0 s.gconts) s.gconts s'.gconts
  good : Good t E0

theorem rep_log {t : Tree (Thunk W)} {c : Nat} {d : Wind.State (Thunk W)} (h : Rep t c d) (l : List (Thunk W)) : Rep t c { d with log := l } :=
  ⟨h.wf, h.next, h.cur, h.le, h.car0, h.cdr0, h.up, h.down⟩

/-- going to another extent. -/
theorem goto_spec {t : Tree (Thunk W)} {E0 : Cells} {s : State W} {s' : Spec.State W} (h : Rel t E0 s s') {y : Nat} {d : Spec.Dyn W} (hd : DynRel t E0 y d) :
    ∃ s1, goto s y = some s1 ∧ s1.ctl = s.ctl ∧ s1.k = s.k ∧ s1.clos = s.clos ∧ s1.cls = s.cls ∧ s1.conts = s.conts ∧ s1.gconts = s.gconts ∧ s1.dyn.cur = y ∧
      (∀ κ κ', KR t E0 s.gconts κ κ' → ∀ ct ct', Rel t E0 { s1 with k := κ, ctl := ct } { Spec.go s' d with k := κ', ctl := ct' }) := by
  have hle := h.rep.le
  have hy := hd.le
  have hn := h.rep.next
  obtain ⟨d1, g1, g2, g3⟩ := Wind.reroot_spec (rep_log h.rep []) y (2 * s.dyn.next + 1) hd.le (by omega)
  have hrun := run_thunks h.good h.rep.le hd.le s.world
  rw [List.nil_append] at g3
  refine ⟨{ s with dyn := d1, cells := (runThunks d1.log (s.cells, s.world)).1, world := (runThunks d1.log (s.cells, s.world)).2 },
    by unfold goto; rw [g1]; rfl, rfl, rfl, rfl, rfl, rfl, rfl, g2.cur, ?_⟩
  intro κ κ' hk ct ct'
  constructor
  · exact hk
  · simp only [g2.cur]; exact g2
  · simp only [g3, h.cells, hrun, g2.cur]
  · simp only [g2.cur]; exact hd
  · simp only [g3, h.cells, hrun, Spec.go]
    rw [← h.d.ws, ← hd.ws, h.world]
  · exact h.n
  · exact h.clos
  · exact h.cls
  · exact h.conts
  · exact h.gconts
  · exact h.good

/-- what entering an extent does to the world. -/
def weff : Thunk W → Cells → W → W
  | .user f, c, w => f (user c) w
  | .sets _, _, w => w

/-- the new call of `dynamic-wind`. -/
def newWs (n : Nat) (c : Cells) : Thunk W → Thunk W → List (Spec.Wnd W)
  | .user b, .user a => [⟨n, b, a, user c⟩]
  | _, _ => []

theorem wind_spec {t : Tree (Thunk W)} {E0 : Cells} {s : State W} {s' : Spec.State W} (h : Rel t E0 s s') {b a : Thunk W} (hg : GoodE s.cells b a) (p : Prog W)
    {d1 : Spec.Dyn W} (hws : d1.ws = newWs (t.length + 1) s.cells b a ++ s'.d.ws) (hps : d1.ps = user (eff b s.cells)) (hhs : eff b s.cells 0 = chain d1.hs) :
    ∃ s1 t1, wind s b a p = some s1 ∧ s1.ctl = .ev p ∧ s1.k = .leave s.dyn.cur :: s.k ∧ s1.clos = s.clos ∧ s1.cls = s.cls ∧ s1.conts = s.conts ∧ s1.gconts = s.gconts ∧
      Rel t1 E0 s1 { Spec.within s' d1 p with world := weff b s.cells s.world } ∧ (∀ c d, DynRel t E0 c d → DynRel t1 E0 c d) ∧ (∀ G κ κ', KR t E0 G κ κ' → KR t1 E0 G κ κ') := by
  have hle := h.rep.le
  have hn := h.rep.next
  have hw := h.rep.wf
  set e : Extent (Thunk W) := ⟨s.dyn.cur, b, a⟩ with he
  have hA := Wind.rep_add (rep_log h.rep []) b a
  have hlen : (t ++ [e]).length = t.length + 1 := by simp
  obtain ⟨d2, g1, g2, g3⟩ := Wind.reroot_spec hA (t.length + 1) (2 * s.dyn.next + 3) (by simp) (by omega)
  have hget : (t ++ [e])[t.length]? = some e := by simp
  have hw1 : WF (t ++ [e]) := hA.wf
  have hins : inside (t ++ [e]) (t.length + 1) = [t.length + 1] ++ inside (t ++ [e]) s.dyn.cur := by
    rw [Wind.inside_succ hw1 hget]; rfl
  obtain ⟨l1, l2⟩ := Wind.left_of_suffix hw1 (by simp) hins
  have hth : thunks (t ++ [e]) s.dyn.cur (t.length + 1) = [b] := by
    unfold thunks Wind.entered
    rw [l1, l2]
    simp [he]
  have hlog : d2.log = [b] := by rw [g3]; simpa [he] using hth
  have hrun : runThunks [b] (s.cells, s.world) = (eff b s.cells, weff b s.cells s.world) := by cases b <;> rfl
  have henv : env (t ++ [e]) E0 (t.length + 1) = eff b s.cells := by
    rw [env_succ hw1 hget, env_append hw e h.rep.le, h.cells]
  have hdyn : DynRel (t ++ [e]) E0 (t.length + 1) d1 := by
    refine ⟨by simp, ?_, by rw [henv]; exact hps, by rw [henv]; exact hhs⟩
    rw [hws, hins, h.d.ws]
    have hpar : env (t ++ [e]) E0 s.dyn.cur = s.cells := by rw [env_append hw e h.rep.le, h.cells]
    have hnew : wsOf (t ++ [e]) E0 ([t.length + 1] ++ inside (t ++ [e]) s.dyn.cur) = newWs (t.length + 1) s.cells b a ++ wsOf (t ++ [e]) E0 (inside (t ++ [e]) s.dyn.cur) := by
      unfold wsOf
      rw [List.filterMap_append]
      congr 1
      have hx : (t ++ [e])[t.length + 1 - 1]? = some e := hget
      rw [List.filterMap_cons, List.filterMap_nil]
      unfold wnd
      rw [hx, he]
      cases b with
      | user b =>
        cases a with
        | user a => simp only [newWs]; rw [← he, hpar]
        | sets l => rfl
      | sets l => rfl
    rw [hnew, ws_append hw e h.rep.le]
  have hgood : Good (t ++ [e]) E0 := by
    refine ⟨hw1, ?_⟩
    intro x ex hx
    by_cases hxl : x < t.length
    · rw [List.getElem?_append_left hxl] at hx
      have hp := hw x ex hx
      rw [env_append hw e (by omega)]
      exact h.good.ok x ex hx
    · have hx' : x = t.length := by have := Wind.lt_of_get hx; simp at this; omega
      subst hx'
      rw [hget] at hx
      injection hx with hx; subst hx
      rw [env_append hw e h.rep.le, ← h.cells]
      exact hg
  have hD : ∀ c d, DynRel t E0 c d → DynRel (t ++ [e]) E0 c d := fun c d hd => hd.append hw e
  have hK : ∀ G κ κ', KR t E0 G κ κ' → KR (t ++ [e]) E0 G κ κ' := fun G κ κ' hk => hk.append hw e
  have henter : Wind.enter (2 * s.dyn.next + 3) { s.dyn with log := [] } b a = some d2 := by
    unfold Wind.enter
    simp only
    rw [hn] at g1 ⊢
    exact g1
  refine ⟨{ s with ctl := .ev p, k := .leave s.dyn.cur :: s.k, dyn := d2, cells := (runThunks d2.log (s.cells, s.world)).1, world := (runThunks d2.log (s.cells, s.world)).2 },
    t ++ [e], by unfold wind; rw [henter]; rfl, rfl, rfl, rfl, rfl, rfl, rfl, ?_, hD, hK⟩
  have hcur : d2.cur = t.length + 1 := g2.cur
  constructor
  · exact .leave (hD _ _ h.d) (hK _ _ _ h.k)
  · simp only [hcur]; exact g2
  · simp only [hlog, hrun, hcur, henv]
  · simp only [hcur]; exact hdyn
  · simp only [hlog, hrun]
  · simp only [Spec.within, h.n, hlen]
  · exact h.clos
  · exact h.cls
  · exact h.conts.mono (fun c c' hc => ⟨hK _ _ _ hc.1, hD _ _ hc.2⟩)
  · exact h.gconts.mono (fun c c' ⟨κ, h1, h2, h3⟩ => ⟨κ, h1, hK _ _ _ h2, hD _ _ h3⟩)
  · exact hgood

/-! ### parameters -/

theorem setAll_snoc (l : List (Nat × V)) (x : Nat) (v : V) (c : Cells) : setAll (l ++ [(x, v)]) c = set1 x v (setAll l c) := by
  induction l generalizing c with
  | nil => rfl
  | cons a l ih => obtain ⟨y, u⟩ := a; simp only [List.cons_append, setAll]; exact ih _

theorem setAll_other (l : List (Nat × V)) {y : Nat} (h : ∀ p ∈ l, p.1 ≠ y) (c : Cells) : setAll l c y = c y := by
  induction l generalizing c with
  | nil => rfl
  | cons a l ih =>
    obtain ⟨x, v⟩ := a
    have hx : x ≠ y := h (x, v) List.mem_cons_self
    simp only [setAll]
    rw [ih (fun p hp => h p (List.mem_cons_of_mem _ hp))]
    simp [set1, Ne.symm hx]

theorem setAll_olds (E : Cells) (l : List (Nat × V)) (y : Nat) (c : Cells) (h : (∃ p ∈ l, p.1 = y) ∨ c y = E y) :
    setAll (l.map (fun p => (p.1, E p.1))) c y = E y := by
  induction l generalizing c with
  | nil =>
    rcases h with ⟨p, hp, _⟩ | h
    · cases hp
    · exact h
  | cons a l ih =>
    obtain ⟨x, v⟩ := a
    simp only [List.map_cons, setAll]
    apply ih
    by_cases hx : y = x
    · exact .inr (by simp [set1, hx])
    · rcases h with ⟨p, hp, hpy⟩ | h
      · rcases List.mem_cons.mp hp with rfl | hp
        · exact absurd hpy.symm hx
        · exact .inl ⟨p, hp, hpy⟩
      · exact .inr (by simp [set1, hx, h])

theorem goodE_sets (E : Cells) (l : List (Nat × V)) : GoodE (W := W) E (.sets l) (.sets (l.map (fun p => (p.1, E p.1)))) := by
  funext y
  apply setAll_olds
  by_cases h : ∃ p ∈ l, p.1 = y
  · exact .inl h
  · exact .inr (setAll_other l (fun p hp hy => h ⟨p, hp, hy⟩) E)

theorem user_bound (conv : Nat → V → V) (l : List (Nat × V)) (c : Cells) :
    user (setAll (l.map (fun b => (b.1 + 1, conv b.1 b.2))).reverse c) = Spec.bound conv l (user c) := by
  induction l with
  | nil => rfl
  | cons a l ih =>
    obtain ⟨x, v⟩ := a
    simp only [List.map_cons, List.reverse_cons, setAll_snoc, Spec.bound]
    rw [← ih]
    funext y
    simp [user, set1]

theorem zero_bound (conv : Nat → V → V) (l : List (Nat × V)) (c : Cells) :
    setAll (l.map (fun b => (b.1 + 1, conv b.1 b.2))).reverse c 0 = c 0 := by
  apply setAll_other
  intro p hp
  simp at hp
  obtain ⟨a, b, _, rfl⟩ := hp
  simp

/-! ### the simulation -/

/-- related states. -/
def R (E0 : Cells) (s : State W) (s' : Spec.State W) : Prop :=
  (s.ctl = s'.ctl ∧ ∃ t, Rel t E0 s s') ∨ (∃ ok v, s.ctl = .stop ok v ∧ s'.ctl = .stop ok v ∧ s.world = s'.world)

/-- a step of the specification is done by the library, and the ends are the same. -/
def Sim (conv : Nat → V → V) (E0 : Cells) (s : State W) (s' : Spec.State W) : Prop :=
  (∃ s1 s1', Spec.step conv s' = some s1' ∧ Reach1 (step conv) s s1 ∧ R E0 s1 s1') ∨
  (Spec.step conv s' = none ∧ ∃ s1, Reach (step conv) s s1 ∧ step conv s1 = none ∧ result s1 = Spec.result s')

theorem Rel.upd {t : Tree (Thunk W)} {E0 : Cells} {s : State W} {s' : Spec.State W} (h : Rel t E0 s s') {κ : List (Frame W)} {κ' : List (Spec.Frame W)}
    (hk : KR t E0 s.gconts κ κ') (c c' : Ctl W) : Rel t E0 { s with ctl := c, k := κ } { s' with ctl := c', k := κ' } :=
  ⟨hk, h.rep, h.cells, h.d, h.world, h.n, h.clos, h.cls, h.conts, h.gconts, h.good⟩

/-- a continuation of `guard` is given a thunk. -/
theorem gthrow {conv : Nat → V → V} {t : Tree (Thunk W)} {E0 : Cells} {s : State W} {s' : Spec.State W} (h : Rel t E0 s s') {i : Nat} {κ : List (Frame W)} {y : Nat}
    {κ' : List (Spec.Frame W)} {d : Spec.Dyn W} {v : V} (hc : s.ctl = .ev (.app (.gcont i) v))
    (hi : s.gconts[i]? = some (callF :: κ, y)) (hk : KR t E0 s.gconts κ κ') (hd : DynRel t E0 y d) :
    ∃ s1, Reach1 (step conv) s s1 ∧ s1.ctl = .ev (.app v (.atom 0)) ∧ s1.k = κ ∧ ∀ ct', Rel t E0 s1 { Spec.go s' d with k := κ', ctl := ct' } := by
  obtain ⟨s1, g1, g2, g3, g4, g5, g6, g7, g8, g9⟩ := goto_spec h hd
  refine ⟨{ s1 with ctl := .ev (.app v (.atom 0)), k := κ }, ?_, rfl, rfl, fun ct' => g9 κ κ' hk _ _⟩
  refine .cons (b := { s1 with ctl := .ret v, k := callF :: κ }) ?_ (.cons (b := { s1 with ctl := .ev (.app v (.atom 0)), k := κ }) ?_ (.refl _))
  · simp [step, hc, hi, throw, g1]
  · simp [step, callF]

theorem sim {conv : Nat → V → V} {t : Tree (Thunk W)} {E0 : Cells} {s : State W} {s' : Spec.State W} (hc : s.ctl = s'.ctl) (h : Rel t E0 s s') : Sim conv E0 s s' := by
  have hps : user s.cells = s'.d.ps := by rw [h.cells, h.d.ps]
  have hhs : s.cells 0 = chain s'.d.hs := by rw [h.cells]; exact h.d.hs
  have hgl := h.gconts.len
  have hcl := h.conts.len
  rcases hct : s'.ctl with p | v | ⟨ok, v⟩ <;> rw [hct] at hc
  · cases p with
    | ret v =>
      exact .inl ⟨{ s with ctl := .ret v }, { s' with ctl := .ret v }, by simp [Spec.step, hct], .one (by simp [step, hc]), .inl ⟨rfl, t, h.upd h.k _ _⟩⟩
    | bind p f =>
      exact .inl ⟨{ s with ctl := .ev p, k := .bind f :: s.k }, { s' with ctl := .ev p, k := .bind f :: s'.k }, by simp [Spec.step, hct], .one (by simp [step, hc]),
        .inl ⟨rfl, t, h.upd (.bind h.k) _ _⟩⟩
    | act f =>
      exact .inl ⟨{ s with ctl := .ret (f (user s.cells) s.world).1, world := (f (user s.cells) s.world).2 },
        { s' with ctl := .ret (f s'.d.ps s'.world).1, world := (f s'.d.ps s'.world).2 }, by simp only [Spec.step, hct], .one (by simp [step, hc]),
        .inl ⟨by rw [hps, h.world], t, h.k, h.rep, h.cells, h.d, by rw [hps, h.world], h.n, h.clos, h.cls, h.conts, h.gconts, h.good⟩⟩
    | lam f =>
      exact .inl ⟨{ s with ctl := .ret (.clo s.clos.length), clos := s.clos ++ [f] }, { s' with ctl := .ret (.clo s'.clos.length), clos := s'.clos ++ [f] }, by simp only [Spec.step, hct], .one (by simp [step, hc]),
        .inl ⟨by rw [h.clos], t, h.k, h.rep, h.cells, h.d, h.world, h.n, by simp only [h.clos], h.cls, h.conts, h.gconts, h.good⟩⟩
    | callcc f =>
      exact .inl ⟨{ s with ctl := .ev (f (.cont s.conts.length)), conts := s.conts ++ [(s.k, s.dyn.cur)] },
        { s' with ctl := .ev (f (.cont s'.conts.length)), conts := s'.conts ++ [(s'.k, s'.d)] }, by simp only [Spec.step, hct], .one (by simp [step, hc]),
        .inl ⟨by rw [hcl], t, h.k, h.rep, h.cells, h.d, h.world, h.n, h.clos, h.cls, h.conts.snoc ⟨h.k, h.d⟩, h.gconts, h.good⟩⟩
    | wind b a p =>
      obtain ⟨s1, t1, g1, g2, g3, g4, g5, g6, g7, g8, -⟩ := wind_spec h (b := .user b) (a := .user a) trivial p (d1 := { s'.d with ws := ⟨s'.n + 1, b, a, s'.d.ps⟩ :: s'.d.ws })
        (by simp [newWs, h.n, hps]) (by simp [eff, hps]) (by simpa [eff] using hhs)
      refine .inl ⟨s1, { Spec.within s' { s'.d with ws := ⟨s'.n + 1, b, a, s'.d.ps⟩ :: s'.d.ws } p with world := b s'.d.ps s'.world }, by simp only [Spec.step, hct], .one (by simp [step, hc, g1]), .inl ⟨g2, t1, ?_⟩⟩
      simpa [weff, hps, h.world] using g8
    | params l p =>
      obtain ⟨s1, t1, g1, g2, g3, g4, g5, g6, g7, g8, -⟩ := wind_spec h (b := .sets _) (a := .sets _) (goodE_sets s.cells (l.map (fun b => (b.1 + 1, conv b.1 b.2))).reverse) p
        (d1 := { s'.d with ps := Spec.bound conv l s'.d.ps }) rfl (by simp only [eff]; rw [user_bound, hps]) (by simp only [eff]; rw [zero_bound, hhs])
      refine .inl ⟨s1, Spec.within s' { s'.d with ps := Spec.bound conv l s'.d.ps } p, by simp only [Spec.step, hct], .one (by simp only [step, hc, bindParams]; exact g1), .inl ⟨g2, t1, ?_⟩⟩
      simpa [weff, Spec.within, h.world] using g8
    | handle f p =>
      obtain ⟨s1, t1, g1, g2, g3, g4, g5, g6, g7, g8, -⟩ := wind_spec h (b := .sets _) (a := .sets _) (goodE_sets s.cells [(0, .hand f (s.cells 0))]) p
        (d1 := { s'.d with hs := f :: s'.d.hs }) rfl (by rw [← hps]; rfl) (by simp [eff, setAll, set1, chain, hhs])
      refine .inl ⟨s1, Spec.within s' { s'.d with hs := f :: s'.d.hs } p, by simp only [Spec.step, hct], .one (by simp only [step, hc, bindParams]; exact g1), .inl ⟨g2, t1, ?_⟩⟩
      simpa [weff, Spec.within, h.world] using g8
    | raise v =>
      obtain ⟨s1, t1, g1, g2, g3, g4, g5, g6, g7, g8, -⟩ := wind_spec h (b := .sets _) (a := .sets _) (goodE_sets s.cells [(0, parent (s.cells 0))])
        (.bind (.app (s.cells 0) v) (fun _ => .raise (.returned v)))
        (d1 := { s'.d with hs := s'.d.hs.tail }) rfl (by rw [← hps]; rfl) (by simp only [eff, setAll, set1, if_true, hhs]; cases s'.d.hs <;> rfl)
      have e1 : step conv s = some s1 := by simp only [step, hc, bindParams]; exact g1
      have e2 : step conv s1 = some { s1 with ctl := .ev (.app (s.cells 0) v), k := .bind (fun _ => .raise (.returned v)) :: s1.k } := by simp only [step, g2]
      cases hh : s'.d.hs with
      | nil =>
        rw [hh] at hhs
        refine .inl ⟨_, { s' with ctl := .stop false v }, by simp [Spec.step, hct, hh], .cons e1 (.cons e2 (.cons (c := { s1 with ctl := .stop false v, k := .bind (fun _ => .raise (.returned v)) :: s1.k }) (by simp [step, hhs, chain]) (.refl _))), .inr ⟨false, v, rfl, rfl, ?_⟩⟩
        have := g8.world
        simpa [weff, h.world] using this
      | cons g gs =>
        rw [hh] at hhs
        refine .inl ⟨{ s1 with ctl := .ev (.app g v), k := .bind (fun _ => .raise (.returned v)) :: s1.k },
          { Spec.within s' { s'.d with hs := gs } (.app g v) with k := .bind (fun _ => .raise (.returned v)) :: .restore s'.d :: s'.k },
          by simp only [Spec.step, hct, hh], .cons e1 (.cons e2 (.cons (c := { s1 with ctl := .ev (.app g v), k := .bind (fun _ => .raise (.returned v)) :: s1.k }) (by simp [step, hhs, chain]) (.refl _))), .inl ⟨rfl, t1, ?_⟩⟩
        have := g8.upd (.bind (k := fun _ => .raise (.returned v)) g8.k) (.ev (.app g v)) (.ev (.app g v))
        simpa [weff, Spec.within, h.world, hh] using this
    | raiseC v =>
      obtain ⟨s1, t1, g1, g2, g3, g4, g5, g6, g7, g8, -⟩ := wind_spec h (b := .sets _) (a := .sets _) (goodE_sets s.cells [(0, parent (s.cells 0))])
        (.app (s.cells 0) v)
        (d1 := { s'.d with hs := s'.d.hs.tail }) rfl (by rw [← hps]; rfl) (by simp only [eff, setAll, set1, if_true, hhs]; cases s'.d.hs <;> rfl)
      have e1 : step conv s = some s1 := by simp only [step, hc, bindParams]; exact g1
      cases hh : s'.d.hs with
      | nil =>
        rw [hh] at hhs
        refine .inl ⟨_, { s' with ctl := .stop false v }, by simp [Spec.step, hct, hh], .cons e1 (.cons (c := { s1 with ctl := .stop false v }) (by simp [step, hhs, chain, g2]) (.refl _)), .inr ⟨false, v, rfl, rfl, ?_⟩⟩
        have := g8.world
        simpa [weff, h.world] using this
      | cons g gs =>
        rw [hh] at hhs
        refine .inl ⟨{ s1 with ctl := .ev (.app g v) }, Spec.within s' { s'.d with hs := gs } (.app g v),
          by simp only [Spec.step, hct, hh], .cons e1 (.cons (c := { s1 with ctl := .ev (.app g v) }) (by simp [step, hhs, chain, g2]) (.refl _)), .inl ⟨rfl, t1, ?_⟩⟩
        have := g8.upd g8.k (.ev (.app g v)) (.ev (.app g v))
        simpa [weff, Spec.within, h.world, hh] using this
    | guard cl p =>
      let sg : State W := { s with
        ctl := .ev (.handle (.ghand s.cls.length s.gconts.length) (.bind p (fun v => .app (.gcont s.gconts.length) (.tret v))))
        cls := s.cls ++ [cl]
        gconts := s.gconts ++ [(callF :: s.k, s.dyn.cur)] }
      let sg' : Spec.State W := { s' with cls := s'.cls ++ [cl], gconts := s'.gconts ++ [(s'.k, s'.d)] }
      have hG : Rel t E0 sg sg' :=
        ⟨h.k.more _, h.rep, h.cells, h.d, h.world, h.n, h.clos, by show _ = _ ; simp only [sg, sg', h.cls],
          h.conts.mono (fun _ _ hx => ⟨hx.1.more _, hx.2⟩),
          (h.gconts.mono (fun _ _ ⟨κ, x1, x2, x3⟩ => ⟨κ, x1, x2.more _, x3⟩)).snoc ⟨s.k, rfl, h.k.more _, h.d⟩, h.good⟩
      let s0 : State W := { sg with k := callF :: s.k }
      obtain ⟨s1, t1, g1, g2, g3, g4, g5, g6, g7, g8, g9, g10⟩ := wind_spec hG (b := .sets _) (a := .sets _) (goodE_sets s.cells [(0, .hand (.ghand s.cls.length s.gconts.length) (s.cells 0))])
        (.bind p (fun v => .app (.gcont s.gconts.length) (.tret v)))
        (d1 := { s'.d with hs := .ghand s'.cls.length s'.gconts.length :: s'.d.hs }) rfl (by rw [← hps]; rfl)
        (by simp [eff, setAll, set1, chain, hhs, h.cls, hgl])
      have e1 : step conv s = some s0 := by simp only [step, hc, s0, sg]
      have e2 : step conv s0 = some { s1 with k := .leave s.dyn.cur :: callF :: s.k } := by
        have h0 : step conv s0 = wind s0 (.sets [(0, .hand (.ghand s.cls.length s.gconts.length) (s.cells 0))]) (.sets [(0, s.cells 0)])
          (.bind p (fun v => .app (.gcont s.gconts.length) (.tret v))) := rfl
        rw [h0]
        have g1' : wind sg (.sets [(0, .hand (.ghand s.cls.length s.gconts.length) (s.cells 0))]) (.sets [(0, s.cells 0)])
          (.bind p (fun v => .app (.gcont s.gconts.length) (.tret v))) = some s1 := g1
        unfold wind at g1' ⊢
        obtain ⟨d, q1, q2⟩ := Option.map_eq_some_iff.mp g1'
        rw [show s0.dyn = sg.dyn from rfl, q1, ← q2]
        rfl
      let s3 : State W := { s1 with ctl := .ev p, k := .bind (fun v => .app (.gcont s.gconts.length) (.tret v)) :: .leave s.dyn.cur :: callF :: s.k }
      have e3 : step conv { s1 with k := .leave s.dyn.cur :: callF :: s.k } = some s3 := by simp only [step, g2, s3]
      refine .inl ⟨s3, { Spec.within s' { s'.d with hs := .ghand s'.cls.length s'.gconts.length :: s'.d.hs } p with
        cls := s'.cls ++ [cl], gconts := s'.gconts ++ [(s'.k, s'.d)] }, by simp only [Spec.step, hct], .cons e1 (.cons e2 (.cons e3 (.refl _))), .inl ⟨rfl, t1, ?_⟩⟩
      have hk : KR t1 E0 s1.gconts (.bind (fun v => .app (.gcont s.gconts.length) (.tret v)) :: .leave s.dyn.cur :: callF :: s.k) (.restore s'.d :: s'.k) := by
        refine .guard (g9 _ _ h.d) ?_ ?_
        · rw [g7]; exact g10 _ _ _ (h.k.more _)
        · rw [g7]; simp [sg]
      have := g8.upd hk (.ev p) (.ev p)
      simpa [weff, Spec.within, h.world, sg, sg', s3] using this
    | again k v =>
      have e1 : step conv s = some { s with ctl := .ev (.app k (.treraise v)) } := by simp only [step, hc]
      have h1 : Rel t E0 { s with ctl := .ev (.app k (.treraise v)) } s' := h.upd h.k _ s'.ctl
      by_cases hk : ∃ i, k = .gcont i
      · obtain ⟨i, rfl⟩ := hk
        rcases h.gconts.get i with ⟨a1, a2⟩ | ⟨a, b, a1, a2, κ, a3, a4, a5⟩
        · refine .inr ⟨by simp [Spec.step, hct, a2], _, .cons e1 (.refl _), by simp [step, a1], by simp [result, Spec.result, hct]⟩
        · obtain ⟨ak, ay⟩ := a
          simp only at a3; subst a3
          obtain ⟨s1, b1, b2, b3, b4⟩ := gthrow (conv := conv) h1 rfl a1 a4 a5
          refine .inl ⟨{ s1 with ctl := .ev (.raiseC v) }, { Spec.go s' b.2 with ctl := .ev (.raiseC v), k := b.1 }, by simp [Spec.step, hct, a2], .cons e1 (b1.reach.trans (.cons ?_ (.refl _))),
            .inl ⟨rfl, t, ?_⟩⟩
          · simp only [step, b2]
          · exact (b4 (.ev (.raiseC v))).upd (b4 (.ev (.raiseC v))).k _ _
      · refine .inl ⟨_, { s' with ctl := .ev (.app k (.treraise v)) }, ?_, .one e1, .inl ⟨rfl, t, h.upd h.k _ _⟩⟩
        cases k with
        | gcont i => exact absurd ⟨i, rfl⟩ hk
        | _ => simp only [Spec.step, hct]
    | app f v =>
      cases f with
      | clo i =>
        cases hi : s'.clos[i]? with
        | none => exact .inr ⟨by simp [Spec.step, hct, hi], s, .refl _, by simp [step, hc, h.clos, hi], by simp [result, Spec.result, hc, hct]⟩
        | some g => exact .inl ⟨{ s with ctl := .ev (g v) }, { s' with ctl := .ev (g v) }, by simp [Spec.step, hct, hi], .one (by simp [step, hc, h.clos, hi]), .inl ⟨rfl, t, h.upd h.k _ _⟩⟩
      | cont i =>
        rcases h.conts.get i with ⟨a1, a2⟩ | ⟨a, b, a1, a2, a3, a4⟩
        · exact .inr ⟨by simp [Spec.step, hct, a2], s, .refl _, by simp [step, hc, a1], by simp [result, Spec.result, hc, hct]⟩
        · obtain ⟨s1, g1, g2, g3, g4, g5, g6, g7, g8, g9⟩ := goto_spec h a4
          exact .inl ⟨{ s1 with ctl := .ret v, k := a.1 }, { Spec.go s' b.2 with ctl := .ret v, k := b.1 }, by simp [Spec.step, hct, a2],
            .one (by simp [step, hc, a1, throw, g1]), .inl ⟨rfl, t, g9 _ _ a3 _ _⟩⟩
      | gcont i =>
        rcases h.gconts.get i with ⟨a1, a2⟩ | ⟨a, b, a1, a2, κ, a3, a4, a5⟩
        · exact .inr ⟨by simp [Spec.step, hct, a2], s, .refl _, by simp [step, hc, a1], by simp [result, Spec.result, hc, hct]⟩
        · obtain ⟨ak, ay⟩ := a
          simp only at a3; subst a3
          obtain ⟨s1, b1, b2, b3, b4⟩ := gthrow (conv := conv) h hc a1 a4 a5
          exact .inl ⟨s1, { Spec.go s' b.2 with ctl := .ev (.app v (.atom 0)), k := b.1 }, by simp [Spec.step, hct, a2], b1, .inl ⟨b2, t, b4 _⟩⟩
      | hand g eh => exact .inl ⟨{ s with ctl := .ev (.app g v) }, { s' with ctl := .ev (.app g v) }, by simp [Spec.step, hct], .one (by simp [step, hc]), .inl ⟨rfl, t, h.upd h.k _ _⟩⟩
      | dflt => exact .inl ⟨{ s with ctl := .stop false v }, { s' with ctl := .stop false v }, by simp [Spec.step, hct], .one (by simp [step, hc]), .inl ⟨rfl, t, h.upd h.k _ _⟩⟩
      | ghand c i =>
        let sg : State W := { s with
          ctl := .ev (.app (.gcont i) (.tclause c v s.gconts.length)), gconts := s.gconts ++ [(callF :: s.k, s.dyn.cur)] }
        let sg' : Spec.State W := { s' with gconts := s'.gconts ++ [(s'.k, s'.d)] }
        have hG : Rel t E0 sg sg' :=
          ⟨h.k.more _, h.rep, h.cells, h.d, h.world, h.n, h.clos, h.cls, h.conts.mono (fun _ _ hx => ⟨hx.1.more _, hx.2⟩),
            (h.gconts.mono (fun _ _ ⟨κ, x1, x2, x3⟩ => ⟨κ, x1, x2.more _, x3⟩)).snoc ⟨s.k, rfl, h.k.more _, h.d⟩, h.good⟩
        let s0 : State W := { sg with k := callF :: s.k }
        have h0 : Rel t E0 s0 { sg' with k := .bind (fun th => .app th (.atom 0)) :: s'.k } := hG.upd (.bind hG.k) _ sg'.ctl
        rcases h.gconts.get i with ⟨a1, a2⟩ | ⟨a, b, a1, a2, κ, a3, a4, a5⟩
        · exact .inr ⟨by simp [Spec.step, hct, a2], s, .refl _, by simp [step, hc, a1], by simp [result, Spec.result, hc, hct]⟩
        · have e1 : step conv s = some s0 := by simp only [step, hc, s0, sg, a1, Option.map_some]
          obtain ⟨ak, ay⟩ := a
          simp only at a3; subst a3
          have hi : s0.gconts[i]? = some (callF :: κ, ay) := by
            have : i < s.gconts.length := (List.getElem?_eq_some_iff.mp a1).1
            simp only [s0, sg]
            rw [List.getElem?_append_left this]; exact a1
          obtain ⟨s1, b1, b2, b3, b4⟩ := gthrow (conv := conv) h0 rfl hi (a4.more _) a5
          have hcls : s1.cls = s'.cls := (b4 s'.ctl).cls
          cases hcl : s'.cls[c]? with
          | none =>
            exact .inr ⟨by simp [Spec.step, hct, a2, hcl], s1, .cons e1 b1.reach, by simp [step, b2, hcls, hcl], by simp [result, Spec.result, b2, hct]⟩
          | some cl =>
            refine .inl ⟨{ s1 with ctl := .ev (clProg (.again (.gcont s.gconts.length) v) (cl v)) },
              { Spec.go s' b.2 with ctl := .ev (clProg (.again (.gcont s'.gconts.length) v) (cl v)), k := b.1, gconts := s'.gconts ++ [(s'.k, s'.d)] },
              by simp only [Spec.step, hct, a2, hcl, Option.bind_some, Option.map_some],
              .cons e1 (b1.reach.trans (.cons (by simp only [step, b2, hcls, hcl, Option.map_some]) (.refl _))), .inl ⟨?_, t, (b4 s'.ctl).upd (b4 s'.ctl).k _ _⟩⟩
            simp only [hgl]
      | tret u => exact .inl ⟨{ s with ctl := .ret u }, { s' with ctl := .ret u }, by simp [Spec.step, hct], .one (by simp [step, hc]), .inl ⟨rfl, t, h.upd h.k _ _⟩⟩
      | tclause c u k =>
        cases hi : s'.cls[c]? with
        | none => exact .inr ⟨by simp [Spec.step, hct, hi], s, .refl _, by simp [step, hc, h.cls, hi], by simp [result, Spec.result, hc, hct]⟩
        | some g => exact .inl ⟨{ s with ctl := .ev (clProg (.again (.gcont k) u) (g u)) }, { s' with ctl := .ev (clProg (.again (.gcont k) u) (g u)) }, by simp [Spec.step, hct, hi],
            .one (by simp [step, hc, h.cls, hi]), .inl ⟨rfl, t, h.upd h.k _ _⟩⟩
      | treraise u => exact .inl ⟨{ s with ctl := .ev (.raiseC u) }, { s' with ctl := .ev (.raiseC u) }, by simp [Spec.step, hct], .one (by simp [step, hc]), .inl ⟨rfl, t, h.upd h.k _ _⟩⟩
      | atom n => exact .inr ⟨by simp [Spec.step, hct], s, .refl _, by simp [step, hc], by simp [result, Spec.result, hc, hct]⟩
      | returned u => exact .inr ⟨by simp [Spec.step, hct], s, .refl _, by simp [step, hc], by simp [result, Spec.result, hc, hct]⟩
  · have hk := h.k
    generalize hκ : s.k = κ at hk
    generalize hκ' : s'.k = κ' at hk
    cases hk with
    | nil => exact .inl ⟨{ s with ctl := .stop true v }, { s' with ctl := .stop true v }, by simp [Spec.step, hct, hκ'], .one (by simp [step, hc, hκ]), .inl ⟨rfl, t, h.upd h.k _ _⟩⟩
    | @bind k κ κ' hk => exact .inl ⟨{ s with ctl := .ev (k v), k := κ }, { s' with ctl := .ev (k v), k := κ' }, by simp [Spec.step, hct, hκ'], .one (by simp [step, hc, hκ]), .inl ⟨rfl, t, h.upd hk _ _⟩⟩
    | @leave y d κ κ' hd hk =>
      obtain ⟨s1, g1, g2, g3, g4, g5, g6, g7, g8, g9⟩ := goto_spec h hd
      exact .inl ⟨{ s1 with ctl := .ret v, k := κ }, { Spec.go s' d with ctl := .ret v, k := κ' }, by simp [Spec.step, hct, hκ'],
        .one (by simp [step, hc, hκ, g1]), .inl ⟨rfl, t, g9 _ _ hk _ _⟩⟩
    | @guard y i d κ κ' hd hk hi =>
      let s0 : State W := { s with ctl := .ev (.app (.gcont i) (.tret v)), k := .leave y :: callF :: κ }
      have e1 : step conv s = some s0 := by simp only [step, hc, hκ, s0]
      have h0 : Rel t E0 s0 { s' with k := .restore d :: .bind (fun th => .app th (.atom 0)) :: κ' } := h.upd (.leave hd (.bind hk)) _ s'.ctl
      obtain ⟨s1, b1, b2, b3, b4⟩ := gthrow (conv := conv) h0 rfl hi hk hd
      refine .inl ⟨{ s1 with ctl := .ret v }, { Spec.go s' d with ctl := .ret v, k := κ' }, by simp [Spec.step, hct, hκ'],
        .cons e1 (b1.reach.trans (.cons (by simp only [step, b2]) (.refl _))), .inl ⟨rfl, t, (b4 s'.ctl).upd (b4 s'.ctl).k _ _⟩⟩
  · refine .inr ⟨by simp [Spec.step, hct], s, .refl _, by simp [step, hc], by simp [result, Spec.result, hc, hct, h.world]⟩

theorem R.sim {conv : Nat → V → V} {E0 : Cells} {s : State W} {s' : Spec.State W} (h : R E0 s s') : Sim conv E0 s s' := by
  rcases h with ⟨h1, t, h2⟩ | ⟨ok, v, h1, h2, h3⟩
  · exact Exc.sim h1 h2
  · exact .inr ⟨by simp [Spec.step, h2], s, .refl _, by simp [step, h1], by simp [result, Spec.result, h1, h2, h3]⟩

theorem ends_det {σ : Type} {f : σ → Option σ} {s s1 : σ} {n m : Nat} {s2 : σ}
    (h1 : iter f n s = some s1) (h2 : f s1 = none) (h4 : iter f m s = some s2) :
    m ≤ n ∧ iter f (n - m) s2 = some s1 := by
  by_cases hmn : m ≤ n
  · refine ⟨hmn, ?_⟩
    rw [show n = m + (n - m) by omega, iter_add, h4] at h1
    exact h1
  · rw [show m = n + ((m - n - 1) + 1) by omega, iter_add, h1] at h4
    simp [iter, h2] at h4

theorem ends_of_spec {conv : Nat → V → V} {E0 : Cells} (n : Nat) : ∀ {s : State W} {s' s1' : Spec.State W}, R E0 s s' →
    iter (Spec.step conv) n s' = some s1' → Spec.step conv s1' = none → Ends (step conv) result s (Spec.result s1') := by
  induction n with
  | zero =>
    intro s s' s1' h h1 h2
    injection h1 with h1; subst h1
    rcases h.sim (conv := conv) with ⟨_, _, h3, _⟩ | ⟨_, s1, ⟨m, hm⟩, h4, h5⟩
    · rw [h2] at h3; cases h3
    · exact ⟨m, s1, hm, h4, h5⟩
  | succ n ih =>
    intro s s' s1' h h1 h2
    rw [iter] at h1
    rcases h.sim (conv := conv) with ⟨a, b, h3, ⟨m, hm⟩, h4⟩ | ⟨h3, _⟩
    · rw [h3] at h1
      obtain ⟨m', s1, g1, g2, g3⟩ := ih h4 h1 h2
      exact ⟨m + 1 + m', s1, by rw [iter_add, hm]; exact g1, g2, g3⟩
    · rw [h3] at h1; cases h1

theorem spec_of_ends {conv : Nat → V → V} {E0 : Cells} {r : Option (Bool × V × W)} (n : Nat) : ∀ {s s1 : State W} {s' : Spec.State W}, R E0 s s' →
    iter (step conv) n s = some s1 → step conv s1 = none → result s1 = r → Ends (Spec.step conv) Spec.result s' r := by
  induction n using Nat.strongRecOn with
  | _ n ih =>
    intro s s1 s' h h1 h2 h3
    rcases h.sim (conv := conv) with ⟨a, b, g1, ⟨m, hm⟩, g2⟩ | ⟨g1, s2, ⟨m, hm⟩, g2, g3⟩
    · obtain ⟨e1, e2⟩ := ends_det h1 h2 hm
      obtain ⟨m', b1, q1, q2, q3⟩ := ih (n - (m + 1)) (by omega) g2 e2 h2 h3
      exact ⟨m' + 1, b1, by rw [iter, g1]; exact q1, q2, q3⟩
    · obtain ⟨e1, e2⟩ := ends_det h1 h2 hm
      have : s1 = s2 := by
        cases hk : n - m with
        | zero => rw [hk] at e2; injection e2 with e2; exact e2.symm
        | succ k => rw [hk, iter, g2] at e2; cases e2
      subst this
      exact ⟨0, s', rfl, g1, by rw [← g3, h3]⟩

theorem start_rel (ps : Nat → V) (w : W) (p : Prog W) : R (start ps w p).cells (start ps w p) (Spec.start ps w p) := by
  refine .inl ⟨rfl, [], ?_⟩
  constructor
  · exact .nil
  · exact Wind.rep_init
  · rfl
  · exact ⟨Nat.le_refl _, rfl, rfl, rfl⟩
  · rfl
  · rfl
  · rfl
  · rfl
  · exact .nil
  · exact .nil
  · exact ⟨Wind.rep_init.wf, fun x e hx => by simp at hx⟩

end Verif.Exc

import Verif.Parse.Base
/-
C61: `psexp` makes the tree of an expression.
-/
namespace Verif.Parse
open Verif.Core
open Verif.Fold (beginExp)
open Verif.Expand (Var Out)

variable {h : Nat → S} {pn : List Char → PrimName}

mutual
theorem Reads.mono {g g' : List (Sym × Id)} {q q' : List (S × Id)} {Γ o e} (hg : ∀ p ∈ g, p ∈ g') (hq : ∀ p ∈ q, p ∈ q') :
    Reads h pn g q Γ o e → Reads h pn g' q' Γ o e
  | .local a => .local a
  | .global a b => .global a (hg _ b)
  | .lam a b => .lam a (b.mono hg hq)
  | .letcc a => .letcc (a.mono hg hq)
  | .set a b => .set (a.mono hg hq) (b.mono hg hq)
  | .if3 a b c => .if3 (a.mono hg hq) (b.mono hg hq) (c.mono hg hq)
  | .if2 a b => .if2 (a.mono hg hq) (b.mono hg hq)
  | .withcc a b => .withcc (a.mono hg hq) (b.mono hg hq)
  | .begin0 => .begin0
  | .begin a b c => .begin (a.mono hg hq) (b.mono hg hq) c
  | .cheap a b => .cheap a (b.mono hg hq)
  | .quote a b => .quote a (hq _ b)
  | .prim a b => .prim a (b.mono hg hq)
  | .letrec a b c d e f => .letrec a b (c.mono hg hq) (d.mono hg hq) e f
  | .app a b => .app (a.mono hg hq) (b.mono hg hq)
theorem ReadsAll.mono {g g' : List (Sym × Id)} {q q' : List (S × Id)} {Γ os es} (hg : ∀ p ∈ g, p ∈ g') (hq : ∀ p ∈ q, p ∈ q') :
    ReadsAll h pn g q Γ os es → ReadsAll h pn g' q' Γ os es
  | .nil => .nil
  | .cons a b => .cons (a.mono hg hq) (b.mono hg hq)
end

theorem Literals.mono {g g' : List (Sym × Id)} {cs} (hg : ∀ p ∈ g, p ∈ g') (H : Literals h pn g cs) : Literals h pn g' cs := by
  induction H with
  | nil => exact .nil
  | snoc _ a b c ih => exact .snoc ih a (b.mono hg fun _ hp => hp) c

/-! ### states -/

/-- a global id with a time stamp below the next one. -/
def Neg (st : St) (x : Id) : Prop := -(st.next : Int) < x.ts ∧ x.ts < 0

/-- the ids of the literals. -/
def qs (st : St) : List (S × Id) := st.consts.reverse.map fun c => (c.1, c.2.2)

/-- what holds between the calls of `psexp`. -/
structure Inv (h : Nat → S) (pn : List Char → PrimName) (st : St) : Prop where
  pos : 1 ≤ st.next
  lits : Literals h pn st.globals st.consts.reverse
  syms : (st.globals.map (·.1)).Nodup
  gids : ∀ p ∈ st.globals, Neg st p.2 ∧ p.2.mark = false
  gnodup : (st.globals.map (·.2)).Nodup
  cids : ∀ c ∈ st.consts, Neg st c.2.2 ∧ c.2.2.mark = true
  cnodup : (st.consts.map (·.2.2)).Nodup
  closed : ∀ c ∈ st.consts, ∀ x, Free x c.2.1 → Neg st x

theorem Neg.mono {st st' : St} {x : Id} (H : Neg st x) (hl : st.next ≤ st'.next) : Neg st' x := ⟨by have := H.1; omega, H.2⟩

/-- more time stamps. -/
theorem Inv.bump {st : St} (H : Inv h pn st) {k : Nat} (hk : st.next ≤ k) : Inv h pn { st with next := k } where
  pos := Nat.le_trans H.pos hk
  lits := H.lits
  syms := H.syms
  gids := fun p hp => ⟨(H.gids p hp).1.mono hk, (H.gids p hp).2⟩
  gnodup := H.gnodup
  cids := fun p hp => ⟨(H.cids p hp).1.mono hk, (H.cids p hp).2⟩
  cnodup := H.cnodup
  closed := fun c hc x hx => (H.closed c hc x hx).mono hk

/-- From `st` to `st'`: literals smaller than `sz` and global variables named by `R` are added, and `bs` are the new ids bound in the
result. -/
structure Step (h : Nat → S) (pn : List Char → PrimName) (sz : Nat) (R : Sym → Prop) (st st' : St) (bs : List Id) : Prop where
  le : st.next ≤ st'.next
  g : ∃ l, st'.globals = l ++ st.globals
  c : ∃ cs, st'.consts = cs ++ st.consts ∧ (∀ c ∈ cs, c.1.size < sz) ∧ Fresh st.next st'.next (bs ++ bindersAll (cs.map (·.2.1)))
  inv : Inv h pn st'
  new : ∀ p ∈ st'.globals, p ∈ st.globals ∨ R p.1

theorem Step.gmem {sz R st st' bs} (H : Step h pn sz R st st' bs) : ∀ p ∈ st.globals, p ∈ st'.globals := by
  obtain ⟨l, e⟩ := H.g
  intro p hp; rw [e]; simp [hp]

theorem Step.qmem {sz R st st' bs} (H : Step h pn sz R st st' bs) : ∀ p ∈ qs st, p ∈ qs st' := by
  obtain ⟨l, e, _⟩ := H.c
  intro p hp
  simp only [qs, e, List.map_reverse, List.mem_reverse, List.map_append, List.mem_append] at hp ⊢
  exact .inr hp

theorem bindersAll_append (as bs : List Exp) : bindersAll (as ++ bs) = bindersAll as ++ bindersAll bs := by
  induction as with
  | nil => rfl
  | cons a as ih => simp [bindersAll, ih]

theorem Step.refl {sz R st} (H : Inv h pn st) : Step h pn sz R st st [] :=
  ⟨Nat.le_refl _, ⟨[], rfl⟩, ⟨[], rfl, by simp, Fresh.nil⟩, H, fun _ hp => .inl hp⟩

theorem Step.trans {sz R st st1 st2 bs bs'} (a : Step h pn sz R st st1 bs) (b : Step h pn sz R st1 st2 bs') :
    Step h pn sz R st st2 (bs ++ bs') := by
  obtain ⟨l, el⟩ := a.g
  obtain ⟨l', el'⟩ := b.g
  obtain ⟨cs, ec, h1, f1⟩ := a.c
  obtain ⟨cs', ec', h2, f2⟩ := b.c
  refine ⟨Nat.le_trans a.le b.le, ⟨l' ++ l, by rw [el', el]; simp⟩, ⟨cs' ++ cs, by rw [ec', ec]; simp, ?_, ?_⟩, b.inv, ?_⟩
  · intro c hc
    rcases List.mem_append.mp hc with hc | hc
    · exact h2 c hc
    · exact h1 c hc
  · refine (f1.append f2 a.le b.le).le fun x => ?_
    simp only [List.map_append, bindersAll_append, List.count_append]
    omega
  · intro p hp
    rcases b.new p hp with hp | hp
    · exact a.new p hp
    · exact .inr hp

theorem Step.weaken {sz sz' : Nat} {R R' : Sym → Prop} {st st' bs bs'} (a : Step h pn sz R st st' bs) (hs : sz ≤ sz') (hR : ∀ s, R s → R' s)
    (hb : ∀ x, bs'.count x ≤ bs.count x) : Step h pn sz' R' st st' bs' := by
  obtain ⟨cs, ec, h1, f1⟩ := a.c
  refine ⟨a.le, a.g, ⟨cs, ec, fun c hc => Nat.lt_of_lt_of_le (h1 c hc) hs, f1.le fun x => ?_⟩, a.inv, fun p hp => (a.new p hp).imp_right (hR _)⟩
  have := hb x
  simp only [List.count_append]
  omega

theorem Step.bump {sz R st} (H : Inv h pn st) {k : Nat} (hk : st.next ≤ k) {bs} (hb : Fresh st.next k bs) :
    Step h pn sz R st { st with next := k } bs :=
  ⟨hk, ⟨[], rfl⟩, ⟨[], rfl, by simp, by simpa [bindersAll] using hb⟩, H.bump hk, fun _ hp => .inl hp⟩

/-! ### variables -/

/-- scopes. -/
def EnvOk (Γ : List (Var × Id)) : Prop := ∀ p ∈ Γ, Small p.1

theorem makeId_ok {sz Γ v st} (hv : OkVar v) (hΓ : EnvOk Γ) (H : Inv h pn st) :
    Step h pn sz (Refers (Γ.map (·.1)) (.var v)) st (makeId (name v) (env Γ) st).2 [] ∧
    Reads h pn (makeId (name v) (env Γ) st).2.globals (qs (makeId (name v) (env Γ) st).2) Γ (.var v) (.var (makeId (name v) (env Γ) st).1) ∧
    ((makeId (name v) (env Γ) st).1 ∈ Γ.map (·.2) ∨ Neg (makeId (name v) (env Γ) st).2 (makeId (name v) (env Γ) st).1) ∧
    (find v Γ = none → (name v, (makeId (name v) (env Γ) st).1) ∈ (makeId (name v) (env Γ) st).2.globals) := by
  unfold makeId
  rw [lookup_env hv.1 hΓ]
  cases hf : find v Γ with
  | some x =>
    exact ⟨.refl H, .local hf, .inl (List.mem_map.mpr ⟨_, find_mem hf, rfl⟩), nofun⟩
  | none =>
    dsimp only
    cases hl : lookup (name v) st.globals with
    | some x => exact ⟨.refl H, .global hf (lookup_mem hl), .inr (H.gids _ (lookup_mem hl)).1, fun _ => lookup_mem hl⟩
    | none =>
      have hN : Neg { st with next := st.next + 1 } ⟨-(st.next : Int), false⟩ := by
        have := H.pos
        unfold Neg
        constructor <;> simp only <;> omega
      have hn := lookup_none hl
      dsimp only
      refine ⟨⟨by simp only; omega, ⟨[_], rfl⟩, ⟨[], rfl, by simp, Fresh.nil⟩, ?_, ?_⟩, .global hf (by simp), .inr hN, fun _ => by simp⟩
      · have H' := H.bump (k := st.next + 1) (by omega)
        refine ⟨H'.pos, H.lits.mono fun p hp => List.mem_cons_of_mem _ hp, ?_, ?_, ?_, H'.cids, H'.cnodup, H'.closed⟩
        · simp only [List.map_cons, List.nodup_cons]
          refine ⟨fun hm => ?_, H.syms⟩
          obtain ⟨p, hp, e⟩ := List.mem_map.mp hm
          exact hn p hp e
        · intro p hp
          rcases List.mem_cons.mp hp with rfl | hp
          · exact ⟨hN, rfl⟩
          · exact H'.gids p hp
        · simp only [List.map_cons, List.nodup_cons]
          refine ⟨fun hm => ?_, H.gnodup⟩
          obtain ⟨p, hp, e⟩ := List.mem_map.mp hm
          have := (H.gids p hp).1.1
          rw [e] at this
          simp only at this
          omega
      · intro p hp
        rcases List.mem_cons.mp hp with rfl | hp
        · exact .inr (.var (find_none hf))
        · exact .inl hp

/-! ### expressions -/

/-- `psexp`, called at depth `n` in the scope `Γ` for `o`, does what it should. -/
def Good (h : Nat → S) (pn : List Char → PrimName) (n : Nat) (Γ : List (Var × Id)) (o : Out) : Prop :=
  ∀ st, Inv h pn st → ∃ e st', psexp pn n (env Γ) (render h o) st = some (e, st') ∧
    Step h pn (render h o).size (Refers (Γ.map (·.1)) o) st st' (binders e) ∧
    Reads h pn st'.globals (qs st') Γ o e ∧ ∀ x, Free x e → x ∈ Γ.map (·.2) ∨ Neg st' x

theorem mapP_ok {n Γ sz} {R : Sym → Prop} : ∀ {os : List Out} {st : St}, Inv h pn st → (∀ o ∈ os, Good h pn n Γ o) →
    (∀ o ∈ os, (render h o).size ≤ sz) → (∀ o ∈ os, ∀ s, Refers (Γ.map (·.1)) o s → R s) →
    ∃ es st', mapP (psexp pn n (env Γ)) (renderAll h os) st = some (es, st') ∧ Step h pn sz R st st' (bindersAll es) ∧
      ReadsAll h pn st'.globals (qs st') Γ os es ∧ ∀ e ∈ es, ∀ x, Free x e → x ∈ Γ.map (·.2) ∨ Neg st' x
  | [], st, H, _, _, _ => ⟨[], st, rfl, .refl H, .nil, by simp⟩
  | o :: os, st, H, hG, hs, hR => by
    obtain ⟨e, st1, a1, a2, a3, a4⟩ := hG o (by simp) st H
    obtain ⟨es, st2, b1, b2, b3, b4⟩ := mapP_ok (os := os) a2.inv (fun o ho => hG o (by simp [ho])) (fun o ho => hs o (by simp [ho]))
      (fun o ho => hR o (by simp [ho]))
    refine ⟨e :: es, st2, by simp [mapP, renderAll, a1, b1], ?_, .cons (a3.mono b2.gmem b2.qmem) b3, ?_⟩
    · exact (a2.weaken (hs o (by simp)) (hR o (by simp)) fun _ => Nat.le_refl _).trans b2
    · intro e' he x hx
      rcases List.mem_cons.mp he with rfl | he
      · exact (a4 x hx).imp_right fun hN => hN.mono b2.le
      · exact b4 e' he x hx

end Verif.Parse

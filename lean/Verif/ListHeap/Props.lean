import Verif.ListHeap.Spec
import Mathlib.Data.List.Forall2
import Mathlib.Data.List.Nodup
/-
Property theorems C73.
-/
namespace Verif.ListHeap
open Spec

/-! ### chains -/

theorem chain_ext {h : Heap} {v as xs t} (hc : Chain h v as xs t) (new : Heap) : Chain (h ++ new) v as xs t := by
  induction hc with
  | nil => exact .nil
  | cons h1 _ ih =>
    refine .cons ?_ ih
    rw [List.getElem?_append_left (List.getElem?_eq_some_iff.1 h1).1]; exact h1

theorem chain_bound {h : Heap} {v as xs t} (hc : Chain h v as xs t) : ∀ a ∈ as, a < h.length := by
  induction hc with
  | nil => simp
  | cons h1 _ ih =>
    intro a ha
    rcases List.mem_cons.1 ha with rfl | ha
    · exact (List.getElem?_eq_some_iff.1 h1).1
    · exact ih a ha

theorem chain_len {h : Heap} {v as xs t} (hc : Chain h v as xs t) : as.length = xs.length := by
  induction hc with
  | nil => rfl
  | cons _ _ ih => simp [ih]

theorem chain_trans {h : Heap} {v as xs u} (hc : Chain h v as xs u) {bs ys t} (hd : Chain h u bs ys t) :
    Chain h v (as ++ bs) (xs ++ ys) t := by
  induction hc with
  | nil => exact hd
  | cons h1 _ ih => exact .cons h1 (ih hd)

theorem chain_split {h : Heap} {v : Val} {t : Val} : ∀ {as bs : List Nat} {zs}, Chain h v (as ++ bs) zs t →
    ∃ xs ys u, zs = xs ++ ys ∧ Chain h v as xs u ∧ Chain h u bs ys t := by
  intro as
  induction as generalizing v with
  | nil => intro bs zs hc; exact ⟨[], zs, v, rfl, .nil, hc⟩
  | cons a as ih =>
    intro bs zs hc
    cases hc with
    | cons h1 h2 =>
      obtain ⟨xs, ys, u, rfl, h3, h4⟩ := ih h2
      exact ⟨_ :: xs, ys, u, rfl, .cons h1 h3, h4⟩

theorem chain_null {h : Heap} {v as xs as' xs'} (hc : Chain h v as xs .null) (hd : Chain h v as' xs' .null) :
    as = as' ∧ xs = xs' := by
  induction as generalizing v xs as' xs' with
  | nil =>
    cases hc
    cases hd
    exact ⟨rfl, rfl⟩
  | cons a as ih =>
    cases hc with
    | cons h1 h2 =>
      cases hd with
      | cons h3 h4 =>
        rw [h1] at h3
        simp only [Option.some.injEq, Prod.mk.injEq] at h3
        obtain ⟨rfl, rfl⟩ := h3
        obtain ⟨rfl, rfl⟩ := ih h2 h4
        exact ⟨rfl, rfl⟩

theorem chain_head {h : Heap} {v a as xs t} (hc : Chain h v (a :: as) xs t) : v = .ptr a := by
  cases hc; rfl

theorem chain_nodup {h : Heap} {v as xs} (hc : Chain h v as xs .null) : as.Nodup := by
  induction as generalizing v xs with
  | nil => simp
  | cons a as ih =>
    have hv := chain_head hc
    subst hv
    have hc0 := hc
    cases hc with
    | cons h1 h2 =>
      rw [List.nodup_cons]
      refine ⟨?_, ih h2⟩
      intro hm
      obtain ⟨b1, b2, rfl⟩ := List.append_of_mem hm
      obtain ⟨_, _, u, _, _, h4⟩ := chain_split h2
      have hu := chain_head h4
      subst hu
      have := (chain_null hc0 h4).1
      have := congrArg List.length this
      simp at this
      omega

theorem chain_set {h : Heap} {v as xs t} (hc : Chain h v as xs t) {a : Nat} (ha : a ∉ as) (c : Val × Val) :
    Chain (h.set a c) v as xs t := by
  induction hc with
  | nil => exact .nil
  | @cons b x d bs ys u h1 _ ih =>
    simp only [List.mem_cons, not_or] at ha
    refine .cons ?_ (ih ha.2)
    rw [List.getElem?_set_ne (by omega)]; exact h1

theorem chain_not_null {h : Heap} {v a as xs t} (hc : Chain h v (a :: as) xs t) : v ≠ .null := by
  cases hc; simp

/-! ### new pairs -/

theorem fresh_refl (h : Heap) (t : Val) : Fresh h h t [] t :=
  ⟨[], [], by simp, rfl, .nil, by intro a; simp⟩

theorem fresh_one (h : Heap) (x d : Val) : Fresh h (h ++ [(x, d)]) (.ptr h.length) [x] d :=
  ⟨[(x, d)], [h.length], rfl, rfl, .cons (by simp) .nil, by intro a; simp; omega⟩

theorem fresh_trans {h h1 h2 : Heap} {u v t xs ys} (hc : Fresh h h1 u xs t) (hd : Fresh h1 h2 v ys u) :
    Fresh h h2 v (ys ++ xs) t := by
  obtain ⟨n1, as1, rfl, hl1, hc1, hm1⟩ := hc
  obtain ⟨n2, as2, rfl, hl2, hc2, hm2⟩ := hd
  refine ⟨n1 ++ n2, as2 ++ as1, by simp, by simp [hl1, hl2, Nat.add_comm], chain_trans hc2 (chain_ext hc1 n2), ?_⟩
  intro a
  rw [List.mem_append, hm1, hm2]
  simp
  omega

theorem fresh_ext {h h' : Heap} {v xs t} (hf : Fresh h h' v xs t) : ∃ new, h' = h ++ new := by
  obtain ⟨n, _, h1, _⟩ := hf; exact ⟨n, h1⟩

/-! ### length -/

theorem lengthLoop_iff (h : Heap) : ∀ f l n m, lengthLoop h f l n = some m ↔
    ∃ as xs, Chain h l as xs .null ∧ xs.length < f ∧ m = n + xs.length := by
  intro f
  induction f with
  | zero => intro l n m; simp [lengthLoop]
  | succ f ih =>
    intro l n m
    rw [lengthLoop]
    by_cases hl : l = .null
    · subst hl
      rw [if_pos rfl]
      constructor
      · intro hm; simp at hm; exact ⟨[], [], .nil, by simp, by simp [hm]⟩
      · rintro ⟨as, xs, hc, _, rfl⟩
        cases hc; simp
    · rw [if_neg hl]
      constructor
      · intro hm
        cases l with
        | null => exact absurd rfl hl
        | atom k => simp [cdr] at hm
        | ptr a =>
          cases ha : h[a]? with
          | none => simp [cdr, ha] at hm
          | some c =>
            obtain ⟨x, d⟩ := c
            simp only [cdr, ha, Option.map_some, Option.bind_some] at hm
            obtain ⟨as, xs, hc, hf, rfl⟩ := (ih _ _ _).1 hm
            exact ⟨a :: as, x :: xs, .cons ha hc, by simp; omega, by simp; omega⟩
      · rintro ⟨as, xs, hc, hf, rfl⟩
        cases hc with
        | nil => exact absurd rfl hl
        | @cons a x d as xs _ h1 h2 =>
          simp only [cdr, h1, Option.map_some, Option.bind_some]
          rw [ih]
          simp at hf
          exact ⟨as, xs, h2, by omega, by simp; omega⟩

/-- `length` returns exactly for proper lists, after as many rounds as there are elements, and returns their
number. -/
theorem c73_length (f : Nat) (h : Heap) (l : Val) (n : Nat) :
    length f h l = some n ↔ n < f ∧ ∃ xs, IsList h l xs ∧ xs.length = n := by
  rw [length, lengthLoop_iff]
  constructor
  · rintro ⟨as, xs, hc, hf, rfl⟩
    exact ⟨by omega, xs, ⟨as, hc⟩, by omega⟩
  · rintro ⟨hf, xs, ⟨as, hc⟩, rfl⟩
    exact ⟨as, xs, hc, hf, by omega⟩

example : IsList [(.atom 7, .ptr 2), (.atom 0, .ptr 1), (.atom 8, .null)] (.ptr 0) [.atom 7, .atom 8] :=
  ⟨[0, 2], .cons rfl (.cons rfl .nil)⟩
example (f : Nat) : length f [(.atom 0, .ptr 0)] (.ptr 0) = none := by
  cases hl : length f [(.atom 0, .ptr 0)] (.ptr 0) with
  | none => rfl
  | some n =>
    obtain ⟨_, xs, ⟨as, hc⟩, _⟩ := (c73_length _ _ _ _).1 hl
    have := chain_nodup hc
    exfalso
    cases hc with
    | cons h1 h2 =>
      simp at h1
      obtain ⟨-, rfl⟩ := h1
      cases h2 with
      | cons h3 h4 => simp at this

/-! ### reverse -/

theorem revLoop_spec : ∀ f room (h : Heap) l o as xs, Chain h l as xs .null → xs.length < f → xs.length ≤ room →
    ∃ h' v, revLoop f room h l o = some (h', v) ∧ Fresh h h' v xs.reverse o := by
  intro f
  induction f with
  | zero => intro room h l o as xs _ hf; omega
  | succ f ih =>
    intro room h l o as xs hc hf hr
    rw [revLoop]
    cases hc with
    | nil => exact ⟨h, o, by simp, fresh_refl h o⟩
    | @cons a x d as xs _ h1 h2 =>
      obtain ⟨room, rfl⟩ : ∃ k, room = k + 1 := ⟨room - 1, by simp at hr; omega⟩
      have ha : a < h.length := (List.getElem?_eq_some_iff.1 h1).1
      have h1' : (h ++ [(x, o)])[a]? = some (x, d) := by rw [List.getElem?_append_left ha]; exact h1
      simp only [reduceCtorEq, if_false, car, h1, Option.map_some, Option.bind_some, push, cdr, h1']
      obtain ⟨h', v, e, hfr⟩ := ih room (h ++ [(x, o)]) d (.ptr h.length) as xs (chain_ext h2 _)
        (by simp at hf; omega) (by simp at hr; omega)
      refine ⟨h', v, e, ?_⟩
      have := fresh_trans (fresh_one h x o) hfr
      simpa using this

/-- `reverse` of a proper list makes a list of new pairs with the elements in reverse order; the heap is otherwise as
before, and the space reserved is enough. -/
theorem c73_reverse (f : Nat) (h : Heap) (l : Val) (xs : List Val) (hl : IsList h l xs) (hf : xs.length < f) :
    ∃ h' v, reverse f h l = some (h', v) ∧ Fresh h h' v xs.reverse .null := by
  obtain ⟨as, hc⟩ := hl
  have : length f h l = some xs.length := (c73_length _ _ _ _).2 ⟨hf, xs, ⟨as, hc⟩, rfl⟩
  rw [reverse, this]
  exact revLoop_spec f xs.length h l .null as xs hc hf (Nat.le_refl _)

example : reverse 3 [(.atom 7, .ptr 1), (.atom 8, .null)] (.ptr 0) =
    some ([(.atom 7, .ptr 1), (.atom 8, .null), (.atom 7, .null), (.atom 8, .ptr 2)], .ptr 3) := by decide

theorem revBang_spec : ∀ f (h : Heap) l v as xs, Chain h l as xs .null → xs.length < f →
    ∃ h' r, revBang f h l v = some (h', r) ∧ Chain h' r as.reverse xs.reverse v ∧ h'.length = h.length ∧
      ∀ a, a ∉ as → h'[a]? = h[a]? := by
  intro f
  induction f with
  | zero => intro h l v as xs _ hf; omega
  | succ f ih =>
    intro h l v as xs hc hf
    have hnd := chain_nodup hc
    rw [revBang]
    cases hc with
    | nil => exact ⟨h, v, by simp, .nil, rfl, fun _ _ => rfl⟩
    | @cons a x d as xs _ h1 h2 =>
      rw [List.nodup_cons] at hnd
      simp only [reduceCtorEq, if_false, cdr, h1, Option.map_some, Option.bind_some, setcdr]
      obtain ⟨h', r, e, hr, hlen, hother⟩ := ih (h.set a (x, v)) d (.ptr a) as xs (chain_set h2 hnd.1 _)
        (by simp at hf; omega)
      refine ⟨h', r, e, ?_, by simpa using hlen, ?_⟩
      · rw [List.reverse_cons, List.reverse_cons]
        refine chain_trans hr (.cons ?_ .nil)
        rw [hother a hnd.1]
        have ha : a < h.length := (List.getElem?_eq_some_iff.1 h1).1
        simp [ha]
      · intro b hb
        simp only [List.mem_cons, not_or] at hb
        rw [hother b hb.2, List.getElem?_set_ne (fun h => hb.1 h.symm)]

/-- `reverse!` of a proper list makes the list of the same pairs in reverse order, with the same cars, and
changes nothing else. -/
theorem c73_reverse_bang (f : Nat) (h : Heap) (l : Val) (as : List Nat) (xs : List Val) (hl : Chain h l as xs .null)
    (hf : xs.length < f) :
    ∃ h' r, revBang f h l .null = some (h', r) ∧ Chain h' r as.reverse xs.reverse .null ∧ h'.length = h.length ∧
      ∀ a, a ∉ as → h'[a]? = h[a]? := revBang_spec f h l .null as xs hl hf

example : Chain [(.atom 7, .ptr 1), (.atom 8, .null)] (.ptr 0) [0, 1] [.atom 7, .atom 8] .null :=
  .cons rfl (.cons rfl .nil)
example : revBang 3 [(.atom 7, .ptr 1), (.atom 8, .null)] (.ptr 0) .null =
    some ([(.atom 7, .null), (.atom 8, .ptr 0)], .ptr 1) := by decide

/-! ### append -/

theorem fresh_of_range {h : Heap} {new : Heap} {o ys t} (hl : new.length = ys.length)
    (hc : Chain (h ++ new) o (List.range' h.length ys.length) ys t) : Fresh h (h ++ new) o ys t := by
  refine ⟨new, _, rfl, hl, hc, ?_⟩
  intro a
  rw [List.mem_range'_1]
  simp [hl]

theorem appLoop_spec (h0 : Heap) (t : Val) : ∀ f room xs l as new o ys p,
    Chain h0 l as xs .null → xs.length < f → xs.length ≤ room → new.length = ys.length →
    Chain (h0 ++ new) o (List.range' h0.length ys.length) ys t →
    (p = none ∧ ys = [] ∨ p = some (h0.length + ys.length - 1) ∧ ys ≠ []) →
    ∃ h' v, appLoop f room (h0 ++ new) l t o p = some (h', v) ∧ Fresh h0 h' v (ys ++ xs) t := by
  intro f
  induction f with
  | zero => intro room xs l as new o ys p _ hf; omega
  | succ f ih =>
    intro room xs l as new o ys p hc hf hr hnew hch hp
    rw [appLoop]
    cases hc with
    | nil => exact ⟨h0 ++ new, o, by simp, by rw [List.append_nil]; exact fresh_of_range hnew hch⟩
    | @cons a x d as xs _ h1 h2 =>
      obtain ⟨room, rfl⟩ : ∃ k, room = k + 1 := ⟨room - 1, by simp at hr; omega⟩
      have ha : a < h0.length := (List.getElem?_eq_some_iff.1 h1).1
      have e1 : (h0 ++ new)[a]? = some (x, d) := by rw [List.getElem?_append_left ha]; exact h1
      simp only [reduceCtorEq, if_false, car, e1, Option.map_some, Option.bind_some, push]
      rcases hp with ⟨rfl, rfl⟩ | ⟨rfl, hne⟩
      · -- the first new pair
        have hn : new = [] := by simpa using hnew
        subst hn
        have e2 : (h0 ++ [] ++ [(x, t)])[a]? = some (x, d) := by
          rw [List.append_nil, List.getElem?_append_left ha]; exact h1
        simp only [Option.bind_some, cdr, e2, Option.map_some]
        have hch' : Chain (h0 ++ [(x, t)]) (.ptr h0.length) (List.range' h0.length 1) [x] t :=
          .cons (by simp) .nil
        obtain ⟨h', v, e, hfr⟩ := ih room xs d as [(x, t)] (.ptr h0.length) [x] (some h0.length) h2
          (by simp at hf; omega) (by simp at hr; omega) rfl hch' (Or.inr ⟨by simp, by simp⟩)
        refine ⟨h', v, ?_, by simpa using hfr⟩
        simpa using e
      · -- a further one, stored in the cdr of the one before
        obtain ⟨zs, z, rfl⟩ : ∃ zs z, ys = zs ++ [z] :=
          ⟨ys.dropLast, ys.getLast hne, (List.dropLast_append_getLast hne).symm⟩
        have hlen : (zs ++ [z]).length = zs.length + 1 := by simp
        rw [hlen] at hch hnew
        have hj : h0.length + (zs ++ [z]).length - 1 = h0.length + zs.length := by rw [hlen]; omega
        rw [hj]
        rw [List.range'_1_concat] at hch
        obtain ⟨us, ws, u, huw, hc1, hc2⟩ := chain_split hch
        have hu := chain_head hc2
        subst hu
        cases hc2 with
        | @cons _ y dd bs vs _ g1 g2 =>
          cases g2
          have hz : us = zs ∧ y = z := by
            have := List.append_inj' huw rfl
            simp at this
            exact ⟨this.1.symm, this.2.symm⟩
          obtain ⟨rfl, rfl⟩ := hz
          have hjlt : h0.length + us.length < (h0 ++ new).length := by simp; omega
          have g1' : (h0 ++ new ++ [(x, t)])[h0.length + us.length]? = some (y, t) := by
            rw [List.getElem?_append_left hjlt]; exact g1
          have hset : (h0 ++ new ++ [(x, t)]).set (h0.length + us.length) (y, .ptr (h0 ++ new).length) =
              h0 ++ (new ++ [(x, t)]).set us.length (y, .ptr (h0 ++ new).length) := by
            rw [List.append_assoc, List.set_append_right _ _ (by omega)]
            congr 2
            omega
          simp only [setcdr, g1', Option.map_some, Option.bind_some, hset]
          have e2 : (h0 ++ (new ++ [(x, t)]).set us.length (y, .ptr (h0 ++ new).length))[a]? = some (x, d) := by
            rw [List.getElem?_append_left ha]; exact h1
          simp only [cdr, e2, Option.map_some, Option.bind_some]
          have hch' : Chain (h0 ++ (new ++ [(x, t)]).set us.length (y, .ptr (h0 ++ new).length)) o
              (List.range' h0.length ((us ++ [y]) ++ [x]).length) ((us ++ [y]) ++ [x]) t := by
            rw [← hset]
            have hl2 : ((us ++ [y]) ++ [x]).length = us.length + 1 + 1 := by simp
            rw [hl2, List.range'_1_concat, List.range'_1_concat, List.append_assoc us [y] [x],
              List.append_assoc (List.range' _ _)]
            refine chain_trans (chain_set (chain_ext hc1 _) ?_ _) ?_
            · rw [List.mem_range'_1]; omega
            · refine .cons (d := .ptr (h0 ++ new).length) ?_ ?_
              · rw [List.getElem?_set_self]
                rw [List.length_append]; omega
              · have hk : (h0 ++ new).length = h0.length + (us.length + 1) := by simp [hnew]
                rw [hk]
                refine .cons (d := t) ?_ .nil
                rw [List.getElem?_set_ne (by omega), ← hk]
                simp
          obtain ⟨h', v, e, hfr⟩ := ih room xs d as ((new ++ [(x, t)]).set us.length (y, .ptr (h0 ++ new).length)) o
            ((us ++ [y]) ++ [x]) (some (h0 ++ new).length) h2
            (by simp at hf; omega) (by simp at hr; omega) (by simp [hnew]) hch'
            (Or.inr ⟨by simp [hnew], by simp⟩)
          refine ⟨h', v, e, ?_⟩
          simpa using hfr

theorem append2_spec (f : Nat) (h : Heap) (l t : Val) (xs : List Val) (hl : IsList h l xs) (hf : xs.length < f) :
    ∃ h' v, append2 f h l t = some (h', v) ∧ Fresh h h' v xs t := by
  obtain ⟨as, hc⟩ := hl
  have : length f h l = some xs.length := (c73_length _ _ _ _).2 ⟨hf, xs, ⟨as, hc⟩, rfl⟩
  rw [append2, this]
  obtain ⟨h', v, e, hfr⟩ := appLoop_spec h t f xs.length xs l as [] t [] none hc hf (Nat.le_refl _) rfl .nil
    (Or.inl ⟨rfl, rfl⟩)
  rw [List.append_nil] at e
  exact ⟨h', v, e, hfr⟩

/-- `append` of any number of proper lists and a last operand of any kind: new pairs with all the elements in order,
leading to the last operand itself; the heap is otherwise as before, and the space reserved is enough. -/
theorem c73_append (f : Nat) (h : Heap) (ls : List Val) (xss : List (List Val)) (t : Val)
    (hl : List.Forall₂ (IsList h) ls xss) (hf : ∀ xs ∈ xss, xs.length < f) :
    ∃ h' v, append f h (ls ++ [t]) = some (h', v) ∧ Fresh h h' v xss.flatten t := by
  induction hl with
  | nil => exact ⟨h, t, rfl, fresh_refl h t⟩
  | @cons l xs ls xss h1 _ ih =>
    obtain ⟨h1', v1, e1, f1⟩ := ih (fun ys hy => hf ys (by simp [hy]))
    obtain ⟨new, rfl⟩ := fresh_ext f1
    obtain ⟨as, hc⟩ := h1
    obtain ⟨h2, v2, e2, f2⟩ := append2_spec f (h ++ new) l v1 xs ⟨as, chain_ext hc new⟩ (hf xs (by simp))
    refine ⟨h2, v2, ?_, by rw [List.flatten_cons]; exact fresh_trans f1 f2⟩
    cases hls : ls ++ [t] with
    | nil => simp at hls
    | cons y zs =>
      rw [hls] at e1
      rw [List.cons_append, hls, append, e1]
      exact e2

example : List.Forall₂ (IsList [(.atom 7, .null)]) [.ptr 0, .null, .ptr 0] [[.atom 7], [], [.atom 7]] := by
  have h : IsList [(.atom 7, .null)] (.ptr 0) [.atom 7] := ⟨[0], .cons rfl .nil⟩
  exact .cons h (.cons ⟨[], .nil⟩ (.cons h .nil))
example : append 3 [(.atom 7, .null)] [.ptr 0, .ptr 0, .atom 5] =
    some ([(.atom 7, .null), (.atom 7, .atom 5), (.atom 7, .ptr 1)], .ptr 2) := by decide

/-! ### construction and copying -/

theorem consLoop_spec : ∀ xs room (h : Heap) p, xs.length ≤ room →
    ∃ h' v, consLoop room h xs p = some (h', v) ∧ Fresh h h' v xs.reverse p := by
  intro xs
  induction xs with
  | nil => intro room h p _; exact ⟨h, p, rfl, fresh_refl h p⟩
  | cons x xs ih =>
    intro room h p hr
    obtain ⟨room, rfl⟩ : ∃ k, room = k + 1 := ⟨room - 1, by simp at hr; omega⟩
    obtain ⟨h', v, e, hfr⟩ := ih room (h ++ [(x, p)]) (.ptr h.length) (by simp at hr; omega)
    refine ⟨h', v, by rw [consLoop]; simpa [push] using e, ?_⟩
    have := fresh_trans (fresh_one h x p) hfr
    simpa using this

/-- `cons*` (and `list`, with the empty list last): new pairs with the operands in order, leading to the last one. -/
theorem c73_cons_star (h : Heap) (xs : List Val) (j : Val) :
    ∃ h' v, consStar h xs j = some (h', v) ∧ Fresh h h' v xs j := by
  obtain ⟨h', v, e, hfr⟩ := consLoop_spec xs.reverse (xs.length + 1) h j (by simp)
  exact ⟨h', v, e, by simpa using hfr⟩

/-- `make-list`: new pairs with the same element. -/
theorem c73_make_list (h : Heap) (x : Val) (n : Nat) :
    ∃ h' v, makeList h x n .null = some (h', v) ∧ Fresh h h' v (List.replicate n x) .null := by
  suffices H : ∀ n (h : Heap) l, ∃ h' v, makeList h x n l = some (h', v) ∧ Fresh h h' v (List.replicate n x) l from
    H n h .null
  intro n
  induction n with
  | zero => intro h l; exact ⟨h, l, rfl, fresh_refl h l⟩
  | succ n ih =>
    intro h l
    obtain ⟨h', v, e, hfr⟩ := ih (h ++ [(x, l)]) (.ptr h.length)
    refine ⟨h', v, by rw [makeList]; simpa [cons, push] using e, ?_⟩
    have := fresh_trans (fresh_one h x l) hfr
    rw [List.replicate_succ']
    exact this

/-- `list-copy`: new pairs with the same elements up to the first thing that is not a pair, which is kept. -/
theorem c73_list_copy (f : Nat) (h : Heap) (l t : Val) (as : List Nat) (xs : List Val) (hl : Chain h l as xs t)
    (ht : Atomic h t) (hf : xs.length < f) :
    ∃ h' v, listCopy f h l = some (h', v) ∧ Fresh h h' v xs t := by
  induction f generalizing l as xs with
  | zero => omega
  | succ f ih =>
    rw [listCopy]
    cases hl with
    | nil =>
      have : ispair h t = false := by
        cases t with
        | ptr a => simp [ispair, ht a rfl]
        | null => rfl
        | atom n => rfl
      rw [this]
      exact ⟨h, t, rfl, fresh_refl h t⟩
    | @cons a x d as xs _ h1 h2 =>
      obtain ⟨h', v, e, hfr⟩ := ih d as xs h2 (by simp at hf; omega)
      refine ⟨h' ++ [(x, v)], .ptr h'.length, ?_, fresh_trans hfr (fresh_one h' x v)⟩
      simp [ispair, h1, car, cdr, e, cons, push]

example : Chain [(.atom 7, .ptr 1), (.atom 8, .atom 9)] (.ptr 0) [0, 1] [.atom 7, .atom 8] (.atom 9) ∧
    Atomic [(.atom 7, .ptr 1), (.atom 8, .atom 9)] (.atom 9) :=
  ⟨.cons rfl (.cons rfl .nil), by intro a h; simp at h⟩

/-! ### parts of lists -/

theorem tailLoop_iff (h : Heap) : ∀ n l v, tailLoop h n l = some v ↔ ∃ as xs, as.length = n ∧ Chain h l as xs v := by
  intro n
  induction n with
  | zero =>
    intro l v
    rw [tailLoop]
    constructor
    · intro e; simp at e; subst e; exact ⟨[], [], rfl, .nil⟩
    · rintro ⟨as, xs, h1, h2⟩
      have : as = [] := by simpa using h1
      subst this; cases h2; rfl
  | succ n ih =>
    intro l v
    rw [tailLoop]
    constructor
    · intro e
      cases l with
      | null => simp [cdr] at e
      | atom k => simp [cdr] at e
      | ptr a =>
        cases ha : h[a]? with
        | none => simp [cdr, ha] at e
        | some c =>
          obtain ⟨x, d⟩ := c
          simp only [cdr, ha, Option.map_some, Option.bind_some] at e
          obtain ⟨as, xs, h1, h2⟩ := (ih _ _).1 e
          exact ⟨a :: as, x :: xs, by simp [h1], .cons ha h2⟩
    · rintro ⟨as, xs, h1, h2⟩
      cases h2 with
      | nil => simp at h1
      | @cons a x d as xs _ h3 h4 =>
        simp only [cdr, h3, Option.map_some, Option.bind_some]
        rw [ih]
        exact ⟨as, xs, by simpa using h1, h4⟩

/-- `list-tail` gives what is reached after `n` pairs, and nothing is defined if there are fewer. -/
theorem c73_list_tail (h : Heap) (l v : Val) (n : Nat) :
    listTail h l n = some v ↔ ∃ as xs, as.length = n ∧ Chain h l as xs v := by
  rw [listTail]; simpa using tailLoop_iff h n l v

/-- `list-ref` gives the element with index `n`, and nothing is defined if there is none. -/
theorem c73_list_ref (h : Heap) (l x : Val) (n : Nat) :
    listRef h l n = some x ↔ ∃ as xs t, Chain h l as xs t ∧ xs.length = n + 1 ∧ xs[n]? = some x := by
  rw [listRef]
  simp only [Int.toNat_natCast]
  constructor
  · intro e
    cases ht : tailLoop h n l with
    | none => rw [ht] at e; simp at e
    | some v =>
      rw [ht] at e
      simp only [Option.bind_some] at e
      obtain ⟨as, xs, h1, h2⟩ := (tailLoop_iff h n l v).1 ht
      cases v with
      | null => simp [car] at e
      | atom k => simp [car] at e
      | ptr a =>
        cases ha : h[a]? with
        | none => simp [car, ha] at e
        | some c =>
          obtain ⟨y, d⟩ := c
          simp [car, ha] at e
          subst e
          have hl := chain_len h2
          refine ⟨as ++ [a], xs ++ [y], d, chain_trans h2 (.cons ha .nil), by simp; omega, ?_⟩
          rw [show n = xs.length by omega]; simp
  · rintro ⟨as, xs, t, h1, h2, h3⟩
    have hne : xs ≠ [] := by rintro rfl; simp at h2
    have hl := chain_len h1
    have hne' : as ≠ [] := by rintro rfl; simp at hl; omega
    obtain ⟨bs, b, rfl⟩ : ∃ bs b, as = bs ++ [b] :=
      ⟨as.dropLast, as.getLast hne', (List.dropLast_append_getLast hne').symm⟩
    obtain ⟨us, ws, u, rfl, hc1, hc2⟩ := chain_split h1
    have hu := chain_head hc2
    subst hu
    cases hc2 with
    | @cons _ y d bs' vs _ g1 g2 =>
      cases g2
      have hbl := chain_len hc1
      have : us.length = n := by simp at h2; omega
      rw [(tailLoop_iff h n l (.ptr b)).2 ⟨bs, us, by omega, hc1⟩]
      simp only [Option.bind_some, car, g1, Option.map_some]
      rw [← this] at h3
      simpa using h3

example : listRef [(.atom 7, .ptr 1), (.atom 8, .null)] (.ptr 0) 1 = some (.atom 8) := by decide

theorem lastLoop_spec (h : Heap) (t : Val) (ht : Atomic h t) : ∀ f l p as xs, Chain h p as xs t → as.length < f →
    lastLoop h f l p = some ((as.getLast?.map Val.ptr).getD l) := by
  intro f
  induction f with
  | zero => intro l p as xs _ hf; omega
  | succ f ih =>
    intro l p as xs hc hf
    rw [lastLoop]
    cases hc with
    | nil =>
      have : ispair h t = false := by
        cases t with
        | ptr a => simp [ispair, ht a rfl]
        | null => rfl
        | atom n => rfl
      simp [this]
    | @cons a x d as xs _ h1 h2 =>
      simp only [ispair, h1, Option.isSome_some, if_true, cdr, Option.map_some, Option.bind_some]
      rw [ih (.ptr a) d as xs h2 (by simp at hf; omega)]
      cases as with
      | nil => simp
      | cons b bs => simp [List.getLast?_cons]

/-- `last-pair` gives the last pair. -/
theorem c73_last_pair (f : Nat) (h : Heap) (l t : Val) (as : List Nat) (a : Nat) (xs : List Val)
    (hl : Chain h l (as ++ [a]) xs t) (ht : Atomic h t) (hf : as.length < f) :
    lastPair f h l = some (.ptr a) := by
  cases has : as ++ [a] with
  | nil => simp at has
  | cons b bs =>
    rw [has] at hl
    have hlen : bs.length = as.length := by
      have := congrArg List.length has
      simp at this; omega
    have hlast : (b :: bs).getLast? = some a := by rw [← has]; simp
    cases hl with
    | @cons _ x d _ xs _ h1 h2 =>
      rw [lastPair]
      simp only [cdr, h1, Option.map_some, Option.bind_some]
      rw [lastLoop_spec h t ht f _ d bs xs h2 (by omega)]
      cases bs with
      | nil => simp at hlast; simp [hlast]
      | cons c cs => rw [List.getLast?_cons_cons] at hlast; simp [hlast]

example : lastPair 2 [(.atom 7, .ptr 1), (.atom 8, .atom 9)] (.ptr 0) = some (.ptr 1) := by decide

/-- `memq` gives the part of the list from the first pair that has `x` as its car, and `#f` if there is none. -/
theorem c73_memq (f : Nat) (h : Heap) (x l l' : Val) (as : List Nat) (xs : List Val) (hl : Chain h l as xs l')
    (hx : x ∉ xs) (hf : xs.length < f) :
    (l' = .null → memq h x f l = some none) ∧ (car h l' = some x → memq h x f l = some (some l')) := by
  induction f generalizing l as xs with
  | zero => omega
  | succ f ih =>
    cases hl with
    | nil =>
      rw [memq]
      constructor
      · intro e; simp [e]
      · intro e
        have : l' ≠ .null := by rintro rfl; simp [car] at e
        simp [this, e]
    | @cons a y d as xs _ h1 h2 =>
      simp only [List.mem_cons, not_or] at hx
      have hy : ¬ y = x := fun h => hx.1 h.symm
      have e : memq h x (f + 1) (.ptr a) = memq h x f d := by
        rw [memq]
        simp [car, cdr, h1, hy]
      rw [e]
      exact ih d as xs h2 hx.2 (by simp at hf; omega)

example : memq [(.atom 7, .ptr 1), (.atom 8, .null)] (.atom 8) 3 (.ptr 0) = some (some (.ptr 1)) := by decide

/-- `assq` gives the first pair in the list that has `x` as its car, and `#f` if there is none. -/
theorem c73_assq (f : Nat) (h : Heap) (x l l' : Val) (as : List Nat) (ps : List Val) (hl : Chain h l as ps l')
    (hx : ∀ p ∈ ps, ∃ y, car h p = some y ∧ y ≠ x) (hf : ps.length < f) :
    (l' = .null → assq h x f l = some none) ∧
    (∀ p, car h l' = some p → car h p = some x → assq h x f l = some (some p)) := by
  induction f generalizing l as ps with
  | zero => omega
  | succ f ih =>
    cases hl with
    | nil =>
      rw [assq]
      constructor
      · intro e; simp [e]
      · intro p e1 e2
        have : l' ≠ .null := by rintro rfl; simp [car] at e1
        simp [this, e1, e2]
    | @cons a p d as ps _ h1 h2 =>
      obtain ⟨y, hy, hne⟩ := hx p (by simp)
      have e : assq h x (f + 1) (.ptr a) = assq h x f d := by
        rw [assq]
        have hc : car h (.ptr a) = some p := by simp [car, h1]
        have hd : cdr h (.ptr a) = some d := by simp [cdr, h1]
        simp [hc, hd, hy, hne]
      rw [e]
      exact ih d as ps h2 (fun q hq => hx q (by simp [hq])) (by simp at hf; omega)

example : assq [(.ptr 2, .ptr 1), (.ptr 3, .null), (.atom 7, .atom 1), (.atom 8, .atom 2)] (.atom 8) 3 (.ptr 0) =
    some (some (.ptr 3)) := by decide

/-! ### list-set! -/

/-- The full property of `list-set!`: the element with index `n` is replaced.  It does not hold: `c73_counterexample`. -/
def C73Full : Prop :=
  ∀ (q : Nat) (h : Heap) (l x : Val) (as : List Nat) (xs : List Val) (n : Nat), Chain h l as xs .null →
    n < xs.length → ∃ h', listSet q h l n x = some h' ∧ Chain h' l as (xs.set n x) .null

/-- `list-set!` never has a defined behaviour: it does not touch its list but takes the procedure `list` for one. -/
theorem c73_counterexample : (∀ q h l n x, listSet q h l n x = none) ∧ ¬ C73Full := by
  have h0 : ∀ q h l n x, listSet q h l n x = none := by
    intro q h l n x
    unfold listSet listTail
    cases n.toNat with
    | zero => rfl
    | succ k => rfl
  refine ⟨h0, ?_⟩
  intro hf
  obtain ⟨h', e, _⟩ := hf 0 [(.atom 7, .null)] (.ptr 0) (.atom 8) [0] [.atom 7] 0 (.cons rfl .nil) (by simp)
  rw [h0] at e
  simp at e

end Verif.ListHeap

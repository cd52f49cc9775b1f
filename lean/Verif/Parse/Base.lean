import Verif.Parse.Spec
import Verif.Parse.Clauses
import Verif.Names.Props
import Verif.Core.Uniq
/-
Facts for the proof of C61: names, new ids, sequences.
-/
namespace Verif.Parse
open Verif.Core
open Verif.Fold (beginExp)
open Verif.Expand (Var Out)

variable {h : Nat → S} {pn : List Char → PrimName}

/-! ### names -/

/-- the number of the location can be printed. -/
def Small (v : Var) : Prop := ∀ n s, v = .loc n s → n < 10 ^ 33

theorem name_inj {v w : Var} (hv : Small v) (hw : Small w) (e : name v = name w) : v = w := by
  cases v with
  | glob s =>
    cases w with
    | glob t =>
      have := Names.c30_no_capture (.sym s.toList) (.sym t.toList) [] [] (fun _ h => nomatch h) (fun _ h => nomatch h) e
      simp only [Names.Loc.sym.injEq] at this
      rw [String.toList_inj.mp this]
    | loc n t =>
      have := Names.c30_no_capture (.sym s.toList) (.int n) [] t.toList (fun _ h => nomatch h) (fun m h => by cases h; exact hw n t rfl) e
      cases this
  | loc n s =>
    cases w with
    | glob t =>
      have := Names.c30_no_capture (.int n) (.sym t.toList) s.toList [] (fun m h => by cases h; exact hv n s rfl) (fun _ h => nomatch h) e
      cases this
    | loc m t =>
      have := Names.c30_no_capture (.int n) (.int m) s.toList t.toList (fun m' h => by cases h; exact hv n s rfl)
        (fun m' h => by cases h; exact hw m t rfl) e
      cases this
      simp only [name, Names.intlocToVar, List.cons_append, List.cons.injEq, true_and] at e
      rw [String.toList_inj.mp (List.append_cancel_right e)]

/-- No variable is called like a clause of the parser. -/
theorem name_not_head (v : Var) : name v ∉ heads := by
  have h1 : ∀ s ∈ heads, s ∈ Names.reserved := by decide
  intro hm
  cases v with
  | glob s => exact Names.c30_not_reserved (.sym s.toList) [] (h1 _ hm)
  | loc n s => exact Names.c30_not_reserved (.int n) s.toList (h1 _ hm)

theorem name_not_define (v : Var) : name v ≠ "define".toList := by
  have h1 : "define".toList ∈ Names.reserved := by decide
  intro hm
  cases v with
  | glob s => exact Names.c30_not_reserved (.sym s.toList) [] (show name (.glob s) ∈ _ from hm ▸ h1)
  | loc n s => exact Names.c30_not_reserved (.int n) s.toList (show name (.loc n s) ∈ _ from hm ▸ h1)

/-- the environment of the parser. -/
def env (Γ : List (Var × Id)) : List (Sym × Id) := Γ.map fun p => (name p.1, p.2)

theorem lookup_env {v : Var} (hv : Small v) : ∀ {Γ : List (Var × Id)}, (∀ p ∈ Γ, Small p.1) → lookup (name v) (env Γ) = find v Γ
  | [], _ => rfl
  | (w, x) :: Γ, hΓ => by
    have ih := lookup_env hv (Γ := Γ) fun p hp => hΓ p (by simp [hp])
    simp only [env, List.map_cons, lookup, find] at ih ⊢
    by_cases e : w = v
    · simp [e]
    · rw [if_neg e, if_neg fun e' => e (name_inj (hΓ (w, x) (by simp)) hv e')]
      exact ih

theorem lookup_mem {s : Sym} {x : Id} : ∀ {e : List (Sym × Id)}, lookup s e = some x → (s, x) ∈ e
  | [], h => by cases h
  | (t, y) :: e, h => by
    unfold lookup at h
    split at h
    · rename_i ht; cases h; subst ht; simp
    · exact List.mem_cons_of_mem _ (lookup_mem h)

theorem lookup_none {s : Sym} : ∀ {e : List (Sym × Id)}, lookup s e = none → ∀ p ∈ e, p.1 ≠ s
  | [], _, p, hp => by cases hp
  | (t, y) :: e, h, p, hp => by
    unfold lookup at h
    split at h
    · cases h
    · rcases List.mem_cons.mp hp with rfl | hp
      · assumption
      · exact lookup_none h p hp

theorem find_mem {v : Var} {x : Id} : ∀ {Γ : List (Var × Id)}, find v Γ = some x → (v, x) ∈ Γ
  | [], h => by cases h
  | (t, y) :: e, h => by
    unfold find at h
    split at h
    · rename_i ht; cases h; subst ht; simp
    · exact List.mem_cons_of_mem _ (find_mem h)

theorem find_none {v : Var} : ∀ {Γ : List (Var × Id)}, find v Γ = none → v ∉ Γ.map (·.1)
  | [], _ => by simp
  | (t, y) :: e, h => by
    unfold find at h
    split at h
    · cases h
    · rename_i ht
      simp only [List.map_cons, List.mem_cons, not_or]
      exact ⟨fun e => ht e.symm, find_none h⟩

/-! ### new ids -/

/-- a lexical id with a time stamp from `lo` to `hi`. -/
def InR (lo hi : Nat) (x : Id) : Prop := (lo : Int) ≤ x.ts ∧ x.ts < hi ∧ x.mark = false

instance (lo hi : Nat) (x : Id) : Decidable (InR lo hi x) := by unfold InR; infer_instance

/-- different ids with time stamps from `lo` to `hi`. -/
def Fresh (lo hi : Nat) (l : List Id) : Prop := ∀ x, l.count x ≤ if InR lo hi x then 1 else 0

theorem Fresh.nil {lo hi : Nat} : Fresh lo hi [] := fun x => by simp

theorem Fresh.append {lo mid hi : Nat} {l l' : List Id} (a : Fresh lo mid l) (b : Fresh mid hi l') (h1 : lo ≤ mid) (h2 : mid ≤ hi) :
    Fresh lo hi (l ++ l') := by
  intro x
  have ha := a x
  have hb := b x
  rw [List.count_append]
  by_cases c1 : InR lo mid x <;> by_cases c2 : InR mid hi x <;> by_cases c3 : InR lo hi x <;>
    simp only [c1, c2, c3, if_true, if_false] at ha hb ⊢ <;> unfold InR at c1 c2 c3 <;>
    cases hm : x.mark <;> simp only [hm, and_true, and_false, not_false_iff, Bool.true_eq_false] at c1 c2 c3 <;> omega

theorem Fresh.le {lo hi : Nat} {l l' : List Id} (a : Fresh lo hi l) (hl : ∀ x, l'.count x ≤ l.count x) : Fresh lo hi l' :=
  fun x => Nat.le_trans (hl x) (a x)

theorem Fresh.one {k : Nat} : Fresh k (k + 1) [lexId k] := by
  intro x
  unfold InR lexId
  rw [List.count_singleton]
  split
  · rename_i hx
    simp only [beq_iff_eq] at hx
    subst hx
    simp
  · omega

/-- ids with the time stamps from `k` on. -/
def ids (k n : Nat) : List Id := (List.range' k n).map lexId

theorem ids_length (k n : Nat) : (ids k n).length = n := by simp [ids]

theorem ids_fresh : ∀ k n, Fresh k (k + n) (ids k n)
  | k, 0 => Fresh.nil
  | k, n + 1 => by
    have := (Fresh.one (k := k)).append (ids_fresh (k + 1) n) (by omega) (by omega)
    simpa [ids, List.range'_succ, Nat.add_assoc, Nat.add_comm 1 n] using this

theorem newIds_eq : ∀ (k : Nat) (ss : List Sym), newIds k ss = ss.zip (ids k ss.length)
  | k, [] => rfl
  | k, s :: ss => by
    rw [newIds, newIds_eq (k + 1) ss]
    simp [ids, List.range'_succ]

theorem newIds_env (k : Nat) (vs : List Var) : newIds k (vs.map name) = env (vs.zip (ids k vs.length)) := by
  rw [newIds_eq, env, List.length_map, List.zip_map_left]
  rfl

theorem newIds_snd (k : Nat) (ss : List Sym) : (newIds k ss).map (·.2) = ids k ss.length := by
  rw [newIds_eq, List.map_snd_zip]
  simp [ids_length]

theorem newIds_length (k : Nat) (ss : List Sym) : (newIds k ss).length = ss.length := by
  rw [newIds_eq, List.length_zip, ids_length]
  simp

/-! ### sequences -/

theorem count_one {k : Nat} (x : Id) : [lexId k].count x = if x = lexId k then 1 else 0 := by
  rw [List.count_singleton]
  by_cases e : x = lexId k
  · subst e; simp
  · simp [e, Ne.symm e]

theorem beginAll_spec : ∀ {es : List Exp} {a : Exp} (k : Nat),
    Seq es a (beginAll k (es ++ [a])).1 ∧ k ≤ (beginAll k (es ++ [a])).2 ∧
      (∃ l, Fresh k (beginAll k (es ++ [a])).2 l ∧ ∀ x, (binders (beginAll k (es ++ [a])).1).count x ≤ (bindersAll (es ++ [a])).count x + l.count x) ∧
      ∀ x, Free x (beginAll k (es ++ [a])).1 → ∃ e ∈ es ++ [a], Free x e
  | [], a, k => ⟨.nil, Nat.le_refl _, ⟨[], .nil, fun x => by simp [beginAll, bindersAll]⟩, fun x hx => ⟨a, by simp, hx⟩⟩
  | b :: es, a, k => by
    obtain ⟨h1, h2, ⟨l, h3, h4⟩, h5⟩ := beginAll_spec (es := es) (a := a) k
    have e : beginAll k (b :: es ++ [a]) = (beginExp (beginAll k (es ++ [a])).2 b (beginAll k (es ++ [a])).1, (beginAll k (es ++ [a])).2 + 1) := by
      cases es <;> rfl
    rw [e]
    refine ⟨.cons h1, by simp only; omega, ⟨l ++ [lexId (beginAll k (es ++ [a])).2], h3.append .one h2 (by omega), ?_⟩, ?_⟩
    · intro x
      have := h4 x
      simp only [beginExp, binders, bindersAll, List.count_append, List.cons_append, List.append_nil, List.nil_append, List.count_cons, List.count_nil] at this ⊢
      omega
    · intro x hx
      simp only [beginExp] at hx
      cases hx with
      | appF _ hx =>
        cases hx with
        | lam _ hx => obtain ⟨e, he, hx⟩ := h5 x hx; exact ⟨e, by simp at he ⊢; tauto, hx⟩
      | appA _ he hx => simp only [List.mem_singleton] at he; subst he; exact ⟨_, by simp, hx⟩

theorem seqAll_spec : ∀ {es : List Exp} (k : Nat),
    Seq es voidExp (seqAll k es).1 ∧ k ≤ (seqAll k es).2 ∧
      (∃ l, Fresh k (seqAll k es).2 l ∧ ∀ x, (binders (seqAll k es).1).count x ≤ (bindersAll es).count x + l.count x) ∧
      ∀ x, Free x (seqAll k es).1 → ∃ e ∈ es, Free x e
  | [], k => ⟨.nil, Nat.le_refl _, ⟨[], .nil, fun x => by simp [seqAll, voidExp, binders, bindersAll]⟩, fun x hx => by
      simp only [seqAll, voidExp] at hx
      cases hx with
      | prim _ _ he _ => cases he⟩
  | b :: es, k => by
    obtain ⟨h1, h2, ⟨l, h3, h4⟩, h5⟩ := seqAll_spec (es := es) k
    refine ⟨.cons h1, by simp only [seqAll]; omega, ⟨l ++ [lexId (seqAll k es).2], h3.append .one h2 (by simp only [seqAll]; omega), ?_⟩, ?_⟩
    · intro x
      have := h4 x
      simp only [seqAll, beginExp, binders, bindersAll, List.count_append, List.append_nil, List.nil_append, List.count_cons, List.count_nil] at this ⊢
      omega
    · intro x hx
      simp only [seqAll, beginExp] at hx
      cases hx with
      | appF _ hx =>
        cases hx with
        | lam _ hx => obtain ⟨e, he, hx⟩ := h5 x hx; exact ⟨e, by simp [he], hx⟩
      | appA _ he hx => simp only [List.mem_singleton] at he; subst he; exact ⟨_, by simp, hx⟩

theorem begins_spec : ∀ {es : List Exp} {b : Exp} (k : Nat),
    Seq es b (Letrec.begins k es b).1 ∧ k ≤ (Letrec.begins k es b).2 ∧
      (∃ l, Fresh k (Letrec.begins k es b).2 l ∧
        ∀ x, (binders (Letrec.begins k es b).1).count x ≤ (bindersAll es).count x + (binders b).count x + l.count x) ∧
      ∀ x, Free x (Letrec.begins k es b).1 → (∃ e ∈ es, Free x e) ∨ Free x b
  | [], b, k => ⟨.nil, Nat.le_refl _, ⟨[], .nil, fun x => by simp [Letrec.begins, bindersAll]⟩, fun x hx => .inr hx⟩
  | a :: es, b, k => by
    obtain ⟨h1, h2, ⟨l, h3, h4⟩, h5⟩ := begins_spec (es := es) (b := b) (k + 1)
    refine ⟨.cons h1, by simp only [Letrec.begins]; omega, ⟨[lexId k] ++ l, Fresh.one.append h3 (by omega) h2, ?_⟩, ?_⟩
    · intro x
      have := h4 x
      simp only [Letrec.begins, beginExp, binders, bindersAll, List.count_append, List.append_nil, List.nil_append, List.count_cons, List.count_nil] at this ⊢
      omega
    · intro x hx
      simp only [Letrec.begins, beginExp] at hx
      cases hx with
      | appF _ hx =>
        cases hx with
        | lam _ hx =>
          rcases h5 x hx with ⟨e, he, hx⟩ | hx
          · exact .inl ⟨e, by simp [he], hx⟩
          · exact .inr hx
      | appA _ he hx => simp only [List.mem_singleton] at he; subst he; exact .inl ⟨_, by simp, hx⟩

/-- `addConsts`, from the oldest literal on. -/
theorem addConsts_spec : ∀ {cs : List (S × Exp × Id)} {as : List Exp} {b e : Exp} (k : Nat), Seq as b e →
    Seq ((cs.reverse.map fun c => .set c.2.2 c.2.1) ++ as) b (addConsts k cs e).1 ∧ k ≤ (addConsts k cs e).2 ∧
      (∃ l, Fresh k (addConsts k cs e).2 l ∧
        ∀ x, (binders (addConsts k cs e).1).count x ≤ (bindersAll (cs.map (·.2.1))).count x + (binders e).count x + l.count x) ∧
      ∀ x, Free x (addConsts k cs e).1 → (∃ c ∈ cs, x = c.2.2 ∨ Free x c.2.1) ∨ Free x e
  | [], as, b, e, k, hs => ⟨hs, Nat.le_refl _, ⟨[], .nil, fun x => by simp [addConsts, bindersAll]⟩, fun x hx => .inr hx⟩
  | c :: cs, as, b, e, k, hs => by
    obtain ⟨h1, h2, ⟨l, h3, h4⟩, h5⟩ := addConsts_spec (cs := cs) (as := .set c.2.2 c.2.1 :: as) (b := b)
      (e := beginExp k (.set c.2.2 c.2.1) e) (k + 1) (.cons hs)
    refine ⟨?_, ?_, ⟨[lexId k] ++ l, Fresh.one.append h3 (by omega) h2, ?_⟩, ?_⟩
    · simpa [addConsts] using h1
    · exact Nat.le_trans (by omega) h2
    · intro x
      have := h4 x
      simp only [addConsts, beginExp, binders, bindersAll, List.map_cons, List.count_append, List.append_nil, List.nil_append, List.count_cons, List.count_nil] at this ⊢
      omega
    · intro x hx
      rcases h5 x hx with ⟨c', hc, hx⟩ | hx
      · exact .inl ⟨c', by simp [hc], hx⟩
      · simp only [beginExp] at hx
        cases hx with
        | appF _ hx =>
          cases hx with
          | lam _ hx => exact .inr hx
        | appA _ he hx =>
          simp only [List.mem_singleton] at he
          subst he
          cases hx with
          | setTarget => exact .inl ⟨c, by simp, .inl rfl⟩
          | set _ hx => exact .inl ⟨c, by simp, .inr hx⟩

end Verif.Parse

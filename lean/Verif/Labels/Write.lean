import Verif.Labels.Rel
import Verif.Labels.Read
/-
The writer writes the text of the representation.
-/
namespace Verif.Labels
open Verif.Equal (Obj Heap Node)
open Verif.Stab (Tab)

variable {F : Type} [DecidableEq F]

/-- the numbers while writing: `S` are the objects written with their label, the last one first -/
structure NumOk (M : Obj → Prop) (slot : Obj → Nat) (S : List Obj) (s : Nums) : Prop where
  c : s.c = S.length
  r : ∀ o, M o → s.r (slot o) = if o ∈ S then -((pos S o : Int) + 1) else 0

theorem view_imm {E : Enc} {H : Heap F} {o : Obj} {i : Imm} (hv : view E H o = .imm i) : H o = none := by
  unfold view at hv
  cases e : H o with
  | none => rfl
  | some nd =>
    rw [e] at hv
    cases nd with
    | flo => simp at hv
    | str => simp at hv
    | bytes => simp at hv
    | native => simp at hv
    | blk ws =>
      cases ws with
      | nil => simp at hv
      | cons t ws =>
        simp only at hv
        split at hv
        · split at hv <;> simp at hv
        · split at hv
          · simp at hv
          · split at hv
            · split at hv <;> simp at hv
            · simp at hv

section
variable {H : Heap F} {T : Option Tab} {M : Obj → Prop} {slot : Obj → Nat} {S : List Obj} {s : Nums} {o : Obj}

theorem num_ref (hs : NumOk M slot S s) (hM : M o) (ho : o ∈ S) (upd : Bool) :
    stabri (slot o) s upd = (-((pos S o : Int) + 1), s) := by
  have e := hs.r o hM
  rw [if_pos ho] at e
  unfold stabri
  rw [if_neg (by rw [e]; omega)]
  show (s.r (slot o), if _ then _ else _) = _
  rw [if_neg, e]
  simp only [Bool.and_eq_true, decide_eq_true_eq, not_and]
  intro _
  omega

/-- the numbers after `o` has been written with its label -/
def numbered (slot : Obj → Nat) (o : Obj) (s : Nums) : Nums :=
  ⟨Stab.setr (Stab.setr s.r (slot o) (s.c + 1)) (slot o) (-(s.c + 1)), s.c + 1⟩

theorem num_new (hs : NumOk M slot S s) (hM : M o) (ho : o ∉ S) :
    stabri (slot o) s true = ((S.length : Int) + 1, numbered slot o s) := by
  have e := hs.r o hM
  rw [if_neg ho] at e
  unfold stabri numbered
  rw [if_pos e]
  simp only [Stab.setr, if_true, Bool.true_and]
  rw [if_pos (by simp), ← hs.c]

theorem numbered_ok (hT : TabOk H T M slot) (hs : NumOk M slot S s) (hM : M o) (ho : o ∉ S) :
    NumOk M slot (o :: S) (numbered slot o s) := by
  refine ⟨by simp [numbered, hs.c], fun q hq => ?_⟩
  by_cases h : q = o
  · subst h
    rw [if_pos (by simp), pos_cons ho]
    simp [numbered, Stab.setr, hs.c]
  · have hne : slot q ≠ slot o := fun e => h (hT.inj q o hq hM e)
    simp only [numbered, Stab.setr, if_neg hne]
    rw [hs.r q hq]
    by_cases hqS : q ∈ S
    · rw [if_pos hqS, if_pos (by simp [hqS]), pos_suffix (List.suffix_cons o S) hqS]
    · rw [if_neg hqS, if_neg (by simp [h, hqS])]

theorem num_peek (hs : NumOk M slot S s) (hM : M o) (ho : o ∉ S) : ∃ s1, stabri (slot o) s false = ((S.length : Int) + 1, s1) ∧
    stabri (slot o) s1 true = stabri (slot o) s true := by
  rw [num_new hs hM ho]
  have e := hs.r o hM
  rw [if_neg ho] at e
  refine ⟨⟨Stab.setr s.r (slot o) (s.c + 1), s.c + 1⟩, ?_, ?_⟩
  · unfold stabri
    rw [if_pos e]
    simp [Stab.setr, hs.c]
  · have h1 : Stab.setr s.r (slot o) ((s.c : Int) + 1) (slot o) = s.c + 1 := by simp [Stab.setr]
    unfold stabri numbered
    rw [if_neg (by simp only [h1]; omega)]
    simp only [h1, Bool.true_and]
    rw [if_pos (by simp), hs.c]

end

/-- wrdatum after the label -/
def wrbody (E : Enc) (H : Heap F) (T : Option Tab) (n : Nat) (o : Obj) (s : Nums) : Option (List Char × Nums) :=
  match view E H o with
  | .imm i => some (immText i, s)
  | .str x => some ('"' :: esc '"' (cstr x) ++ ['"'], s)
  | .bytes b => some ("#u8(".toList ++ spaced (b.map fun k : Nat => dec k) ++ [')'], s)
  | .pair a d => do
    let (x, s) ← wrdatum E H T n a s
    let (y, s) ← wrtail E H T n d s
    some ('(' :: x ++ y ++ [')'], s)
  | .vec ws => do
    let (xs, s) ← wrAll (wrdatum E H T n) ws s
    some ("#(".toList ++ spaced xs ++ [')'], s)
  | .box a => do
    let (x, s) ← wrdatum E H T n a s
    some ("#&".toList ++ x, s)
  | .other => none

theorem wrdatum_eq (E : Enc) (H : Heap F) (T : Option Tab) (n : Nat) (o : Obj) (s s1 : Nums) (r : Int) (h : stabref H T o true s = some (r, s1))
    (hr : ¬ r < 0) : wrdatum E H T (n + 1) o s =
      (wrbody E H T n o s1).map fun p => ((if r > 0 then '#' :: dec (r - 1) ++ ['='] else []) ++ p.1, p.2) := by
  rw [wrdatum, h]
  simp only [Option.bind_eq_bind, Option.bind_some, if_neg hr]
  unfold wrbody
  cases view E H o with
  | imm i => rfl
  | str x => simp
  | bytes b => simp
  | pair a d =>
    simp only [Option.bind_eq_bind]
    cases wrdatum E H T n a s1 with
    | none => rfl
    | some p =>
      simp only [Option.bind_some]
      cases wrtail E H T n d p.2 with
      | none => rfl
      | some q => simp
  | vec ws =>
    simp only [Option.bind_eq_bind]
    cases wrAll (wrdatum E H T n) ws s1 with
    | none => rfl
    | some p => simp
  | box a =>
    simp only [Option.bind_eq_bind]
    cases wrdatum E H T n a s1 with
    | none => rfl
    | some p => simp
  | other => rfl

theorem wrdatum_ref (E : Enc) (H : Heap F) (T : Option Tab) (n : Nat) (o : Obj) (s s1 : Nums) (r : Int) (h : stabref H T o true s = some (r, s1))
    (hr : r < 0) : wrdatum E H T (n + 1) o s = some ('#' :: dec (-r - 1) ++ ['#'], s1) := by
  rw [wrdatum, h]
  simp only [Option.bind_eq_bind, Option.bind_some, if_pos hr]

section
variable {E : Enc} {H : Heap F} {T : Option Tab} {M : Obj → Prop} {slot : Obj → Nat} {Sf : List Obj}

/-- the claim for one object -/
def Writes (E : Enc) (H : Heap F) (T : Option Tab) (Sf : List Obj) (d : D) (body : Bool) (o : Obj) (s s' : Nums) : Prop :=
  ∀ n, d.sz ≤ n + 1 → (if body then wrbody E H T n o s else wrdatum E H T (n + 1) o s) = some (render (pos Sf) d, s')

/-- an object without a label -/
theorem writes_plain (hT : TabOk H T M slot) {d : D} {body : Bool} {o : Obj} {s s' : Nums} (hb : body = true ∨ ¬ M o)
    (h : ∀ n, d.sz ≤ n + 1 → wrbody E H T n o s = some (render (pos Sf) d, s')) : Writes E H T Sf d body o s s' := by
  intro n hn
  cases body with
  | true => exact h n hn
  | false =>
    simp only [Bool.false_eq_true, false_or] at hb
    simp only [Bool.false_eq_true, if_false]
    rw [wrdatum_eq E H T n o s s 0 (hT.miss o true s hb) (by omega), h n hn]
    simp

mutual
theorem write_tree (hT : TabOk H T M slot) : ∀ (d : D) (b : Bool) (S : List Obj) (o : Obj)
    (S' X : List Obj) (s : Nums), W E H M d b S o S' X → S' <:+ Sf → NumOk M slot S s →
    ∃ s', NumOk M slot S' s' ∧ Writes E H T Sf d b o s s'
  | .imm i, b, S, o, S', X, s, h, hf, hs => by
    rw [W] at h
    obtain ⟨rfl, hv, rfl, rfl, _⟩ := h
    have hH := view_imm hv
    refine ⟨s, hs, writes_plain hT (.inr fun hM => hT.heap o hM hH) fun n _ => ?_⟩
    rw [wrbody, hv, render]
  | .ref k, b, S, o, S', X, s, h, hf, hs => by
    rw [W] at h
    obtain ⟨rfl, rfl, hM, ho, rfl, rfl⟩ := h
    refine ⟨s, hs, fun n _ => ?_⟩
    simp only [Bool.false_eq_true, if_false]
    rw [wrdatum_ref E H T n k s s _ ((hT.hit k true s hM).trans (congrArg some (num_ref hs hM ho true))) (by omega), render,
      pos_suffix hf ho]
    congr 4
    congr 1
    omega
  | .lab k d, b, S, o, S', X, s, h, hf, hs => by
    rw [W] at h
    obtain ⟨rfl, rfl, hM, ho, h⟩ := h
    obtain ⟨s', h1, h2⟩ := write_tree hT d true (k :: S) k S' X _ h hf (numbered_ok hT hs hM ho)
    refine ⟨s', h1, fun n hn => ?_⟩
    have := h2 n (by simp only [D.sz] at hn; omega)
    simp only [if_true] at this
    simp only [Bool.false_eq_true, if_false]
    rw [wrdatum_eq E H T n k s _ _ ((hT.hit k true s hM).trans (congrArg some (num_new hs hM ho))) (by omega), this, render]
    have hp : pos Sf k = S.length := by
      rw [pos_suffix ((W.suffix h).trans hf) (by simp), pos_cons ho]
    rw [if_pos (by omega), hp]
    simp
  | .str x, b, S, o, S', X, s, h, hf, hs => by
    rw [W] at h
    obtain ⟨hb, hv, rfl, rfl, hc⟩ := h
    refine ⟨s, hs, writes_plain hT hb fun n _ => ?_⟩
    have : cstr x = x := by
      unfold cstr
      rw [List.takeWhile_eq_self_iff]
      intro c hm
      simp only [decide_eq_true_eq]
      rintro rfl
      exact hc hm
    rw [wrbody, hv, render]
    simp only [this]
  | .bytes x, b, S, o, S', X, s, h, hf, hs => by
    rw [W] at h
    obtain ⟨hb, hv, rfl, rfl, hc⟩ := h
    refine ⟨s, hs, writes_plain hT hb fun n _ => ?_⟩
    rw [wrbody, hv, render]
  | .pair da dd, b, S, o, S', X, s, h, hf, hs => by
    rw [W] at h
    obtain ⟨hb, a, d, S1, X1, X2, hv, h1, h2, rfl⟩ := h
    obtain ⟨s1, hs1, w1⟩ := write_tree hT da false S a S1 X1 s h1 ((W.suffix h2).trans hf) hs
    obtain ⟨s2, hs2, w2⟩ := write_tail hT dd S1 d S' X2 s1 h2 hf hs1
    refine ⟨s2, hs2, writes_plain hT hb fun n hn => ?_⟩
    simp only [D.sz] at hn
    obtain ⟨n, rfl⟩ : ∃ m, n = m + 1 := ⟨n - 1, by omega⟩
    have e1 := w1 n (by omega)
    simp only [Bool.false_eq_true, if_false] at e1
    rw [wrbody, hv]
    simp only [Option.bind_eq_bind, e1, Option.bind_some, w2 (n + 1) (by have := pos_sz da; omega), render]
  | .vec ds, b, S, o, S', X, s, h, hf, hs => by
    rw [W] at h
    obtain ⟨hb, ws, X1, hv, h1, rfl⟩ := h
    obtain ⟨s1, hs1, w1⟩ := write_items hT ds S ws S' X1 s h1 hf hs
    refine ⟨s1, hs1, writes_plain hT hb fun n hn => ?_⟩
    simp only [D.sz] at hn
    rw [wrbody, hv]
    simp only [Option.bind_eq_bind, w1 n (by omega), Option.bind_some, render]
  | .box da, b, S, o, S', X, s, h, hf, hs => by
    rw [W] at h
    obtain ⟨hb, a, X1, hv, h1, _, rfl⟩ := h
    obtain ⟨s1, hs1, w1⟩ := write_tree hT da false S a S' X1 s h1 hf hs
    refine ⟨s1, hs1, writes_plain hT hb fun n hn => ?_⟩
    simp only [D.sz] at hn
    obtain ⟨n, rfl⟩ : ∃ m, n = m + 1 := ⟨n - 1, by omega⟩
    have e1 := w1 n (by omega)
    simp only [Bool.false_eq_true, if_false] at e1
    rw [wrbody, hv]
    simp only [Option.bind_eq_bind, e1, Option.bind_some, render]
theorem write_tail (hT : TabOk H T M slot) : ∀ (d : D) (S : List Obj) (o : Obj)
    (S' X : List Obj) (s : Nums), W E H M d false S o S' X → S' <:+ Sf → NumOk M slot S s →
    ∃ s', NumOk M slot S' s' ∧ ∀ n, d.sz + 4 ≤ n → wrtail E H T n o s = some (tailText (pos Sf) d, s')
  | .pair da dd, S, o, S', X, s, h, hf, hs => by
    rw [W] at h
    obtain ⟨hb, a, d, S1, X1, X2, hv, h1, h2, rfl⟩ := h
    simp only [Bool.false_eq_true, false_or] at hb
    obtain ⟨s1, hs1, w1⟩ := write_tree hT da false S a S1 X1 s h1 ((W.suffix h2).trans hf) hs
    obtain ⟨s2, hs2, w2⟩ := write_tail hT dd S1 d S' X2 s1 h2 hf hs1
    refine ⟨s2, hs2, fun n hn => ?_⟩
    simp only [D.sz] at hn
    obtain ⟨n, rfl⟩ : ∃ m, n = m + 2 := ⟨n - 2, by omega⟩
    have e1 := w1 n (by omega)
    simp only [Bool.false_eq_true, if_false] at e1
    rw [wrtail, hv]
    simp only [Option.bind_eq_bind, hT.miss o false s hb, Option.bind_some, if_true, e1, w2 (n + 1) (by have := pos_sz da; omega)]
    rw [tailText]
  | .imm i, S, o, S', X, s, h, hf, hs => by
    obtain ⟨s1, hs1, w1⟩ := write_tree hT (.imm i) false S o S' X s h hf hs
    rw [W] at h
    obtain ⟨_, hv, rfl, rfl, _⟩ := h
    by_cases hi : i = .null
    · subst hi
      refine ⟨s, hs, fun n hn => ?_⟩
      obtain ⟨n, rfl⟩ : ∃ m, n = m + 2 := ⟨n - 2, by omega⟩
      rw [wrtail, hv, tailText]
    · refine ⟨s1, hs1, fun n hn => ?_⟩
      obtain ⟨n, rfl⟩ : ∃ m, n = m + 2 := ⟨n - 2, by omega⟩
      have e1 := w1 n (by omega)
      simp only [Bool.false_eq_true, if_false] at e1
      rw [tailText_other _ (by simp) (by simpa using hi), wrtail, hv]
      cases i <;> first | exact (hi rfl).elim | simp [e1]
  | .str x, S, o, S', X, s, h, hf, hs => by
    obtain ⟨s1, hs1, w1⟩ := write_tree hT (.str x) false S o S' X s h hf hs
    rw [W] at h
    refine ⟨s1, hs1, fun n hn => ?_⟩
    obtain ⟨n, rfl⟩ : ∃ m, n = m + 2 := ⟨n - 2, by omega⟩
    have e1 := w1 n (by omega)
    simp only [Bool.false_eq_true, if_false] at e1
    rw [tailText_other _ (by simp) (by simp), wrtail, h.2.1]
    simp [e1]
  | .bytes x, S, o, S', X, s, h, hf, hs => by
    obtain ⟨s1, hs1, w1⟩ := write_tree hT (.bytes x) false S o S' X s h hf hs
    rw [W] at h
    refine ⟨s1, hs1, fun n hn => ?_⟩
    obtain ⟨n, rfl⟩ : ∃ m, n = m + 2 := ⟨n - 2, by omega⟩
    have e1 := w1 n (by omega)
    simp only [Bool.false_eq_true, if_false] at e1
    rw [tailText_other _ (by simp) (by simp), wrtail, h.2.1]
    simp [e1]
  | .vec ds, S, o, S', X, s, h, hf, hs => by
    obtain ⟨s1, hs1, w1⟩ := write_tree hT (.vec ds) false S o S' X s h hf hs
    rw [W] at h
    obtain ⟨_, ws, X1, hv, _⟩ := h
    refine ⟨s1, hs1, fun n hn => ?_⟩
    obtain ⟨n, rfl⟩ : ∃ m, n = m + 2 := ⟨n - 2, by omega⟩
    have e1 := w1 n (by omega)
    simp only [Bool.false_eq_true, if_false] at e1
    rw [tailText_other _ (by simp) (by simp), wrtail, hv]
    simp [e1]
  | .box da, S, o, S', X, s, h, hf, hs => by
    obtain ⟨s1, hs1, w1⟩ := write_tree hT (.box da) false S o S' X s h hf hs
    rw [W] at h
    obtain ⟨_, ws, X1, hv, _⟩ := h
    refine ⟨s1, hs1, fun n hn => ?_⟩
    obtain ⟨n, rfl⟩ : ∃ m, n = m + 2 := ⟨n - 2, by omega⟩
    have e1 := w1 n (by omega)
    simp only [Bool.false_eq_true, if_false] at e1
    rw [tailText_other _ (by simp) (by simp), wrtail, hv]
    simp [e1]
  | .ref k, S, o, S', X, s, h, hf, hs => by
    obtain ⟨s1, hs1, w1⟩ := write_tree hT (.ref k) false S o S' X s h hf hs
    rw [W] at h
    obtain ⟨_, rfl, hM, ho, rfl, rfl⟩ := h
    refine ⟨s1, hs1, fun n hn => ?_⟩
    obtain ⟨n, rfl⟩ : ∃ m, n = m + 2 := ⟨n - 2, by omega⟩
    have e1 := w1 n (by omega)
    simp only [Bool.false_eq_true, if_false] at e1
    rw [tailText_other _ (by simp) (by simp), wrtail]
    have hheap := hT.heap k hM
    have hne : ∀ i, view E H k ≠ .imm i := fun i e => hheap (view_imm e)
    cases hv : view E H k with
    | imm i => exact (hne i hv).elim
    | pair a d =>
      simp only [hT.hit k false s hM, num_ref hs hM ho, Option.bind_eq_bind, Option.bind_some]
      rw [if_neg (by omega), e1]
      simp
    | str => simp [e1]
    | bytes => simp [e1]
    | vec => simp [e1]
    | box => simp [e1]
    | other => simp [e1]
  | .lab k d, S, o, S', X, s, h, hf, hs => by
    obtain ⟨s1, hs1, w1⟩ := write_tree hT (.lab k d) false S o S' X s h hf hs
    rw [W] at h
    obtain ⟨_, rfl, hM, ho, _⟩ := h
    refine ⟨s1, hs1, fun n hn => ?_⟩
    obtain ⟨n, rfl⟩ : ∃ m, n = m + 2 := ⟨n - 2, by omega⟩
    have e1 := w1 n (by omega)
    simp only [Bool.false_eq_true, if_false] at e1
    rw [tailText_other _ (by simp) (by simp), wrtail]
    have hheap := hT.heap k hM
    have hne : ∀ i, view E H k ≠ .imm i := fun i e => hheap (view_imm e)
    cases hv : view E H k with
    | imm i => exact (hne i hv).elim
    | pair a d =>
      obtain ⟨s2, p1, p2⟩ := num_peek hs hM ho
      simp only [hT.hit k false s hM, p1, Option.bind_eq_bind, Option.bind_some]
      have : wrdatum E H T (n + 1) k s2 = wrdatum E H T (n + 1) k s := by
        rw [wrdatum, wrdatum, hT.hit k true s2 hM, hT.hit k true s hM, p2]
      rw [if_neg (by omega), this, e1]
      simp
    | str => simp [e1]
    | bytes => simp [e1]
    | vec => simp [e1]
    | box => simp [e1]
    | other => simp [e1]
theorem write_items (hT : TabOk H T M slot) : ∀ (ds : DS) (S : List Obj) (ws : List Obj)
    (S' X : List Obj) (s : Nums), Ws E H M ds S ws S' X → S' <:+ Sf → NumOk M slot S s →
    ∃ s', NumOk M slot S' s' ∧ ∀ n, ds.sz ≤ n → wrAll (wrdatum E H T n) ws s = some (renders (pos Sf) ds, s')
  | .nil, S, ws, S', X, s, h, hf, hs => by
    rw [Ws] at h
    obtain ⟨rfl, rfl, rfl⟩ := h
    exact ⟨s, hs, fun n _ => by rw [wrAll, renders]⟩
  | .cons d ds, S, ws, S', X, s, h, hf, hs => by
    rw [Ws] at h
    obtain ⟨w, r, S1, X1, X2, rfl, h1, h2, rfl⟩ := h
    obtain ⟨s1, hs1, w1⟩ := write_tree hT d false S w S1 X1 s h1 ((Ws.suffix h2).trans hf) hs
    obtain ⟨s2, hs2, w2⟩ := write_items hT ds S1 r S' X2 s1 h2 hf hs1
    refine ⟨s2, hs2, fun n hn => ?_⟩
    simp only [DS.sz] at hn
    obtain ⟨n, rfl⟩ : ∃ m, n = m + 1 := ⟨n - 1, by omega⟩
    have e1 := w1 n (by omega)
    simp only [Bool.false_eq_true, if_false] at e1
    rw [wrAll]
    simp only [Option.bind_eq_bind, e1, Option.bind_some, w2 (n + 1) (by omega), renders]
end

end

end Verif.Labels

import Verif.Labels.Write
/-
The objects made from the representation are those written.
-/
namespace Verif.Labels
open Verif.Equal (Obj Heap Node)

variable {F : Type} [DecidableEq F]

theorem assq_isSome (n : Int) : ∀ sh : List (Int × V), (assq n sh).isSome = true ↔ n ∈ sh.map Prod.fst := by
  intro sh
  induction sh with
  | nil => simp [assq]
  | cons p sh ih =>
    obtain ⟨m, v⟩ := p
    rw [assq]
    by_cases h : m = n
    · simp [h]
    · rw [if_neg h, ih]
      simp [Ne.symm h]

theorem setLoc_keys (n : Int) (v : V) : ∀ sh : List (Int × V), (setLoc n v sh).map Prod.fst = sh.map Prod.fst := by
  intro sh
  induction sh with
  | nil => rfl
  | cons p sh ih =>
    obtain ⟨m, w⟩ := p
    rw [setLoc]
    by_cases h : m = n
    · simp [h]
    · rw [if_neg h]; simp [ih]

theorem assq_setLoc {n : Int} (v : V) : ∀ {sh : List (Int × V)}, n ∈ sh.map Prod.fst → assq n (setLoc n v sh) = some v := by
  intro sh
  induction sh with
  | nil => simp
  | cons p sh ih =>
    obtain ⟨m, w⟩ := p
    intro hm
    rw [setLoc]
    by_cases h : m = n
    · rw [if_pos h, assq, if_pos h]
    · rw [if_neg h, assq, if_neg h]
      exact ih (by simpa [Ne.symm h] using hm)

theorem assq_setLoc_ne {n m : Int} (hnm : m ≠ n) (v : V) : ∀ {sh : List (Int × V)}, assq m (setLoc n v sh) = assq m sh := by
  intro sh
  induction sh with
  | nil => rfl
  | cons p sh ih =>
    obtain ⟨k, w⟩ := p
    rw [setLoc]
    by_cases h : k = n
    · rw [if_pos h, assq, assq, if_neg (by rw [h]; exact Ne.symm hnm), if_neg (by rw [h]; exact Ne.symm hnm)]
    · rw [if_neg h, assq, assq, ih]

/-- a value of the reader stands for an object; `R` are the originals of the objects made -/
def VRel (E : Enc) (H : Heap F) (Sf R : List Obj) : V → Obj → Prop
  | .imm i, q => view E H q = .imm i
  | .ptr a, q => R[a]? = some q
  | .proc n, q => n = pos Sf q ∧ q ∈ Sf
  | _, _ => False

/-- a new object is a copy of an object, up to references to labels -/
def CRel (E : Enc) (H : Heap F) (Sf R : List Obj) : Cell → Obj → Prop
  | .str s, q => view E H q = .str s
  | .bytes b, q => view E H q = .bytes b
  | .pair v w, q => ∃ a d, view E H q = .pair a d ∧ VRel E H Sf R v a ∧ VRel E H Sf R w d
  | .vec vs, q => ∃ ws, view E H q = .vec ws ∧ List.Forall₂ (VRel E H Sf R) vs ws
  | .box v, q => ∃ a, view E H q = .box a ∧ VRel E H Sf R v a ∧ ∀ n, v ≠ .proc n

theorem get_append {α : Type} {R : List α} (Y : List α) {a : Nat} {x : α} (h : R[a]? = some x) : (R ++ Y)[a]? = some x := by
  rw [List.getElem?_append_left, h]
  exact (List.getElem?_eq_some_iff.1 h).1

section
variable {E : Enc} {H : Heap F} {Sf : List Obj} {M : Obj → Prop}

theorem VRel.mono {R : List Obj} (Y : List Obj) {v : V} {q : Obj} (h : VRel E H Sf R v q) : VRel E H Sf (R ++ Y) v q := by
  cases v with
  | ptr a => exact get_append Y h
  | imm i => exact h
  | proc n => exact h
  | flo => exact h
  | void => exact h

theorem CRel.mono {R : List Obj} (Y : List Obj) {c : Cell} {q : Obj} (h : CRel E H Sf R c q) : CRel E H Sf (R ++ Y) c q := by
  cases c with
  | str s => exact h
  | bytes b => exact h
  | pair v w => obtain ⟨a, d, h1, h2, h3⟩ := h; exact ⟨a, d, h1, h2.mono Y, h3.mono Y⟩
  | vec vs => obtain ⟨ws, h1, h2⟩ := h; exact ⟨ws, h1, h2.imp fun _ _ h => h.mono Y⟩
  | box v => obtain ⟨a, h1, h2, h3⟩ := h; exact ⟨a, h1, h2.mono Y, h3⟩

/-- what is known about the reader after a part of the text -/
structure Made (E : Enc) (H : Heap F) (Sf : List Obj) (S S' R X : List Obj) (h h' : List Cell) (sh sh' : List (Int × V)) : Prop where
  keys : sh'.map Prod.fst = S'.map fun q => (pos Sf q : Int)
  heap : ∃ C, h' = h ++ C ∧ List.Forall₂ (CRel E H Sf (R ++ X)) C X
  old : ∀ q ∈ S, assq (pos Sf q) sh' = assq (pos Sf q) sh
  new : ∀ q ∈ S', q ∉ S → ∃ a, assq (pos Sf q) sh' = some (.ptr a) ∧ (R ++ X)[a]? = some q

theorem Made.refl {S R : List Obj} {h : List Cell} {sh : List (Int × V)} (hk : sh.map Prod.fst = S.map fun q => (pos Sf q : Int)) :
    Made E H Sf S S R [] h h sh sh :=
  ⟨hk, ⟨[], by simp, .nil⟩, fun _ _ => rfl, fun q h1 h2 => (h2 h1).elim⟩

theorem Made.trans {S S1 S2 R X1 X2 : List Obj} {h h1 h2 : List Cell} {sh sh1 sh2 : List (Int × V)} (hs : S ⊆ S1)
    (m1 : Made E H Sf S S1 R X1 h h1 sh sh1) (m2 : Made E H Sf S1 S2 (R ++ X1) X2 h1 h2 sh1 sh2) :
    Made E H Sf S S2 R (X1 ++ X2) h h2 sh sh2 := by
  obtain ⟨C1, e1, f1⟩ := m1.heap
  obtain ⟨C2, e2, f2⟩ := m2.heap
  refine ⟨m2.keys, ⟨C1 ++ C2, by rw [e2, e1, List.append_assoc], ?_⟩, fun q hq => (m2.old q (hs hq)).trans (m1.old q hq), fun q hq hn => ?_⟩
  · rw [← List.append_assoc]
    exact List.rel_append (f1.imp fun _ _ h => h.mono X2) f2
  · rw [← List.append_assoc]
    by_cases h1 : q ∈ S1
    · obtain ⟨a, e, ha⟩ := m1.new q h1 hn
      exact ⟨a, (m2.old q h1).trans e, get_append X2 ha⟩
    · exact m2.new q hq h1

theorem Made.len {S S' R X : List Obj} {h h' : List Cell} {sh sh' : List (Int × V)} (m : Made E H Sf S S' R X h h' sh sh')
    (hl : R.length = h.length) : (R ++ X).length = h'.length := by
  obtain ⟨C, e, f⟩ := m.heap
  rw [e, List.length_append, List.length_append, f.length_eq, hl]

/-- one more object -/
theorem Made.alloc {S S' R X : List Obj} {h h' : List Cell} {sh sh' : List (Int × V)} (m : Made E H Sf S S' R X h h' sh sh')
    {c : Cell} {o : Obj} (hc : CRel E H Sf (R ++ X ++ [o]) c o) : Made E H Sf S S' R (X ++ [o]) h (h' ++ [c]) sh sh' := by
  obtain ⟨C, e, f⟩ := m.heap
  refine ⟨m.keys, ⟨C ++ [c], by rw [e, List.append_assoc], ?_⟩, m.old, fun q h1 h2 => ?_⟩
  · rw [← List.append_assoc]
    exact List.rel_append (f.imp fun _ _ h => h.mono [o]) (.cons hc .nil)
  · obtain ⟨a, e, ha⟩ := m.new q h1 h2
    exact ⟨a, e, by rw [← List.append_assoc]; exact get_append [o] ha⟩

theorem get_last {α : Type} (R : List α) (x : α) {n : Nat} (h : R.length = n) : (R ++ [x])[n]? = some x := by
  rw [← h]; simp

theorem build_proc {num : Nat → Nat} {d : D} {h h' : List Cell} {sh sh' : List (Int × V)} {k : Int}
    (e : build num d h sh = some (.proc k, h', sh')) : ∃ q, d = .ref q ∧ k = num q ∧ h' = h ∧ sh' = sh := by
  cases d with
  | imm i => simp [build] at e
  | str s => simp [build] at e
  | bytes b => simp [build] at e
  | pair a d =>
    rw [build] at e
    split at e
    · split at e <;> simp at e
    · simp at e
  | vec ds =>
    rw [build] at e
    split at e <;> simp at e
  | box a =>
    rw [build] at e
    split at e <;> simp at e
  | lab o d =>
    rw [build] at e
    split at e
    · simp at e
    · split at e
      · simp at e
      · next hne _ =>
        simp only [Option.some.injEq, Prod.mk.injEq] at e
        obtain ⟨rfl, _, _⟩ := e
        exact (hne _ rfl).elim
      · simp at e
  | ref o =>
    rw [build] at e
    split at e
    · simp only [Option.some.injEq, Prod.mk.injEq, V.proc.injEq] at e
      exact ⟨o, rfl, e.1.symm, e.2.1.symm, e.2.2.symm⟩
    · simp at e

mutual
theorem make_tree : ∀ (d : D) (b : Bool) (S : List Obj) (o : Obj) (S' X R : List Obj) (h : List Cell) (sh : List (Int × V)),
    W E H M d b S o S' X → S' <:+ Sf → R.length = h.length → sh.map Prod.fst = S.map (fun q => (pos Sf q : Int)) →
    ∃ v h' sh', build (pos Sf) d h sh = some (v, h', sh') ∧ Made E H Sf S S' R X h h' sh sh' ∧ VRel E H Sf (R ++ X) v o ∧
      (b = true → ∃ a, v = .ptr a)
  | .imm i, b, S, o, S', X, R, h, sh, hW, hf, hl, hk => by
    rw [W] at hW
    obtain ⟨rfl, hv, rfl, rfl, _⟩ := hW
    exact ⟨.imm i, h, sh, by rw [build], Made.refl hk, hv, by simp⟩
  | .ref k, b, S, o, S', X, R, h, sh, hW, hf, hl, hk => by
    rw [W] at hW
    obtain ⟨rfl, rfl, _, ho, rfl, rfl⟩ := hW
    refine ⟨.proc (pos Sf k), h, sh, ?_, Made.refl hk, ⟨rfl, hf.subset ho⟩, by simp⟩
    rw [build, if_pos]
    rw [assq_isSome, hk]
    exact List.mem_map.2 ⟨k, ho, rfl⟩
  | .lab k d, b, S, o, S', X, R, h, sh, hW, hf, hl, hk => by
    rw [W] at hW
    obtain ⟨rfl, rfl, _, ho, hW⟩ := hW
    have hS' := W.suffix hW
    have hkf : k ∈ Sf := hf.subset (hS'.subset (by simp))
    obtain ⟨v, h', sh', e, m, hv, hp⟩ := make_tree d true (k :: S) k S' X R h ((pos Sf k, .imm (.bool false)) :: sh) hW hf hl (by simp [hk])
    obtain ⟨a, rfl⟩ := hp rfl
    have hno : ¬ (assq (pos Sf k) sh).isSome = true := by
      rw [assq_isSome, hk]
      intro hm
      obtain ⟨q, hq, e⟩ := List.mem_map.1 hm
      have : k = q := pos_inj hkf (by omega)
      exact ho (by rw [this]; exact hq)
    have hne : ∀ q, q ∈ S' → q ≠ k → (pos Sf q : Int) ≠ pos Sf k := by
      intro q hq hn e
      exact hn (pos_inj (hf.subset hq) (by omega))
    refine ⟨.ptr a, h', setLoc (pos Sf k) (.ptr a) sh', ?_, ⟨?_, m.heap, ?_, ?_⟩, hv, by simp⟩
    · rw [build, if_neg hno, e]
    · rw [setLoc_keys, m.keys]
    · intro q hq
      have hqk : q ≠ k := fun e => ho (by rw [← e]; exact hq)
      have h1 := hne q (hS'.subset (by simp [hq])) hqk
      rw [assq_setLoc_ne h1, m.old q (by simp [hq]), assq, if_neg (Ne.symm h1)]
    · intro q hq hn
      by_cases hqk : q = k
      · subst hqk
        refine ⟨a, assq_setLoc _ ?_, hv⟩
        rw [m.keys]
        exact List.mem_map.2 ⟨q, hq, rfl⟩
      · rw [assq_setLoc_ne (hne q hq hqk)]
        exact m.new q hq (by simp [hqk, hn])
  | .str s, b, S, o, S', X, R, h, sh, hW, hf, hl, hk => by
    rw [W] at hW
    obtain ⟨_, hv, rfl, rfl, _⟩ := hW
    refine ⟨.ptr h.length, h ++ [.str s], sh, by rw [build], ?_, get_last R o hl, fun _ => ⟨_, rfl⟩⟩
    exact (Made.refl (R := R) hk).alloc hv
  | .bytes s, b, S, o, S', X, R, h, sh, hW, hf, hl, hk => by
    rw [W] at hW
    obtain ⟨_, hv, rfl, rfl, _⟩ := hW
    refine ⟨.ptr h.length, h ++ [.bytes s], sh, by rw [build], ?_, get_last R o hl, fun _ => ⟨_, rfl⟩⟩
    exact (Made.refl (R := R) hk).alloc hv
  | .pair da dd, b, S, o, S', X, R, h, sh, hW, hf, hl, hk => by
    rw [W] at hW
    obtain ⟨_, a, d, S1, X1, X2, hv, hW1, hW2, rfl⟩ := hW
    obtain ⟨v1, h1, s1, e1, m1, r1, _⟩ := make_tree da false S a S1 X1 R h sh hW1 ((W.suffix hW2).trans hf) hl hk
    obtain ⟨v2, h2, s2, e2, m2, r2, _⟩ := make_tree dd false S1 d S' X2 (R ++ X1) h1 s1 hW2 hf (m1.len hl) m1.keys
    have m := m1.trans (W.suffix hW1).subset m2
    refine ⟨.ptr h2.length, h2 ++ [.pair v1 v2], s2, by rw [build, e1]; simp only [e2], m.alloc ?_, ?_, fun _ => ⟨_, rfl⟩⟩
    · refine ⟨a, d, hv, ?_, ?_⟩
      · rw [← List.append_assoc]
        exact (r1.mono X2).mono [o]
      · rw [← List.append_assoc]
        exact r2.mono [o]
    · show (R ++ (X1 ++ X2 ++ [o]))[h2.length]? = some o
      rw [← List.append_assoc]
      exact get_last _ o (m.len hl)
  | .vec ds, b, S, o, S', X, R, h, sh, hW, hf, hl, hk => by
    rw [W] at hW
    obtain ⟨_, ws, X1, hv, hW1, rfl⟩ := hW
    obtain ⟨vs, h1, s1, e1, m1, r1⟩ := make_items ds S ws S' X1 R h sh hW1 hf hl hk
    refine ⟨.ptr h1.length, h1 ++ [.vec vs], s1, by rw [build, e1], m1.alloc ?_, ?_, fun _ => ⟨_, rfl⟩⟩
    · exact ⟨ws, hv, r1.imp fun _ _ h => h.mono [o]⟩
    · show (R ++ (X1 ++ [o]))[h1.length]? = some o
      rw [← List.append_assoc]
      exact get_last _ o (m1.len hl)
  | .box da, b, S, o, S', X, R, h, sh, hW, hf, hl, hk => by
    rw [W] at hW
    obtain ⟨_, a, X1, hv, hW1, hnr, rfl⟩ := hW
    obtain ⟨v1, h1, s1, e1, m1, r1, _⟩ := make_tree da false S a S' X1 R h sh hW1 hf hl hk
    refine ⟨.ptr h1.length, h1 ++ [.box v1], s1, by rw [build, e1], m1.alloc ?_, ?_, fun _ => ⟨_, rfl⟩⟩
    · refine ⟨a, hv, r1.mono [o], ?_⟩
      rintro n rfl
      obtain ⟨q, e, _⟩ := build_proc e1
      exact hnr q e
    · show (R ++ (X1 ++ [o]))[h1.length]? = some o
      rw [← List.append_assoc]
      exact get_last _ o (m1.len hl)
theorem make_items : ∀ (ds : DS) (S ws S' X R : List Obj) (h : List Cell) (sh : List (Int × V)),
    Ws E H M ds S ws S' X → S' <:+ Sf → R.length = h.length → sh.map Prod.fst = S.map (fun q => (pos Sf q : Int)) →
    ∃ vs h' sh', builds (pos Sf) ds h sh = some (vs, h', sh') ∧ Made E H Sf S S' R X h h' sh sh' ∧
      List.Forall₂ (VRel E H Sf (R ++ X)) vs ws
  | .nil, S, ws, S', X, R, h, sh, hW, hf, hl, hk => by
    rw [Ws] at hW
    obtain ⟨rfl, rfl, rfl⟩ := hW
    exact ⟨[], h, sh, by rw [builds], Made.refl hk, .nil⟩
  | .cons d ds, S, ws, S', X, R, h, sh, hW, hf, hl, hk => by
    rw [Ws] at hW
    obtain ⟨w, r, S1, X1, X2, rfl, hW1, hW2, rfl⟩ := hW
    obtain ⟨v1, h1, s1, e1, m1, r1, _⟩ := make_tree d false S w S1 X1 R h sh hW1 ((Ws.suffix hW2).trans hf) hl hk
    obtain ⟨v2, h2, s2, e2, m2, r2⟩ := make_items ds S1 r S' X2 (R ++ X1) h1 s1 hW2 hf (m1.len hl) m1.keys
    refine ⟨v1 :: v2, h2, s2, by rw [builds, e1]; simp only [e2], m1.trans (W.suffix hW1).subset m2, ?_⟩
    rw [← List.append_assoc]
    exact .cons (r1.mono X2) r2
end

end

end Verif.Labels

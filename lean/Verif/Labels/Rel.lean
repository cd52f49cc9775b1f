import Verif.Labels.Tree
import Verif.Stab.Props
/-
What `write` and `write-shared` make of an object, given the set of objects that get labels.
-/
namespace Verif.Labels
open Verif.Equal (Obj Heap Node)
open Verif.Stab (Tab probe stabend Inv Has Live Addr Edge markW key)

variable {F : Type} [DecidableEq F]

/-- components of an object -/
def View.kids : View → List Obj
  | .pair a d => [a, d]
  | .vec ws => ws
  | .box a => [a]
  | _ => []

mutual
/-- `W d body S o S' X`: `d` represents `o`, where the objects `M` get labels, those of `S` have been written with their label before
and those of `S'` after; `X` are the objects the reader makes, in this order.  With `body` the label of `o` has been written. -/
def W (E : Enc) (H : Heap F) (M : Obj → Prop) : D → Bool → List Obj → Obj → List Obj → List Obj → Prop
  | .imm i, body, S, o, S', X => body = false ∧ view E H o = .imm i ∧ S' = S ∧ X = [] ∧ ImmOk i
  | .ref k, body, S, o, S', X => body = false ∧ k = o ∧ M o ∧ o ∈ S ∧ S' = S ∧ X = []
  | .lab k d, body, S, o, S', X => body = false ∧ k = o ∧ M o ∧ o ∉ S ∧ W E H M d true (o :: S) o S' X
  | .str s, body, S, o, S', X => (body = true ∨ ¬ M o) ∧ view E H o = .str s ∧ S' = S ∧ X = [o] ∧ '\x00' ∉ s
  | .bytes b, body, S, o, S', X => (body = true ∨ ¬ M o) ∧ view E H o = .bytes b ∧ S' = S ∧ X = [o] ∧ ∀ k ∈ b, k < 256
  | .pair da dd, body, S, o, S', X => (body = true ∨ ¬ M o) ∧ ∃ a d S1 X1 X2, view E H o = .pair a d ∧ W E H M da false S a S1 X1 ∧
      W E H M dd false S1 d S' X2 ∧ X = X1 ++ X2 ++ [o]
  | .vec ds, body, S, o, S', X => (body = true ∨ ¬ M o) ∧ ∃ ws X1, view E H o = .vec ws ∧ Ws E H M ds S ws S' X1 ∧ X = X1 ++ [o]
  | .box da, body, S, o, S', X => (body = true ∨ ¬ M o) ∧ ∃ a X1, view E H o = .box a ∧ W E H M da false S a S' X1 ∧ (∀ k, da ≠ .ref k) ∧
      X = X1 ++ [o]
def Ws (E : Enc) (H : Heap F) (M : Obj → Prop) : DS → List Obj → List Obj → List Obj → List Obj → Prop
  | .nil, S, ws, S', X => ws = [] ∧ S' = S ∧ X = []
  | .cons d ds, S, ws, S', X => ∃ w r S1 X1 X2, ws = w :: r ∧ W E H M d false S w S1 X1 ∧ Ws E H M ds S1 r S' X2 ∧ X = X1 ++ X2
end

mutual
theorem W.suffix {E : Enc} {H : Heap F} {M : Obj → Prop} : ∀ {d : D} {b : Bool} {S : List Obj} {o : Obj} {S' X : List Obj},
    W E H M d b S o S' X → S <:+ S'
  | .imm _, _, _, _, _, _, h => by rw [W] at h; rw [h.2.2.1]; exact List.suffix_rfl
  | .ref _, _, _, _, _, _, h => by rw [W] at h; rw [h.2.2.2.2.1]; exact List.suffix_rfl
  | .lab _ _, _, _, _, _, _, h => by rw [W] at h; exact (List.suffix_cons _ _).trans (W.suffix h.2.2.2.2)
  | .str _, _, _, _, _, _, h => by rw [W] at h; rw [h.2.2.1]; exact List.suffix_rfl
  | .bytes _, _, _, _, _, _, h => by rw [W] at h; rw [h.2.2.1]; exact List.suffix_rfl
  | .pair _ _, _, _, _, _, _, h => by
    rw [W] at h
    obtain ⟨_, a, d, S1, X1, X2, _, h1, h2, _⟩ := h
    exact (W.suffix h1).trans (W.suffix h2)
  | .vec _, _, _, _, _, _, h => by
    rw [W] at h
    obtain ⟨_, ws, X1, _, h1, _⟩ := h
    exact Ws.suffix h1
  | .box _, _, _, _, _, _, h => by
    rw [W] at h
    obtain ⟨_, a, X1, _, h1, _⟩ := h
    exact W.suffix h1
theorem Ws.suffix {E : Enc} {H : Heap F} {M : Obj → Prop} : ∀ {ds : DS} {S ws S' X : List Obj},
    Ws E H M ds S ws S' X → S <:+ S'
  | .nil, _, _, _, _, h => by rw [Ws] at h; rw [h.2.1]; exact List.suffix_rfl
  | .cons _ _, _, _, _, _, h => by
    rw [Ws] at h
    obtain ⟨w, r, S1, X1, X2, _, h1, h2, _⟩ := h
    exact (W.suffix h1).trans (Ws.suffix h2)
end

mutual
/-- labels are different marked objects -/
theorem W.nodup {E : Enc} {H : Heap F} {M : Obj → Prop} : ∀ {d : D} {b : Bool} {S : List Obj} {o : Obj} {S' X : List Obj},
    W E H M d b S o S' X → S.Nodup ∧ (∀ q ∈ S, M q) → S'.Nodup ∧ ∀ q ∈ S', M q
  | .imm _, _, _, _, _, _, h, n => by rw [W] at h; rw [h.2.2.1]; exact n
  | .ref _, _, _, _, _, _, h, n => by rw [W] at h; rw [h.2.2.2.2.1]; exact n
  | .lab _ _, _, _, _, _, _, h, n => by
    rw [W] at h
    exact W.nodup h.2.2.2.2 ⟨List.nodup_cons.2 ⟨h.2.2.2.1, n.1⟩, by
      intro q hq
      rcases List.mem_cons.1 hq with e | hq
      · rw [e]; exact h.2.2.1
      · exact n.2 q hq⟩
  | .str _, _, _, _, _, _, h, n => by rw [W] at h; rw [h.2.2.1]; exact n
  | .bytes _, _, _, _, _, _, h, n => by rw [W] at h; rw [h.2.2.1]; exact n
  | .pair _ _, _, _, _, _, _, h, n => by
    rw [W] at h
    obtain ⟨_, a, d, S1, X1, X2, _, h1, h2, _⟩ := h
    exact W.nodup h2 (W.nodup h1 n)
  | .vec _, _, _, _, _, _, h, n => by
    rw [W] at h
    obtain ⟨_, ws, X1, _, h1, _⟩ := h
    exact Ws.nodup h1 n
  | .box _, _, _, _, _, _, h, n => by
    rw [W] at h
    obtain ⟨_, a, X1, _, h1, _⟩ := h
    exact W.nodup h1 n
theorem Ws.nodup {E : Enc} {H : Heap F} {M : Obj → Prop} : ∀ {ds : DS} {S ws S' X : List Obj},
    Ws E H M ds S ws S' X → S.Nodup ∧ (∀ q ∈ S, M q) → S'.Nodup ∧ ∀ q ∈ S', M q
  | .nil, _, _, _, _, h, n => by rw [Ws] at h; rw [h.2.1]; exact n
  | .cons _ _, _, _, _, _, h, n => by
    rw [Ws] at h
    obtain ⟨w, r, S1, X1, X2, _, h1, h2, _⟩ := h
    exact Ws.nodup h2 (W.nodup h1 n)
end

mutual
/-- representations made by the writer are readable -/
theorem W.ok {E : Enc} {H : Heap F} {M : Obj → Prop} {num : Obj → Nat} : ∀ {d : D} {b : Bool} {S : List Obj} {o : Obj} {S' X : List Obj},
    W E H M d b S o S' X → (∀ q ∈ S', num q ≤ 536870911) → d.Ok num
  | .imm _, _, _, _, _, _, h, _ => by rw [W] at h; rw [D.Ok]; exact h.2.2.2.2
  | .ref _, _, _, _, _, _, h, hn => by
    rw [W] at h
    obtain ⟨_, rfl, _, ho, rfl, _⟩ := h
    rw [D.Ok]
    exact hn _ ho
  | .lab _ _, _, _, _, _, _, h, hn => by
    rw [W] at h
    obtain ⟨_, rfl, _, ho, h⟩ := h
    rw [D.Ok]
    exact ⟨hn _ ((W.suffix h).subset (by simp)), W.ok h hn⟩
  | .str _, _, _, _, _, _, h, _ => by rw [D.Ok]; trivial
  | .bytes _, _, _, _, _, _, h, _ => by rw [W] at h; rw [D.Ok]; exact h.2.2.2.2
  | .pair _ _, _, _, _, _, _, h, hn => by
    rw [W] at h
    obtain ⟨_, a, d, S1, X1, X2, _, h1, h2, _⟩ := h
    rw [D.Ok]
    exact ⟨W.ok h1 fun q hq => hn q ((W.suffix h2).subset hq), W.ok h2 hn⟩
  | .vec _, _, _, _, _, _, h, hn => by
    rw [W] at h
    obtain ⟨_, ws, X1, _, h1, _⟩ := h
    rw [D.Ok]
    exact Ws.ok h1 hn
  | .box _, _, _, _, _, _, h, hn => by
    rw [W] at h
    obtain ⟨_, a, X1, _, h1, _⟩ := h
    rw [D.Ok]
    exact W.ok h1 hn
theorem Ws.ok {E : Enc} {H : Heap F} {M : Obj → Prop} {num : Obj → Nat} : ∀ {ds : DS} {S ws S' X : List Obj},
    Ws E H M ds S ws S' X → (∀ q ∈ S', num q ≤ 536870911) → ds.Ok num
  | .nil, _, _, _, _, h, _ => by rw [DS.Ok]; trivial
  | .cons _ _, _, _, _, _, h, hn => by
    rw [Ws] at h
    obtain ⟨w, r, S1, X1, X2, _, h1, h2, _⟩ := h
    rw [DS.Ok]
    exact ⟨W.ok h1 fun q hq => hn q ((Ws.suffix h2).subset hq), Ws.ok h2 hn⟩
end

/-- number of the label of `o`: `S` are the labelled objects, the last one first -/
def pos (S : List Obj) (o : Obj) : Nat := S.reverse.idxOf o

theorem pos_suffix {S S' : List Obj} (h : S <:+ S') {o : Obj} (ho : o ∈ S) : pos S' o = pos S o := by
  obtain ⟨T, rfl⟩ := h
  unfold pos
  rw [List.reverse_append, List.idxOf_append_of_mem (by simpa using ho)]

theorem pos_inj {S : List Obj} {a b : Obj} (ha : a ∈ S) (h : pos S a = pos S b) : a = b :=
  (List.idxOf_inj (by simpa using ha)).1 h

theorem pos_lt {S : List Obj} {o : Obj} (ho : o ∈ S) : pos S o < S.length := by
  unfold pos
  rw [← List.length_reverse (as := S)]
  exact List.idxOf_lt_length_of_mem (by simpa using ho)

theorem pos_cons {S : List Obj} {o : Obj} (h : o ∉ S) : pos (o :: S) o = S.length := by
  unfold pos
  rw [List.reverse_cons, List.idxOf_append_of_notMem (by simpa using h)]
  simp

/-- the table after stabend: `M` are the marked objects -/
structure TabOk (H : Heap F) (T : Option Tab) (M : Obj → Prop) (slot : Obj → Nat) : Prop where
  heap : ∀ q, M q → H q ≠ none
  inj : ∀ q r, M q → M r → slot q = slot r → q = r
  hit : ∀ o upd s, M o → stabref H T o upd s = some (stabri (slot o) s upd)
  miss : ∀ o upd s, ¬ M o → stabref H T o upd s = some (0, s)

theorem stabend_ok {H : Heap F} (hok : Stab.Heap.Ok H) {t : Tab} (hI : Inv t) :
    ∃ T slot, stabend t = some T ∧ TabOk H T (fun q => H q ≠ none ∧ Has t q true) slot := by
  have hmark : ∀ q, Addr q → Has t q true → ∃ i < t.sz, markW (t.v i) = true ∧ t.v i = q + 1 := by
    rintro q hq ⟨i, hi, e⟩
    simp only [Bool.toNat_true] at e
    refine ⟨i, hi, ?_, e⟩
    have := hq.1
    have := hq.2
    unfold markW key
    rw [e]
    simp only [Bool.and_eq_true, decide_eq_true_eq, beq_iff_eq]
    omega
  unfold stabend
  by_cases h : ((List.range t.sz).filter fun i => markW (t.v i)).length = 0
  · refine ⟨none, fun _ => 0, by simp [h], ?_⟩
    have hno : ∀ q, ¬ (H q ≠ none ∧ Has t q true) := by
      rintro q ⟨hq, hm⟩
      obtain ⟨i, hi, hw, _⟩ := hmark q (hok.addr q hq) hm
      rw [List.length_eq_zero_iff] at h
      have : i ∈ (List.range t.sz).filter fun i => markW (t.v i) := List.mem_filter.2 ⟨List.mem_range.2 hi, hw⟩
      rw [h] at this
      simp at this
    exact ⟨fun q h => (hno q h).elim, fun q _ h => (hno q h).elim, fun q _ _ h => (hno q h).elim, fun _ _ _ _ => rfl⟩
  · simp only [ne_eq, h, not_false_eq_true, if_true, Option.bind_eq_bind]
    obtain ⟨nsz, e1, h1, h2⟩ := Stab.growTo_spec (((List.range t.sz).filter fun i => markW (t.v i)).length * 2)
      (((List.range t.sz).filter fun i => markW (t.v i)).length + 1) 8 (by omega) (by omega) (by omega)
    rw [e1]
    simp only [Option.bind_some]
    obtain ⟨nv, e2, hidx, hcnt, hiff⟩ := Stab.reinsert_spec (sel := markW) (nsz := nsz) hI.idx (by simp [markW]; intros; assumption) (by omega)
    rw [e2]
    refine ⟨_, fun o => match probe nv nsz o nsz (o % nsz) with | some (_, i) => i | none => 0, rfl, ?_⟩
    have hroom : Stab.cnt nv nsz < nsz := by omega
    have hin : ∀ q, Addr q → Has t q true → ∃ i < nsz, key (nv i) = q ∧ probe nv nsz q nsz (q % nsz) = some (true, i) := by
      intro q hq hm
      rcases Stab.probe_spec hidx hroom hq.1 with h3 | ⟨h3, _⟩
      · exact h3
      · obtain ⟨i, hi, hw, e⟩ := hmark q hq hm
        have hk : key (t.v i) = q := by rw [e]; exact Stab.key_add hq true
        obtain ⟨j, hj, e'⟩ := (hiff (t.v i) (by rw [hk]; exact hq.1)).2 ⟨i, hi, rfl, hw⟩
        exact (h3 j hj (by rw [e']; exact hk)).elim
    refine ⟨fun q h => h.1, ?_, ?_, ?_⟩
    · rintro q r ⟨hq, hq2⟩ ⟨hr, hr2⟩ e
      obtain ⟨i, hi, hk, ei⟩ := hin q (hok.addr q hq) hq2
      obtain ⟨j, hj, hl, ej⟩ := hin r (hok.addr r hr) hr2
      simp only [ei, ej] at e
      rw [← hk, ← hl, e]
    · rintro o upd s ⟨ho, hm⟩
      obtain ⟨i, hi, hk, ei⟩ := hin o (hok.addr o ho) hm
      have ha := hok.addr o ho
      obtain ⟨j, hj, e', hsel⟩ := (hiff (nv i) (by rw [hk]; exact ha.1)).1 ⟨i, hi, rfl⟩
      have hodd : nv i % 2 = 1 := by
        simp only [markW, Bool.and_eq_true, beq_iff_eq] at hsel
        exact hsel.2
      simp [stabref, ho, ei, hodd]
    · intro o upd s hno
      by_cases ho : H o = none
      · simp [stabref, ho]
      · have ha := hok.addr o ho
        rcases Stab.probe_spec hidx hroom ha.1 with ⟨i, hi, hk, ei⟩ | ⟨_, s', _, _, _, ei⟩
        · obtain ⟨j, hj, e', hsel⟩ := (hiff (nv i) (by rw [hk]; exact ha.1)).1 ⟨i, hi, rfl⟩
          refine (hno ⟨ho, j, hj, ?_⟩).elim
          simp only [markW, Bool.and_eq_true, beq_iff_eq] at hsel
          simp only [key] at hk
          simp only [Bool.toNat_true]
          omega
        · simp [stabref, ho, ei]

end Verif.Labels

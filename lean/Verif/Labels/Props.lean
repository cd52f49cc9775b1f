import Verif.Labels.Patch
import Verif.Labels.Exists
/-
C62: what `write`, `write-shared` and `write-simple` write is read back by `read` as a copy.
-/
namespace Verif.Labels
open Verif.Equal (Obj Heap Node)
open Verif.Stab (Tab Has Live Addr Edge Reach OnCycle newTab stabshared stabcircular stabend)

variable {F : Type} [DecidableEq F]

/-! ## specification -/

/-- `v` stands for the object `o`; the `n` new objects are copies of the objects given by `f` -/
def ValIs (E : Enc) (H : Heap F) (f : Nat → Obj) (n : Nat) : V → Obj → Prop
  | .imm i, o => view E H o = .imm i
  | .ptr a, o => a < n ∧ f a = o
  | _, _ => False

/-- a new object is a copy of an object: it is of the same kind and has corresponding components -/
def CellIs (E : Enc) (H : Heap F) (f : Nat → Obj) (n : Nat) : Cell → View → Prop
  | .str s, .str t => s = t
  | .bytes b, .bytes c => b = c
  | .pair v w, .pair a d => ValIs E H f n v a ∧ ValIs E H f n w d
  | .vec vs, .vec ws => List.Forall₂ (ValIs E H f n) vs ws
  | .box v, .box a => ValIs E H f n v a
  | _, _ => False

/-- the value `v` with the new objects `cells` is a copy of `x` -/
structure IsCopy (E : Enc) (H : Heap F) (x : Obj) (v : V) (cells : List Cell) (f : Nat → Obj) : Prop where
  root : ValIs E H f cells.length v x
  cell : ∀ a c, cells[a]? = some c → CellIs E H f cells.length c (view E H (f a))

/-! ## reading -/

section
variable {E : Enc} {H : Heap F} {M : Obj → Prop}

theorem valIs {Sf X : List Obj} {sh : List (Int × V)} (hF : ∀ q ∈ Sf, ∃ a, assq (pos Sf q) sh = some (.ptr a) ∧ X[a]? = some q) {v : V}
    {q : Obj} (h : VRel E H Sf X v q) : ValIs E H (fun a => X.getD a 0) X.length (deref sh v) q := by
  have hp : ∀ a, X[a]? = some q → ValIs E H (fun a => X.getD a 0) X.length (.ptr a) q := by
    intro a ha
    exact ⟨(List.getElem?_eq_some_iff.1 ha).1, by simp [List.getD, ha]⟩
  cases v with
  | imm i => exact h
  | ptr a => exact hp a h
  | proc n =>
    obtain ⟨rfl, hq⟩ := h
    obtain ⟨a, e, ha⟩ := hF q hq
    simp only [deref, e, Option.getD_some]
    exact hp a ha
  | flo => exact h.elim
  | void => exact h.elim

theorem cellIs {Sf X : List Obj} {sh : List (Int × V)} (hF : ∀ q ∈ Sf, ∃ a, assq (pos Sf q) sh = some (.ptr a) ∧ X[a]? = some q) {c : Cell}
    {q : Obj} (h : CRel E H Sf X c q) : CellIs E H (fun a => X.getD a 0) X.length (c.deref sh) (view E H q) := by
  cases c with
  | str s => simp only [CRel] at h; rw [h]; rfl
  | bytes b => simp only [CRel] at h; rw [h]; rfl
  | pair v w => obtain ⟨a, d, e, h1, h2⟩ := h; rw [e]; exact ⟨valIs hF h1, valIs hF h2⟩
  | vec vs =>
    obtain ⟨ws, e, h1⟩ := h
    rw [e]
    show List.Forall₂ _ (vs.map (deref sh)) ws
    rw [List.forall₂_map_left_iff]
    exact h1.imp fun _ _ h => valIs hF h
  | box v => obtain ⟨a, e, h1, _⟩ := h; rw [e]; exact valIs hF h1

theorem deref_val {X : List Obj} {sh : List (Int × V)} {v : V} {q : Obj} (h : VRel E H [] X v q) : deref sh v = v := by
  cases v with
  | proc n => exact (List.not_mem_nil h.2).elim
  | _ => rfl

theorem deref_cell {X : List Obj} {sh : List (Int × V)} {c : Cell} {q : Obj} (h : CRel E H [] X c q) : c.deref sh = c := by
  cases c with
  | str s => rfl
  | bytes b => rfl
  | pair v w => obtain ⟨a, d, e, h1, h2⟩ := h; simp only [Cell.deref, deref_val h1, deref_val h2]
  | vec vs =>
    obtain ⟨ws, e, h1⟩ := h
    simp only [Cell.deref, Cell.vec.injEq]
    clear e
    induction h1 with
    | nil => rfl
    | cons h _ ih => simp only [List.map_cons, deref_val h, ih]
  | box v => obtain ⟨a, e, h1, _⟩ := h; simp only [Cell.deref, deref_val h1]

/-- reading the text of a representation -/
theorem read_back (fl : Flo) {d : D} {x : Obj} {Sf X : List Obj} (hW : W E H M d false [] x Sf X) (hlen : Sf.length ≤ 536870912)
    {rest : List Char} (hr : Del rest) : ∃ v cells, (∀ m ≥ d.sz, read fl false m (render (pos Sf) d ++ rest) = some (.val v, cells, rest)) ∧
      cells.length = X.length ∧ IsCopy E H x v cells fun a => X.getD a 0 := by
  obtain ⟨v, h', sh', e, m, hv, _⟩ := make_tree (Sf := Sf) d false [] x Sf X [] [] [] hW List.suffix_rfl rfl rfl
  have hok : d.Ok (pos Sf) := hW.ok fun q hq => by have := pos_lt hq; omega
  obtain ⟨C, hC, hrel⟩ := m.heap
  simp only [List.nil_append] at hC hrel hv
  subst hC
  have hF : ∀ q ∈ Sf, ∃ a, assq (pos Sf q) sh' = some (.ptr a) ∧ X[a]? = some q := by
    intro q hq
    obtain ⟨a, h1, h2⟩ := m.new q hq (by simp)
    exact ⟨a, h1, by simpa using h2⟩
  have hnp : ∀ k, v = .proc k → False := by
    rintro k rfl
    obtain ⟨q, rfl, _⟩ := build_proc e
    rw [W] at hW
    simp at hW
  have hdv : deref sh' v = v := by
    cases v with
    | proc k => exact (hnp k rfl).elim
    | _ => rfl
  refine ⟨v, h'.map (Cell.deref sh'), fun n hn => ?_, by simp [hrel.length_eq], ?_, ?_⟩
  · have hsub := read_tree fl (pos Sf) d [] h' [] sh' v rest n hok e hr hn
    unfold read
    rw [hsub]
    simp only [Option.bind_eq_bind, Option.bind_some]
    by_cases hs : sh' = []
    · rw [if_pos hs]
      have hSf : Sf = [] := by
        have := m.keys
        rw [hs] at this
        simpa using this.symm
      have : h'.map (Cell.deref sh') = h' := by
        rw [hSf] at hrel
        clear hsub e m hlen
        have : ∀ {C : List Cell} {Y : List Obj}, List.Forall₂ (CRel E H [] X) C Y → C.map (Cell.deref sh') = C := by
          intro C Y h
          induction h with
          | nil => rfl
          | cons h _ ih => simp only [List.map_cons, deref_cell h, ih]
        exact this hrel
      rw [this]
    · rw [if_neg hs]
      obtain ⟨K, hK, hP⟩ := patch_tree (E := E) (H := H) (M := M) (Sf := Sf) (sh := sh') (fun q hq => (hF q hq).imp fun a h => h.1) d false [] x Sf X []
        h' [] sh' v h' n hW List.suffix_rfl e (fun _ _ _ => rfl) hn
      rw [hK]
      have : K = h'.map (Cell.deref sh') := by
        apply List.ext_getElem?
        intro j
        rw [hP j, List.getElem?_map]
        by_cases hj : j < h'.length
        · rw [if_pos ⟨by simp, hj⟩]
        · rw [if_neg (by tauto), List.getElem?_eq_none (by omega)]
          rfl
      rw [this]
      rfl
  · rw [List.length_map, hrel.length_eq, ← hdv]
    exact valIs hF hv
  · intro a c hc
    rw [List.getElem?_map] at hc
    obtain ⟨c', hc', rfl⟩ := Option.map_eq_some_iff.1 hc
    rw [List.length_map, hrel.length_eq]
    obtain ⟨ha, hca⟩ := List.getElem?_eq_some_iff.1 hc'
    have hx : a < X.length := by rw [← hrel.length_eq]; exact ha
    have := cellIs hF (List.Forall₂.get hrel ha hx)
    simp only [List.get_eq_getElem, hca] at this
    simpa [List.getD, hx] using this

end

/-! ## fuel -/

theorem foldlM_mono {α β : Type} {f g : β → α → Option β} (h : ∀ s a s', f s a = some s' → g s a = some s') : ∀ (l : List α) (s s' : β),
    l.foldlM f s = some s' → l.foldlM g s = some s' := by
  intro l
  induction l with
  | nil => intro s s' e; exact e
  | cons a l ih =>
    intro s s' e
    rw [List.foldlM_cons] at e ⊢
    cases e1 : f s a with
    | none => simp [e1] at e
    | some s1 =>
      rw [e1] at e
      rw [h s a s1 e1]
      exact ih s1 s' e

theorem shared_succ (H : Heap F) : ∀ n o t t', stabshared H n o t = some t' → stabshared H (n + 1) o t = some t' := by
  intro n
  induction n with
  | zero => intro o t t' h; simp [stabshared] at h
  | succ n ih =>
    intro o t t' h
    rw [stabshared] at h ⊢
    cases e : Stab.stabnew H o t false with
    | none => simp [e] at h
    | some p =>
      obtain ⟨b, t1⟩ := p
      simp only [e, Option.bind_eq_bind, Option.bind_some] at h ⊢
      cases b with
      | false => exact h
      | true =>
        simp only [if_true] at h ⊢
        cases eo : H o with
        | none => rw [eo] at h; exact h
        | some nd =>
          rw [eo] at h
          cases nd with
          | blk ws => exact foldlM_mono (fun s a s' h => ih a s s' h) ws t1 t' h
          | _ => exact h

theorem circular_succ (H : Heap F) : ∀ n o s s', stabcircular H n o s = some s' → stabcircular H (n + 1) o s = some s' := by
  intro n
  induction n with
  | zero => intro o t t' h; simp [stabcircular] at h
  | succ n ih =>
    intro o s s' h
    rw [stabcircular] at h ⊢
    cases e : Stab.stabnew H o s.t true with
    | none => simp [e] at h
    | some p =>
      obtain ⟨b, t1⟩ := p
      simp only [e, Option.bind_eq_bind, Option.bind_some] at h ⊢
      cases b with
      | false => exact h
      | true =>
        simp only [if_true] at h ⊢
        cases eo : H o with
        | none => rw [eo] at h; exact h
        | some nd =>
          rw [eo] at h
          cases nd with
          | blk ws =>
            simp only at h ⊢
            cases e1 : ws.dropLast.foldlM (fun s w => stabcircular H n w s) (⟨t1, 0 :: s.r⟩ : Stab.St) with
            | none => simp [e1] at h
            | some s1 =>
              rw [foldlM_mono (fun s a s' h => ih a s s' h) _ _ _ e1]
              rw [e1] at h
              simp only [Option.bind_some] at h ⊢
              cases e2 : Stab.pop s1 with
              | none => simp [e2] at h
              | some s2 =>
                simp only [e2, Option.bind_some] at h ⊢
                cases e3 : ws.getLast? with
                | none => rw [e3] at h; exact h
                | some w =>
                  rw [e3] at h
                  exact ih _ _ _ h
          | _ => exact h

theorem shared_le {H : Heap F} {n m : Nat} (hnm : n ≤ m) {o t t'} (h : stabshared H n o t = some t') : stabshared H m o t = some t' := by
  induction hnm with
  | refl => exact h
  | step _ ih => exact shared_succ H _ o t t' ih

theorem circular_le {H : Heap F} {n m : Nat} (hnm : n ≤ m) {o s s'} (h : stabcircular H n o s = some s') : stabcircular H m o s = some s' := by
  induction hnm with
  | refl => exact h
  | step _ ih => exact circular_succ H _ o s s' ih

/-! ## the theorems -/

section
variable {E : Enc} {H : Heap F}

/-- heap objects reachable through words are components -/
theorem comp_of_reach (hE : E.Ok H) {x : Obj} (hread : ∀ o, Comp E H x o → Readable E H o) {y : Obj} (h : Reach H x y) (hy : H y ≠ none) :
    Comp E H x y := by
  revert hy
  induction h using Relation.ReflTransGen.head_induction_on with
  | refl => intro _; exact .refl
  | head h _ ih =>
    intro hy
    obtain ⟨ws, e, hm⟩ := id h
    have hc := ih (by rw [e]; simp)
    rcases view_heap hE (by rw [e]; simp) (hread _ hc) with ⟨h1, _⟩ | ⟨tag, h1, h2⟩
    · exact (h1 ws e).elim
    · rw [e] at h1
      simp only [Option.some.injEq, Node.blk.injEq] at h1
      rw [h1] at hm
      rcases List.mem_cons.1 hm with h3 | h3
      · rw [h3] at hy; exact (hy h2).elim
      · exact Relation.ReflTransGen.head h3 hc

theorem reach_of_comp (hE : E.Ok H) {x : Obj} (hread : ∀ o, Comp E H x o → Readable E H o) {y : Obj} (h : Comp E H x y) : Reach H x y := by
  induction h using Relation.ReflTransGen.head_induction_on with
  | refl => exact .refl
  | head h h2 ih => exact Relation.ReflTransGen.head (kids_edge hE (hread _ h2) h) ih

/-- what is written if the table of labels is `T` -/
theorem writes_text {T : Option Tab} {M : Obj → Prop} {slot : Obj → Nat} (hT : TabOk H T M slot) {d : D} {x : Obj} {Sf X : List Obj}
    (hW : W E H M d false [] x Sf X) : ∀ n ≥ d.sz, (wrdatum E H T n x noNums).map Prod.fst = some (render (pos Sf) d) := by
  obtain ⟨s', _, h⟩ := write_tree (Sf := Sf) hT d false [] x Sf X noNums hW List.suffix_rfl ⟨rfl, fun o _ => by simp [noNums]⟩
  intro n hn
  have hp := pos_sz d
  obtain ⟨n, rfl⟩ : ∃ m, n = m + 1 := ⟨n - 1, by omega⟩
  have := h n hn
  simp only [Bool.false_eq_true, if_false] at this
  rw [this]
  rfl

/-- labels are bounded by the number of objects -/
theorem labels_le {M : Obj → Prop} {d : D} {x : Obj} {Sf X dom : List Obj} (hW : W E H M d false [] x Sf X)
    (hdom : ∀ q ∈ Sf, q ∈ dom) : Sf.length ≤ dom.length := by
  have := (hW.nodup ⟨List.nodup_nil, by simp⟩).1
  exact (List.subperm_of_subset this hdom).length_le

mutual
theorem W.labels {M : Obj → Prop} {x : Obj} : ∀ {d : D} {b : Bool} {S : List Obj} {o : Obj} {S' X : List Obj},
    W E H M d b S o S' X → Comp E H x o → (∀ q ∈ S, Comp E H x q) → ∀ q ∈ S', Comp E H x q
  | .imm _, _, _, _, _, _, h, _, n => by rw [W] at h; rw [h.2.2.1]; exact n
  | .ref _, _, _, _, _, _, h, _, n => by rw [W] at h; rw [h.2.2.2.2.1]; exact n
  | .lab _ _, _, _, _, _, _, h, ho, n => by
    rw [W] at h
    exact W.labels h.2.2.2.2 ho (by
      intro q hq
      rcases List.mem_cons.1 hq with e | hq
      · rw [e]; exact ho
      · exact n q hq)
  | .str _, _, _, _, _, _, h, _, n => by rw [W] at h; rw [h.2.2.1]; exact n
  | .bytes _, _, _, _, _, _, h, _, n => by rw [W] at h; rw [h.2.2.1]; exact n
  | .pair _ _, _, _, _, _, _, h, ho, n => by
    rw [W] at h
    obtain ⟨_, a, d, S1, X1, X2, e, h1, h2, _⟩ := h
    exact W.labels h2 (.head (by rw [e]; simp [View.kids]) ho) (W.labels h1 (.head (by rw [e]; simp [View.kids]) ho) n)
  | .vec _, _, _, _, _, _, h, ho, n => by
    rw [W] at h
    obtain ⟨_, ws, X1, e, h1, _⟩ := h
    exact Ws.labels h1 (fun w hw => .head (by rw [e]; exact hw) ho) n
  | .box _, _, _, _, _, _, h, ho, n => by
    rw [W] at h
    obtain ⟨_, a, X1, e, h1, _⟩ := h
    exact W.labels h1 (.head (by rw [e]; simp [View.kids]) ho) n
theorem Ws.labels {M : Obj → Prop} {x : Obj} : ∀ {ds : DS} {S ws S' X : List Obj},
    Ws E H M ds S ws S' X → (∀ w ∈ ws, Comp E H x w) → (∀ q ∈ S, Comp E H x q) → ∀ q ∈ S', Comp E H x q
  | .nil, _, _, _, _, h, _, n => by rw [Ws] at h; rw [h.2.1]; exact n
  | .cons _ _, _, _, _, _, h, hw, n => by
    rw [Ws] at h
    obtain ⟨w, r, S1, X1, X2, rfl, h1, h2, _⟩ := h
    exact Ws.labels h2 (fun q hq => hw q (by simp [hq])) (W.labels h1 (hw w (by simp)) n)
end

/-- C62: text written by `write-shared` is read back as an isomorphic copy: different new objects are copies of different objects, so
the copy has exactly the sharing and the cycles of the original.  `dom` lists the heap objects in `x`.  Partial: symbols that look like
numbers are excluded (`Readable`), and the content of a box must not be shared. -/
theorem c62_shared_partial (fl : Flo) (hok : Stab.Heap.Ok H) (hE : E.Ok H) (x : Obj) (dom : List Obj)
    (hread : ∀ o, Comp E H x o → Readable E H o) (hdom : ∀ o, Comp E H x o → H o ≠ none → o ∈ dom) (hlen : dom.length ≤ 2 ^ 29)
    (hbox : ∀ b a, Comp E H x b → view E H b = .box a → H a ≠ none → a ≠ x ∧ ∀ p, Comp E H x p → a ∈ (view E H p).kids → p = b) :
    ∃ text n0, (∀ n ≥ n0, oportputshared E H n x = some text) ∧ ∀ rest, Del rest → ∃ v cells f m0,
      (∀ m ≥ m0, read fl false m (text ++ rest) = some (.val v, cells, rest)) ∧ IsCopy E H x v cells f ∧
      ∀ a b, a < cells.length → b < cells.length → f a = f b → a = b := by
  classical
  let dom' := dom.filter fun q => H q ≠ none
  have hd' : ∀ q ∈ dom', Addr q := fun q hq => hok.addr q (by simpa [dom'] using (List.mem_filter.1 hq).2)
  obtain ⟨t, et, pt⟩ := Stab.shared_spec (D := Reach H x) (dom := dom') hok (fun a b ha hb => Relation.ReflTransGen.head hb ha) hd'
    (fun q hq hn => List.mem_filter.2 ⟨hdom q (comp_of_reach hE hread hq hn) hn, by simpa using hn⟩) (Stab.missing dom' newTab + 1) x newTab
    Stab.inv_new .refl (by omega)
  obtain ⟨T, slot, eT, hT⟩ := stabend_ok hok pt.inv
  obtain ⟨d, Sf, X, hW, lk, _⟩ := lock_step (E := E) (H := H) (M := fun q => H q ≠ none ∧ Has t q true) hok hE hread (fun _ h => h.1) hbox _ x newTab t []
    Stab.inv_new et .refl (fun q hq ⟨m, h⟩ => (Stab.has_new q (hok.addr q hq) m h).elim) (fun _ => .inl rfl)
    (fun q hq => by simp only [List.not_mem_nil, false_iff]; rintro ⟨⟨m, h⟩, _⟩; exact Stab.has_new q (hok.addr q hq) m h)
    (fun q hq h => ⟨hq, h⟩)
  have hl : Sf.length ≤ 536870912 := le_trans (labels_le hW fun q hq =>
    hdom q (hW.labels .refl (by simp) q hq) ((hW.nodup ⟨List.nodup_nil, by simp⟩).2 q hq).1) hlen
  refine ⟨render (pos Sf) d, max (Stab.missing dom' newTab + 1) d.sz, fun n hn => ?_, fun rest hr => ?_⟩
  · unfold oportputshared
    rw [shared_le (by omega) et]
    simp only [Option.bind_eq_bind, Option.bind_some, eT]
    exact writes_text hT hW n (by omega)
  · obtain ⟨v, cells, h1, h2, h3⟩ := read_back fl hW hl hr
    refine ⟨v, cells, _, d.sz, h1, h3, fun a b ha hb e => ?_⟩
    rw [h2] at ha hb
    simp only [List.getD, List.getElem?_eq_getElem ha, List.getElem?_eq_getElem hb, Option.getD_some] at e
    exact (List.Nodup.getElem_inj_iff lk.nodup).1 e

/-- objects of which no cycle can be reached are well-founded, up to marked ones -/
theorem circular_run (hok : Stab.Heap.Ok H) (hE : E.Ok H) (x : Obj) (dom : List Obj)
    (hread : ∀ o, Comp E H x o → Readable E H o) (hdom : ∀ o, Comp E H x o → H o ≠ none → o ∈ dom) :
    ∃ n t, stabcircular H n x ⟨newTab, []⟩ = some ⟨t, []⟩ ∧ Stab.Inv t ∧ (∀ q, Addr q → Has t q true → OnCycle H q ∧ Reach H x q) ∧
      ∀ o, Reach H x o → Acc (fun y z => Edge H y z ∧ ¬ (H z ≠ none ∧ Has t z true)) o := by
  classical
  let dom' := dom.filter fun q => H q ≠ none
  have hd' : ∀ q ∈ dom', Addr q := fun q hq => hok.addr q (by simpa [dom'] using (List.mem_filter.1 hq).2)
  obtain ⟨t, et, pt⟩ := Stab.circular_spec (D := Reach H x) (dom := dom') hok (fun a b ha hb => Relation.ReflTransGen.head hb ha) hd'
    (fun q hq hn => List.mem_filter.2 ⟨hdom q (comp_of_reach hE hread hq hn) hn, by simpa using hn⟩) (Stab.missing dom' newTab + 1) x newTab
    [] [] [] ⟨Stab.inv_new, .refl, fun q hq h => (Stab.has_new q hq false h).elim, by simp,
      fun q hq h => (Stab.has_new q hq true h).elim⟩ (by simp) (by simp) (.inl rfl) (by omega)
  refine ⟨_, t, et, pt.inv, fun q hq h => ⟨(pt.marked q hq h).2, (pt.marked q hq h).1⟩, fun o ho => ?_⟩
  have hacc : ∀ o, Reach H x o → Acc (Stab.Plain H t) o := by
    intro o ho
    induction ho using Relation.ReflTransGen.head_induction_on with
    | refl => exact pt.acc
    | @head a c h _ ih =>
      by_cases hm : Has t c true
      · obtain ⟨ws, e, _⟩ := id h
        have hc := hok.addr c (by rw [e]; simp)
        exact pt.kids c hc hm (fun ⟨m, hl⟩ => Stab.has_new c hc m hl) a h
      · exact ih.inv ⟨h, hm⟩
  refine Subrelation.accessible (r := Stab.Plain H t) ?_ (hacc o ho)
  rintro y z ⟨⟨ws, e, hy⟩, h⟩
  exact ⟨⟨ws, e, hy⟩, fun h3 => h ⟨by rw [e]; simp, h3⟩⟩

/-- C62: text written by `write` is read back as a copy, also if the data is circular.  (Objects that are not on a cycle but occur more
than once are written more than once.)  Partial: symbols that look like numbers are excluded (`Readable`), and the content of a box must
not be on a cycle. -/
theorem c62_write_partial (fl : Flo) (hok : Stab.Heap.Ok H) (hE : E.Ok H) (x : Obj) (dom : List Obj)
    (hread : ∀ o, Comp E H x o → Readable E H o) (hdom : ∀ o, Comp E H x o → H o ≠ none → o ∈ dom) (hlen : dom.length ≤ 2 ^ 29)
    (hbox : ∀ b a, Comp E H x b → view E H b = .box a → ¬ OnCycle H a) :
    ∃ text n0, (∀ n ≥ n0, oportputcircular E H n x = some text) ∧ ∀ rest, Del rest → ∃ v cells f m0,
      (∀ m ≥ m0, read fl false m (text ++ rest) = some (.val v, cells, rest)) ∧ IsCopy E H x v cells f := by
  obtain ⟨n0, t, et, hI, hmk, hacc⟩ := circular_run hok hE x dom hread hdom
  obtain ⟨T, slot, eT, hT⟩ := stabend_ok hok hI
  obtain ⟨d, Sf, X, hW⟩ := circ_exists (E := E) (H := H) (M := fun q => H q ≠ none ∧ Has t q true) (x := x) (dom := dom) hE hread (fun _ h => h.1)
    (fun o ho h => hdom o ho h.1) (fun o ho => hacc o (reach_of_comp hE hread ho))
    (fun b a hb e h => hbox b a hb e (hmk a (hok.addr a h.1) h.2).1) _ x (hacc x .refl) .refl [] (le_refl _)
  have hl : Sf.length ≤ 536870912 := le_trans (labels_le hW fun q hq =>
    hdom q (hW.labels .refl (by simp) q hq) ((hW.nodup ⟨List.nodup_nil, by simp⟩).2 q hq).1) hlen
  refine ⟨render (pos Sf) d, max n0 d.sz, fun n hn => ?_, fun rest hr => ?_⟩
  · unfold oportputcircular
    rw [circular_le (by omega) et]
    simp only [Option.bind_eq_bind, Option.bind_some, eT]
    exact writes_text hT hW n (by omega)
  · obtain ⟨v, cells, h1, _, h3⟩ := read_back fl hW hl hr
    exact ⟨v, cells, _, d.sz, h1, h3⟩

/-- C62: text written by `write-simple` for data without cycles is read back as a copy.  Partial: symbols that look like numbers are
excluded (`Readable`). -/
theorem c62_simple_partial (fl : Flo) (hok : Stab.Heap.Ok H) (hE : E.Ok H) (x : Obj) (dom : List Obj)
    (hread : ∀ o, Comp E H x o → Readable E H o) (hdom : ∀ o, Comp E H x o → H o ≠ none → o ∈ dom)
    (hcyc : ∀ o, Comp E H x o → ¬ OnCycle H o) :
    ∃ text n0, (∀ n ≥ n0, oportputsimple E H n x = some text) ∧ ∀ rest, Del rest → ∃ v cells f m0,
      (∀ m ≥ m0, read fl false m (text ++ rest) = some (.val v, cells, rest)) ∧ IsCopy E H x v cells f := by
  obtain ⟨n0, t, et, hI, hmk, hacc⟩ := circular_run hok hE x dom hread hdom
  have hno : ∀ q, Reach H x q → ¬ (H q ≠ none ∧ Has t q true) := fun q hq h =>
    hcyc q (comp_of_reach hE hread hq h.1) (hmk q (hok.addr q h.1) h.2).1
  have hT : TabOk H none (fun _ => False) (fun _ => 0) := ⟨fun _ h => h.elim, fun _ _ h => h.elim, fun _ _ _ h => h.elim, fun _ _ _ _ => rfl⟩
  have hacc' : ∀ o, Reach H x o → Acc (fun y z => Edge H y z ∧ ¬ False) o := by
    intro o ho
    have := hacc o ho
    induction this with
    | intro o _ ih =>
      refine ⟨_, fun y hy => ih y ⟨hy.1, hno o ho⟩ (Relation.ReflTransGen.head hy.1 ho)⟩
  obtain ⟨d, Sf, X, hW⟩ := circ_exists (E := E) (H := H) (M := fun _ => False) (x := x) (dom := []) hE hread (fun _ h => h.elim)
    (fun o ho h => h.elim) (fun o ho => hacc' o (reach_of_comp hE hread ho)) (fun b a hb e h => h) _ x (hacc' x .refl) .refl [] (le_refl _)
  have hl : Sf.length ≤ 536870912 := le_trans (labels_le (dom := []) hW fun q hq =>
    ((hW.nodup ⟨List.nodup_nil, by simp⟩).2 q hq).elim) (by simp)
  refine ⟨render (pos Sf) d, d.sz, fun n hn => writes_text hT hW n hn, fun rest hr => ?_⟩
  obtain ⟨v, cells, h1, _, h3⟩ := read_back fl hW hl hr
  exact ⟨v, cells, _, d.sz, h1, h3⟩

end

/-- C62: a copy has a new object for every heap object in `x`. -/
theorem c62_onto {E : Enc} {H : Heap F} {x : Obj} {v : V} {cells : List Cell} {f : Nat → Obj} (h : IsCopy E H x v cells f) (o : Obj)
    (ho : Comp E H x o) (hn : H o ≠ none) : ∃ a, a < cells.length ∧ f a = o := by
  have key : ∃ w, ValIs E H f cells.length w o := by
    clear hn
    induction ho using Relation.ReflTransGen.head_induction_on with
    | refl => exact ⟨v, h.root⟩
    | @head c p hc _ ih =>
      obtain ⟨w, hw⟩ := ih
      cases w with
      | imm i =>
        have hw : view E H p = .imm i := hw
        rw [hw] at hc
        simp [View.kids] at hc
      | ptr a =>
        obtain ⟨ha, rfl⟩ := hw
        have hC := h.cell a _ (List.getElem?_eq_getElem ha)
        revert hC hc
        generalize cells[a] = C
        generalize view E H (f a) = w
        intro hc hC
        cases C <;> cases w <;> simp only [CellIs] at hC <;> simp only [View.kids, List.not_mem_nil, List.mem_cons, or_false] at hc
        · rcases hc with rfl | rfl
          · exact ⟨_, hC.1⟩
          · exact ⟨_, hC.2⟩
        · obtain ⟨i, hi, e⟩ := List.mem_iff_getElem.1 hc
          have hl := hC.length_eq
          have hg := hC.get (i := i) (by omega) hi
          rw [← e]
          exact ⟨_, hg⟩
        · subst hc; exact ⟨_, hC⟩
      | _ => exact hw.elim
  obtain ⟨w, hw⟩ := key
  cases w with
  | imm i => exact (hn (view_imm hw)).elim
  | ptr a => exact ⟨a, hw⟩
  | _ => exact hw.elim

/-! ## the full statement -/

/-- immediate data with a representation -/
def AnyImm : Imm → Prop
  | .fix n => -536870912 ≤ n ∧ n ≤ 536870911
  | .sym s => '\x00' ∉ s
  | _ => True

/-- data of any kind, with any symbols -/
def Data (E : Enc) (H : Heap F) (o : Obj) : Prop :=
  match view E H o with
  | .imm i => AnyImm i
  | .str s => '\x00' ∉ s
  | .bytes b => ∀ k ∈ b, k < 256
  | .other => False
  | _ => True

/-- The full statement of C62: `c62_write_partial` for all data made of pairs, vectors, boxes, strings, bytevectors, characters, booleans,
fixnums and symbols. -/
def C62Full : Prop := ∀ (fl : Flo) (E : Enc) (H : Heap Unit) (x : Obj) (dom : List Obj), Stab.Heap.Ok H → E.Ok H →
  (∀ o, Comp E H x o → Data E H o) → (∀ o, Comp E H x o → H o ≠ none → o ∈ dom) → dom.length ≤ 2 ^ 29 →
    ∃ text n0, (∀ n ≥ n0, oportputcircular E H n x = some text) ∧ ∀ rest, Del rest → ∃ v cells f m0,
      (∀ m ≥ m0, read fl false m (text ++ rest) = some (.val v, cells, rest)) ∧ IsCopy E H x v cells f

namespace LabelsCase

open Lean Elab Tactic Meta in
/-- an equation that holds by computation; checked by the kernel only -/
local elab "kernel_rfl" : tactic => do
  let g ← getMainGoal
  let some (_, l, _) := (← instantiateMVars (← g.getType)).eq? | failure
  g.assign (← mkEqRefl l)

/-- words: 1, 3, 5 are tags, 7 = 1, 9 = (), 11 = the symbol `a`, 13 = the symbol `+.5` -/
def E : Enc where
  imm o := if o = 7 then some (.fix 1) else if o = 9 then some .null else if o = 11 then some (.sym "a".toList)
    else if o = 13 then some (.sym "+.5".toList) else none
  pairTag := 1
  vecTag := 3
  boxTag := 5

/-- 8 = a box that contains itself; 16 = the circular list `#0=(1 #(a "b" #&()) . #0#)` of the vector 24 -/
def H : Heap Unit := fun o =>
  if o = 8 then some (.blk [5, 8])
  else if o = 16 then some (.blk [1, 7, 32])
  else if o = 24 then some (.blk [3, 11, 40, 48])
  else if o = 32 then some (.blk [1, 24, 16])
  else if o = 40 then some (.str "b".toList)
  else if o = 48 then some (.blk [5, 9])
  else none

def fl : Flo := ⟨fun _ => true, fun _ => none⟩

theorem dom_H (o : Obj) (h : H o ≠ none) : o ∈ [8, 16, 24, 32, 40, 48] := by
  by_contra hc
  simp only [List.mem_cons, List.not_mem_nil, or_false, not_or] at hc
  exact h (by simp [H, hc])

theorem okH : Stab.Heap.Ok H where
  addr o h := by
    have := dom_H o h
    revert o
    have : ∀ o ∈ [8, 16, 24, 32, 40, 48], Addr o := by unfold Addr; decide
    intro o _ h
    exact this o h
  nonempty o h := by
    have hm := dom_H o (by rw [h]; simp)
    have : ∀ o ∈ [8, 16, 24, 32, 40, 48], H o ≠ some (.blk []) := by decide
    exact this o hm h

theorem okE : E.Ok H := ⟨rfl, rfl, rfl⟩

theorem comp_in {x : Obj} {L : List Obj} (hx : x ∈ L) (hL : ∀ p ∈ L, ∀ c ∈ (view E H p).kids, c ∈ L) {o : Obj} (h : Comp E H x o) : o ∈ L := by
  induction h using Relation.ReflTransGen.head_induction_on with
  | refl => exact hx
  | head h _ ih => exact hL _ ih _ h

/-- `c62_write_partial`, `c62_shared_partial`: the circular list -/
theorem comps {o : Obj} (h : Comp E H 16 o) : o ∈ [16, 24, 32, 40, 48, 7, 9, 11] := comp_in (by decide) (by decide) h

theorem readable : ∀ o, Comp E H 16 o → Readable E H o := by
  intro o h
  have := comps h
  simp only [List.mem_cons, List.not_mem_nil, or_false] at this
  rcases this with rfl | rfl | rfl | rfl | rfl | rfl | rfl | rfl
  · trivial
  · trivial
  · trivial
  · show '\x00' ∉ "b".toList; decide
  · trivial
  · show -536870912 ≤ (1 : Int) ∧ (1 : Int) ≤ 536870911; decide
  · trivial
  · refine ⟨by decide, ?_⟩
    rintro ⟨c, r, e, h, _⟩
    cases e
    revert h; decide

theorem boxes (b a : Obj) (h : Comp E H 16 b) (e : view E H b = .box a) : a = 9 := by
  have := comps h
  have h2 : ∀ b ∈ [16, 24, 32, 40, 48, 7, 9, 11], ∀ a, view E H b = .box a → a = 9 := by
    intro b hb a e
    simp only [List.mem_cons, List.not_mem_nil, or_false] at hb
    rcases hb with rfl | rfl | rfl | rfl | rfl | rfl | rfl | rfl <;> cases e
    rfl
  exact h2 b this a e

example := c62_write_partial fl okH okE 16 [8, 16, 24, 32, 40, 48] readable (fun o _ => dom_H o) (by decide) (by
  intro b a h e hc
  obtain rfl := boxes b a h e
  have : ∃ y, Edge H y 9 := by
    cases hc with
    | single h => exact ⟨_, h⟩
    | tail _ h => exact ⟨_, h⟩
  obtain ⟨_, ws, e, _⟩ := this
  cases e)
example := c62_shared_partial fl okH okE 16 [8, 16, 24, 32, 40, 48] readable (fun o _ => dom_H o) (by decide) (by
  intro b a h e hc
  obtain rfl := boxes b a h e
  exact (hc rfl).elim)
example : oportputcircular E H 50 16 = some "#0=(1 #(a \"b\" #&()) . #0#)".toList := by decide +kernel
example : ∀ k, read fl false (k + 60) "#0=(1 #(a \"b\" #&()) . #0#)\n".toList =
    some (.val (.ptr 4), [.str "b".toList, .box (.imm .null), .vec [.imm (.sym "a".toList), .ptr 0, .ptr 1], .pair (.ptr 2) (.ptr 4),
      .pair (.imm (.fix 1)) (.ptr 3)], ['\n']) := fun k => by kernel_rfl

theorem box_text (k : Nat) : oportputcircular E H (k + 60) 8 = some "#0=#&#0#".toList := by kernel_rfl
theorem box_read (k : Nat) : read fl false (k + 60) "#0=#&#0#\n".toList = some (.val (.ptr 0), [.box .void], ['\n']) := by kernel_rfl
theorem sym_text (k : Nat) : oportputcircular E H (k + 60) 13 = some "+.5".toList := by kernel_rfl
theorem sym_read (b : Bool) (ex : List Char → Option Int) (k : Nat) : read ⟨fun _ => b, ex⟩ false (k + 60) "+.5\n".toList =
    if b then some (.val (.flo "+.5".toList), [], ['\n']) else none := by
  cases b
  · kernel_rfl
  · kernel_rfl

end LabelsCase

open LabelsCase in
/-- **A box that contains itself is not read back**: it is written as `#0=#&#0#`, from which a box with a void object is made
(lib/libl.sf:3899: the content of a box is not replaced by the object of the label). -/
theorem c62_counterexample : ¬ C62Full := by
  intro hf
  obtain ⟨text, n0, h1, h2⟩ := hf fl E H 8 [8] okH okE
    (by
      intro o h
      have := comp_in (L := [8]) (by decide) (by decide) h
      simp only [List.mem_singleton] at this
      subst this
      trivial)
    (by
      intro o h _
      exact comp_in (L := [8]) (by decide) (by decide) h) (by decide)
  have e := h1 (n0 + 60) (by omega)
  rw [box_text] at e
  cases e
  obtain ⟨v, cells, f, m0, h3, h4⟩ := h2 ['\n'] ⟨_, _, rfl, by decide⟩
  have e := (box_read m0).symm.trans (h3 (m0 + 60) (by omega))
  cases e
  have := h4.cell 0 _ rfl
  have hr : f 0 = 8 := h4.root.2
  rw [hr] at this
  exact this

open LabelsCase in
/-- **A symbol is read back as a number**: the symbol `+.5` is written without bars (cleansymname, lib/libl.sf:3663-3670, accepts a sign
that is not followed by a digit).  This holds whether strtod accepts the text or not. -/
theorem c62_symbol_counterexample : (∀ k, oportputcircular E H (k + 60) 13 = some "+.5".toList) ∧
    ∀ b ex k, read ⟨fun _ => b, ex⟩ false (k + 60) ("+.5".toList ++ ['\n']) ≠ some (.val (.imm (.sym "+.5".toList)), [], ['\n']) := by
  refine ⟨sym_text, fun b ex k => ?_⟩
  rw [show "+.5".toList ++ ['\n'] = "+.5\n".toList from rfl, sym_read]
  split <;> simp

/-! ### line ends in strings -/

/-- white space inside a line -/
def blank (c : Char) : Prop := Num.isspace c = true ∧ c ≠ '\n'

theorem lineEnd_done : ∀ (bs r : List Char), (∀ c ∈ bs, blank c) → (∀ c r', r = c :: r' → ¬ blank c) → lineEnd (bs ++ r) true = some r := by
  intro bs
  induction bs with
  | nil =>
    intro r _ hr
    cases r with
    | nil => rfl
    | cons c r' =>
      have := hr c r' rfl
      simp only [List.nil_append, lineEnd]
      by_cases h1 : Num.isspace c = true
      · have h2 : c = '\n' := by
          by_contra h2; exact this ⟨h1, h2⟩
        simp [h1, h2]
      · simp [h1]
  | cons b bs ih =>
    intro r hb hr
    obtain ⟨h1, h2⟩ := hb b (by simp)
    simp only [List.cons_append, lineEnd, h1, h2]
    simpa using ih r (fun c hc => hb c (by simp [hc])) hr

theorem lineEnd_start : ∀ (as bs r : List Char), (∀ c ∈ as, blank c) → (∀ c ∈ bs, blank c) → (∀ c r', r = c :: r' → ¬ blank c) → lineEnd (as ++ '\n' :: (bs ++ r)) false = some r := by
  intro as
  induction as with
  | nil =>
    intro bs r _ hb hr
    simp only [List.nil_append, lineEnd]
    exact lineEnd_done bs r hb hr
  | cons a as ih =>
    intro bs r ha hb hr
    obtain ⟨h1, h2⟩ := ha a (by simp)
    simp only [List.cons_append, lineEnd, h1, h2]
    simpa using ih bs r (fun c hc => ha c (by simp [hc])) hb hr

/-- **C62, line ends in strings.**  In a string, a backslash, white space inside the line, one line end and the white space at the start of the
next line stand for nothing.  A second line end, and everything else, is kept. -/
theorem c62_string_line_end (n : Nat) (as bs r l : List Char) (ha : ∀ c ∈ as, blank c) (hb : ∀ c ∈ bs, blank c) (hr : ∀ c r', r = c :: r' → ¬ blank c) :
    quoted '"' (n + 1) ('\\' :: (as ++ '\n' :: (bs ++ r))) l = quoted '"' n r l := by
  have key : escape true (as ++ '\n' :: (bs ++ r)) = some (none, r) := by
    cases as with
    | nil =>
      have e := lineEnd_done bs r hb hr
      show (lineEnd (bs ++ r) true).map (fun r => ((none : Option Char), r)) = _
      rw [e]; rfl
    | cons a as =>
      obtain ⟨h1, h2⟩ := ha a (by simp)
      have hne : ∀ c, Num.isspace c = false → a ≠ c := fun c hc e => by rw [e, hc] at h1; cases h1
      have e := lineEnd_start as bs r (fun c hc => ha c (by simp [hc])) hb hr
      simp only [List.cons_append, escape, hne '\\' (by decide), hne '"' (by decide), hne '|' (by decide), hne 'a' (by decide), hne 'b' (by decide), hne 't' (by decide),
        hne 'n' (by decide), hne 'v' (by decide), hne 'f' (by decide), hne 'r' (by decide), hne 'x' (by decide), h1, h2, decide_false, Bool.or_self, Bool.false_eq_true, if_false,
        Bool.and_self, if_true, e, Option.map_some]
  rw [quoted]
  simp only [if_true, decide_true, key]

/-- `"a\  ⏎  b"` is the string `ab`; with two line ends, the second is kept. -/
example : quoted '"' 20 "a\\  \n  b\" c".toList [] = some ("ab".toList, " c".toList) ∧ quoted '"' 20 "a\\\n\nb\"".toList [] = some ("a\nb".toList, []) := by decide +kernel

/-- The escapes of one character in strings and symbols, R7RS 6.7, 7.1.1 (and `\\v`, `\\f` as in C). -/
def escapes : List (Char × Nat) := [('a', 7), ('b', 8), ('t', 9), ('n', 10), ('v', 11), ('f', 12), ('r', 13), ('"', 34), ('\\', 92), ('|', 124)]

/-- **C62, escapes.**  A backslash and one of these characters stand for the character with the given code. -/
theorem c62_escapes (q : Char) (n : Nat) (r l : List Char) (c : Char) (k : Nat) (h : (c, k) ∈ escapes) :
    quoted q (n + 1) ('\\' :: c :: r) l = quoted q n r (Char.ofNat k :: l) := by
  have key : ∀ b : Bool, escape b (c :: r) = some (some (Char.ofNat k), r) := by
    intro b
    simp only [escapes, List.mem_cons, List.not_mem_nil, or_false, Prod.mk.injEq] at h
    rcases h with ⟨rfl, rfl⟩ | ⟨rfl, rfl⟩ | ⟨rfl, rfl⟩ | ⟨rfl, rfl⟩ | ⟨rfl, rfl⟩ | ⟨rfl, rfl⟩ | ⟨rfl, rfl⟩ | ⟨rfl, rfl⟩ | ⟨rfl, rfl⟩ | ⟨rfl, rfl⟩ <;> rfl
  rw [quoted]
  simp only [if_true, key]

example : quoted '"' 9 "a\\tb\"".toList [] = some (['a', Char.ofNat 9, 'b'], []) := by decide +kernel

/-- the next token of the input `s` is `t`. -/
def Reads (fl : Flo) (simple : Bool) (s : St) (t : Tok) (s' : St) : Prop := ∃ n, subRead fl simple n s = some (t, s')

/-- Lists, as in the grammar of data (R7RS 7.1.2): data and then `close`, or, if `dots`, at least one datum, a dot, exactly one datum and `close`. -/
inductive ListText (fl : Flo) (simple : Bool) (close : Tok) (dots : Bool) : Bool → St → List V → V → St → Prop
  | stop {first : Bool} {s s' : St} : Reads fl simple s close s' → ListText fl simple close dots first s [] (.imm .null) s'
  | dot {s s1 s2 s' : St} {v : V} : dots = true → Reads fl simple s .dot s1 → Reads fl simple s1 (.val v) s2 → Reads fl simple s2 close s' →
      ListText fl simple close dots false s [] v s'
  | item {first : Bool} {s s1 s' : St} {v t : V} {vs : List V} : Reads fl simple s (.val v) s1 → ListText fl simple close dots false s1 vs t s' →
      ListText fl simple close dots first s (v :: vs) t s'

/-- **C62, lists.**  What the reader accepts after an opening parenthesis is a list of the grammar. -/
theorem c62_list_grammar (fl : Flo) (simple : Bool) (close : Tok) (dots : Bool) : ∀ (n : Nat) (first : Bool) (s s' : St) (vs : List V) (t : V),
    subReadList fl simple n close dots first s = some (vs, t, s') → ListText fl simple close dots first s vs t s' := by
  intro n
  induction n with
  | zero => intro first s s' vs t h; rw [subReadList] at h; cases h
  | succ n ih =>
    intro first s s' vs t h
    rw [subReadList] at h
    cases hr : subRead fl simple n s with
    | none => rw [hr] at h; cases h
    | some p =>
      obtain ⟨tok, s1⟩ := p
      rw [hr] at h
      have stop : (if tok = close then some (([] : List V), V.imm .null, s1) else none) = some (vs, t, s') → ListText fl simple close dots first s vs t s' := by
        intro h
        split at h
        · rename_i e
          simp only [Option.some.injEq, Prod.mk.injEq] at h
          obtain ⟨rfl, rfl, rfl⟩ := h
          exact .stop ⟨n, by rw [hr, e]⟩
        · cases h
      cases tok with
      | eof => cases h
      | val v =>
        simp only [Option.map_eq_some_iff] at h
        obtain ⟨⟨vs1, t1, s2⟩, h1, h2⟩ := h
        simp only [Prod.mk.injEq] at h2
        obtain ⟨rfl, rfl, rfl⟩ := h2
        exact .item ⟨n, hr⟩ (ih _ _ _ _ _ h1)
      | dot =>
        simp only at h
        split at h
        · cases h
        · rename_i hd
          simp only [Bool.or_eq_true, Bool.not_eq_true', not_or, Bool.not_eq_true, Bool.not_eq_false] at hd
          obtain ⟨rfl, hd⟩ := hd
          cases hr1 : subRead fl simple n s1 with
          | none => rw [hr1] at h; cases h
          | some p1 =>
            obtain ⟨tok1, s2⟩ := p1
            rw [hr1] at h
            cases tok1 with
            | val v =>
              simp only [careful] at h
              cases hr2 : subRead fl simple n s2 with
              | none => rw [hr2] at h; cases h
              | some p2 =>
                obtain ⟨tok2, s3⟩ := p2
                rw [hr2] at h
                simp only at h
                split at h
                · rename_i e
                  simp only [Option.some.injEq, Prod.mk.injEq] at h
                  obtain ⟨rfl, rfl, rfl⟩ := h
                  exact .dot hd ⟨n, hr⟩ ⟨n, hr1⟩ ⟨n, by rw [hr2, e]⟩
                · cases h
            | _ => cases h
      | _ => exact stop h

/-- `(a . b)` is accepted; `(a . b c)`, `(. b)` and `#(a . b)` are not. -/
example : (read LabelsCase.fl false 30 "(a . b)".toList).isSome = true ∧ (read LabelsCase.fl false 30 "(a . b c)".toList).isSome = false ∧
    (read LabelsCase.fl false 30 "(. b)".toList).isSome = false ∧ (read LabelsCase.fl false 30 "#(a . b)".toList).isSome = false := by decide +kernel

end Verif.Labels

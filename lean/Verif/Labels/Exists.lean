import Verif.Labels.Write
/-
The representations chosen by `write` and `write-shared` exist.
-/
namespace Verif.Labels
open Verif.Equal (Obj Heap Node)
open Verif.Stab (Tab Has Live Addr Edge Reach stabshared stabnew)

variable {F : Type} [DecidableEq F]

/-- what must hold of an object that can be written and read back -/
def Readable (E : Enc) (H : Heap F) (o : Obj) : Prop :=
  match view E H o with
  | .imm i => ImmOk i
  | .str s => '\x00' ∉ s
  | .bytes b => ∀ k ∈ b, k < 256
  | .other => False
  | _ => True

/-- `o` is `x` or a component of a component .. of `x` -/
def Comp (E : Enc) (H : Heap F) (x o : Obj) : Prop := Relation.ReflTransGen (fun c p => c ∈ (view E H p).kids) o x

/-- tags are no heap objects -/
structure Enc.Ok (E : Enc) (H : Heap F) : Prop where
  pair : H E.pairTag = none
  vec : H E.vecTag = none
  box : H E.boxTag = none

section
variable {E : Enc} {H : Heap F} {M : Obj → Prop}

theorem view_none {o : Obj} (h : H o = none) (hr : Readable E H o) : ∃ i, view E H o = .imm i ∧ ImmOk i := by
  unfold Readable at hr
  unfold view at hr ⊢
  rw [h] at hr ⊢
  cases e : E.imm o with
  | none => simp [e] at hr
  | some i => simp only [e] at hr; exact ⟨i, by simp, hr⟩

theorem view_heap (hE : E.Ok H) {o : Obj} (h : H o ≠ none) (hr : Readable E H o) :
    ((∀ ws, H o ≠ some (.blk ws)) ∧ (view E H o).kids = []) ∨ ∃ tag, H o = some (.blk (tag :: (view E H o).kids)) ∧ H tag = none := by
  unfold Readable at hr
  unfold view at hr ⊢
  cases e : H o with
  | none => exact (h e).elim
  | some nd =>
    rw [e] at hr
    cases nd with
    | flo => simp at hr
    | native => simp at hr
    | str s => exact .inl ⟨by simp, rfl⟩
    | bytes s => exact .inl ⟨by simp, rfl⟩
    | blk ws =>
      cases ws with
      | nil => simp at hr
      | cons t ws =>
        right
        refine ⟨t, ?_⟩
        simp only at hr ⊢
        by_cases h1 : t = E.pairTag
        · simp only [if_pos h1] at hr ⊢
          rcases ws with _ | ⟨a, _ | ⟨d, _ | ⟨c, ws⟩⟩⟩
          · exact hr.elim
          · exact hr.elim
          · exact ⟨rfl, by rw [h1]; exact hE.pair⟩
          · exact hr.elim
        · simp only [if_neg h1] at hr ⊢
          by_cases h2 : t = E.vecTag
          · simp only [if_pos h2] at hr ⊢
            exact ⟨rfl, by rw [h2]; exact hE.vec⟩
          · simp only [if_neg h2] at hr ⊢
            by_cases h3 : t = E.boxTag
            · simp only [if_pos h3] at hr ⊢
              rcases ws with _ | ⟨a, _ | ⟨d, ws⟩⟩
              · exact hr.elim
              · exact ⟨rfl, by rw [h3]; exact hE.box⟩
              · exact hr.elim
            · simp only [if_neg h3] at hr

theorem kids_edge (hE : E.Ok H) {o c : Obj} (hr : Readable E H o) (hc : c ∈ (view E H o).kids) : Edge H c o := by
  by_cases h : H o = none
  · obtain ⟨i, e, _⟩ := view_none h hr
    rw [e] at hc
    simp [View.kids] at hc
  · rcases view_heap hE h hr with ⟨_, e⟩ | ⟨t, e, _⟩
    · rw [e] at hc
      simp at hc
    · exact ⟨_, e, by simp [hc]⟩

theorem kids_heap {p q : Obj} (h : q ∈ (view E H p).kids) : H p ≠ none := by
  intro e
  unfold view at h
  rw [e] at h
  cases e2 : E.imm p <;> simp [e2, View.kids] at h

/-- the representation of an object from those of its components -/
theorem body_exists {o : Obj} (h : H o ≠ none) (hr : Readable E H o) {ds : DS} {S S' X : List Obj} (hW : Ws E H M ds S (view E H o).kids S' X)
    (hbox : ∀ a, view E H o = .box a → ∀ d ds', ds = .cons d ds' → ∀ k, d ≠ .ref k) {b : Bool} (hb : b = true ∨ ¬ M o) :
    ∃ d, W E H M d b S o S' (X ++ [o]) ∧ ∀ k, d ≠ .ref k := by
  unfold Readable at hr
  have nil : ∀ {S S' X}, Ws E H M ds S [] S' X → S' = S ∧ X = [] := by
    intro S S' X hW
    cases ds with
    | nil => rw [Ws] at hW; exact hW.2
    | cons d ds => rw [Ws] at hW; obtain ⟨w, r, _, _, _, e, _⟩ := hW; simp at e
  cases e : view E H o with
  | imm i => exact (h (view_imm e)).elim
  | other => simp [e] at hr
  | str s =>
    rw [e] at hW hr
    obtain ⟨rfl, rfl⟩ := nil hW
    exact ⟨.str s, by rw [W]; exact ⟨hb, e, rfl, rfl, hr⟩, by simp⟩
  | bytes s =>
    rw [e] at hW hr
    obtain ⟨rfl, rfl⟩ := nil hW
    exact ⟨.bytes s, by rw [W]; exact ⟨hb, e, rfl, rfl, hr⟩, by simp⟩
  | vec ws =>
    rw [e] at hW
    exact ⟨.vec ds, by rw [W]; exact ⟨hb, ws, X, e, hW, rfl⟩, by simp⟩
  | pair a d =>
    rw [e] at hW
    simp only [View.kids] at hW
    cases ds with
    | nil => rw [Ws] at hW; simp at hW
    | cons d1 ds =>
      rw [Ws] at hW
      obtain ⟨w, r, S1, X1, X2, e1, hW1, hW2, rfl⟩ := hW
      simp only [List.cons.injEq] at e1
      obtain ⟨rfl, rfl⟩ := e1
      cases ds with
      | nil => rw [Ws] at hW2; simp at hW2
      | cons d2 ds =>
        rw [Ws] at hW2
        obtain ⟨w2, r2, S2, X3, X4, e2, hW3, hW4, rfl⟩ := hW2
        simp only [List.cons.injEq] at e2
        obtain ⟨rfl, rfl⟩ := e2
        cases ds with
        | cons => rw [Ws] at hW4; obtain ⟨_, _, _, _, _, e3, _⟩ := hW4; simp at e3
        | nil =>
          rw [Ws] at hW4
          obtain ⟨_, rfl, rfl⟩ := hW4
          exact ⟨.pair d1 d2, by rw [W]; exact ⟨hb, a, d, S1, X1, X3, e, hW1, hW3, by simp⟩, by simp⟩
  | box a =>
    rw [e] at hW
    simp only [View.kids] at hW
    cases ds with
    | nil => rw [Ws] at hW; simp at hW
    | cons d1 ds =>
      have hnr := hbox a e d1 ds rfl
      rw [Ws] at hW
      obtain ⟨w, r, S1, X1, X2, e1, hW1, hW2, rfl⟩ := hW
      simp only [List.cons.injEq] at e1
      obtain ⟨rfl, rfl⟩ := e1
      cases ds with
      | cons => rw [Ws] at hW2; obtain ⟨_, _, _, _, _, e3, _⟩ := hW2; simp at e3
      | nil =>
        rw [Ws] at hW2
        obtain ⟨_, rfl, rfl⟩ := hW2
        exact ⟨.box d1, by rw [W]; exact ⟨hb, a, X1, e, hW1, hnr, by simp⟩, by simp⟩

/-! ## write -/

open Classical in
/-- labels not yet written -/
noncomputable def left (dom S : List Obj) : Nat := (dom.filter fun o => o ∉ S).length

theorem left_le {dom S S' : List Obj} (h : S ⊆ S') : left dom S' ≤ left dom S := by
  unfold left
  induction dom with
  | nil => simp
  | cons a l ih =>
    by_cases h1 : a ∈ S
    · simpa [h1, h h1] using ih
    · by_cases h2 : a ∈ S'
      · simp only [List.filter_cons, h1, h2, not_true_eq_false, not_false_eq_true, decide_true, decide_false, if_true,
          Bool.false_eq_true, if_false, List.length_cons]
        omega
      · simpa [h1, h2] using ih

theorem left_lt {dom S : List Obj} {o : Obj} (ho : o ∈ dom) (h : o ∉ S) : left dom (o :: S) < left dom S := by
  have hle : ∀ l : List Obj, left l (o :: S) ≤ left l S := fun l => left_le (List.subset_cons_self o S)
  unfold left at hle ⊢
  induction dom with
  | nil => simp at ho
  | cons a l ih =>
    by_cases hao : a = o
    · subst hao
      have := hle l
      simp only [List.filter_cons, h, List.mem_cons, true_or, not_true_eq_false, not_false_eq_true, decide_true, decide_false, if_true,
        Bool.false_eq_true, if_false, List.length_cons] at this ⊢
      omega
    · have := ih (by simpa [Ne.symm hao] using ho)
      by_cases h1 : a ∈ S
      · simpa [h1, hao] using this
      · simpa [h1, hao] using this

theorem list_exists {dom : List Obj} {k : Nat} : ∀ (ws : List Obj),
    (∀ w ∈ ws, ∀ S, left dom S ≤ k → ∃ d S' X, W E H M d false S w S' X) →
    ∀ S, left dom S ≤ k → ∃ ds S' X, Ws E H M ds S ws S' X := by
  intro ws
  induction ws with
  | nil => intro _ S _; exact ⟨.nil, S, [], by rw [Ws]; exact ⟨rfl, rfl, rfl⟩⟩
  | cons w ws ih =>
    intro hw S hS
    obtain ⟨d, S1, X1, h1⟩ := hw w (by simp) S hS
    obtain ⟨ds, S2, X2, h2⟩ := ih (fun q hq => hw q (by simp [hq])) S1 (le_trans (left_le (W.suffix h1).subset) hS)
    exact ⟨.cons d ds, S2, X1 ++ X2, by rw [Ws]; exact ⟨w, ws, S1, X1, X2, rfl, h1, h2, rfl⟩⟩

theorem circ_exists (hE : E.Ok H) {x : Obj} {dom : List Obj} (hread : ∀ o, Comp E H x o → Readable E H o)
    (hheap : ∀ o, M o → H o ≠ none) (hdom : ∀ o, Comp E H x o → M o → o ∈ dom)
    (hacc : ∀ o, Comp E H x o → Acc (fun y z => Edge H y z ∧ ¬ M z) o)
    (hbox : ∀ b a, Comp E H x b → view E H b = .box a → ¬ M a) : ∀ k o, Acc (fun y z => Edge H y z ∧ ¬ M z) o → Comp E H x o →
    ∀ S, left dom S ≤ k → ∃ d S' X, W E H M d false S o S' X := by
  classical
  intro k
  induction k using Nat.strong_induction_on with
  | _ k ihk =>
    intro o ha
    induction ha with
    | intro o _ ih =>
      intro hx S hS
      have hkid : ∀ c ∈ (view E H o).kids, Comp E H x c := fun c hc => Relation.ReflTransGen.head hc hx
      have hnr : ∀ {ds : DS} {S S' X : List Obj}, Ws E H M ds S (view E H o).kids S' X → ∀ a, view E H o = .box a →
          ∀ d ds', ds = .cons d ds' → ∀ k, d ≠ .ref k := by
        rintro ds S S' X hW a e d ds' rfl q rfl
        rw [e, Ws] at hW
        obtain ⟨w, r, S1, X1, X2, e1, hW1, _⟩ := hW
        simp only [View.kids, List.cons.injEq] at e1
        rw [W] at hW1
        exact hbox o a hx e (by rw [e1.1]; exact hW1.2.2.1)
      by_cases hH : H o = none
      · obtain ⟨i, e, hi⟩ := view_none hH (hread o hx)
        exact ⟨.imm i, S, [], by rw [W]; exact ⟨rfl, e, rfl, rfl, hi⟩⟩
      · by_cases hM : M o
        · by_cases hS' : o ∈ S
          · exact ⟨.ref o, S, [], by rw [W]; exact ⟨rfl, rfl, hM, hS', rfl, rfl⟩⟩
          · have hlt := left_lt (hdom o hx hM) hS'
            obtain ⟨ds, S', X, hW⟩ := list_exists (k := left dom (o :: S)) (view E H o).kids (fun w hw S1 h1 =>
              ihk (left dom (o :: S)) (by omega) w (hacc w (hkid w hw)) (hkid w hw) S1 h1) (o :: S) (le_refl _)
            obtain ⟨d, hd, _⟩ := body_exists hH (hread o hx) hW (hnr hW) (.inl rfl)
            exact ⟨.lab o d, S', _, by rw [W]; exact ⟨rfl, rfl, hM, hS', hd⟩⟩
        · obtain ⟨ds, S', X, hW⟩ := list_exists (k := k) (view E H o).kids (fun w hw S1 h1 =>
            ih w ⟨kids_edge hE (hread o hx) hw, hM⟩ (hkid w hw) S1 h1) S hS
          obtain ⟨d, hd, _⟩ := body_exists hH (hread o hx) hW (hnr hW) (.inr hM)
          exact ⟨d, S', _, hd⟩

/-! ## write-shared -/

/-- the table keeps objects and marks -/
theorem shared_mono (hok : Stab.Heap.Ok H) : ∀ n o t t', Stab.Inv t → stabshared H n o t = some t' →
    Stab.Inv t' ∧ ∀ q, Addr q → (Has t q true → Has t' q true) ∧ (Live t q → Live t' q) := by
  intro n
  induction n with
  | zero => intro o t t' _ h; simp [stabshared] at h
  | succ n ih =>
    intro o t t' hI h
    have fold : ∀ (ws : List Obj) (t t' : Tab), Stab.Inv t → ws.foldlM (fun t w => stabshared H n w t) t = some t' →
        Stab.Inv t' ∧ ∀ q, Addr q → (Has t q true → Has t' q true) ∧ (Live t q → Live t' q) := by
      intro ws
      induction ws with
      | nil =>
        intro t t' hI h
        simp only [List.foldlM_nil, Option.pure_def, Option.some.injEq] at h
        subst h
        exact ⟨hI, fun _ _ => ⟨id, id⟩⟩
      | cons w ws ih2 =>
        intro t t' hI h
        rw [List.foldlM_cons] at h
        cases e : stabshared H n w t with
        | none => simp [e] at h
        | some t1 =>
          rw [e] at h
          obtain ⟨h1, h2⟩ := ih w t t1 hI e
          obtain ⟨h3, h4⟩ := ih2 t1 t' h1 h
          exact ⟨h3, fun q hq => ⟨fun h => (h4 q hq).1 ((h2 q hq).1 h), fun h => (h4 q hq).2 ((h2 q hq).2 h)⟩⟩
    rw [stabshared] at h
    by_cases hH : H o = none
    · simp only [stabnew, hH, if_true, Option.bind_eq_bind, Option.bind_some, Bool.false_eq_true, if_false, Option.some.injEq] at h
      subst h
      exact ⟨hI, fun _ _ => ⟨id, id⟩⟩
    · have ho : Addr o := hok.addr o hH
      obtain ⟨b, t1, en, hnew⟩ := Stab.stabnew_spec (H := H) (circ := false) hI ho hH (by simp)
      simp only [en, Option.bind_eq_bind, Option.bind_some] at h
      cases hnew with
      | @mark _ m0 hI1 hm0 hmk =>
        simp only [Bool.false_eq_true, if_false, Option.some.injEq] at h
        subst h
        refine ⟨hI1, fun q hq => ⟨fun h => ?_, ?_⟩⟩
        · by_cases hqo : q = o
          · exact (hmk q hq true).2 (.inr ⟨hqo, rfl⟩)
          · exact (hmk q hq true).2 (.inl ⟨hqo, h⟩)
        · rintro ⟨m, h⟩
          by_cases hqo : q = o
          · exact ⟨true, (hmk q hq true).2 (.inr ⟨hqo, rfl⟩)⟩
          · exact ⟨m, (hmk q hq m).2 (.inl ⟨hqo, h⟩)⟩
      | add hI1 habs hadd =>
        have h1 : ∀ q, Addr q → (Has t q true → Has t1 q true) ∧ (Live t q → Live t1 q) :=
          fun q hq => ⟨fun h => (hadd q hq true).2 (.inl h), fun ⟨m, h⟩ => ⟨m, (hadd q hq m).2 (.inl h)⟩⟩
        simp only [if_true] at h
        cases e : H o with
        | none => exact (hH e).elim
        | some nd =>
          rw [e] at h
          cases nd with
          | blk ws =>
            obtain ⟨h3, h4⟩ := fold ws t1 t' hI1 h
            exact ⟨h3, fun q hq => ⟨fun h => (h4 q hq).1 ((h1 q hq).1 h), fun h => (h4 q hq).2 ((h1 q hq).2 h)⟩⟩
          | _ =>
            simp only [Option.some.injEq] at h
            subst h
            exact ⟨hI1, h1⟩

/-- the labels written are the marked objects met so far -/
def SI (H : Heap F) (M : Obj → Prop) (t : Tab) (S : List Obj) : Prop := ∀ q, H q ≠ none → (q ∈ S ↔ Live t q ∧ M q)

/-- objects in the table have been met in an object of the table -/
def Met (E : Enc) (H : Heap F) (x : Obj) (t : Tab) (q : Obj) : Prop := q = x ∨ ∃ p, Comp E H x p ∧ Live t p ∧ q ∈ (view E H p).kids

/-- what is known after a call of stabshared -/
structure Lock (E : Enc) (H : Heap F) (M : Obj → Prop) (x : Obj) (t t' : Tab) (S' X : List Obj) : Prop where
  si : SI H M t' S'
  met : ∀ q, H q ≠ none → Live t' q → Met E H x t' q
  nodup : X.Nodup
  fresh : ∀ q ∈ X, H q ≠ none ∧ ¬ Live t q ∧ Live t' q

theorem lock_fold {x : Obj} (hok : Stab.Heap.Ok H) {n : Nat}
    (ih : ∀ o t t' S, Stab.Inv t → stabshared H n o t = some t' → Comp E H x o → (∀ q, H q ≠ none → Live t q → Met E H x t q) →
      (H o ≠ none → Met E H x t o) → SI H M t S → (∀ q, H q ≠ none → Has t' q true → M q) →
      ∃ d S' X, W E H M d false S o S' X ∧ Lock E H M x t t' S' X ∧ ∀ k, d = .ref k → Live t o) :
    ∀ (ws : List Obj) (t t' : Tab) (S : List Obj), Stab.Inv t → ws.foldlM (fun t w => stabshared H n w t) t = some t' →
      (∀ w ∈ ws, Comp E H x w ∧ (H w ≠ none → Met E H x t w)) → (∀ q, H q ≠ none → Live t q → Met E H x t q) → SI H M t S →
      (∀ q, H q ≠ none → Has t' q true → M q) →
      ∃ ds S' X, Ws E H M ds S ws S' X ∧ Lock E H M x t t' S' X ∧
        ∀ d ds', ds = .cons d ds' → ∀ k, d = .ref k → ∃ w r, ws = w :: r ∧ Live t w := by
  intro ws
  induction ws with
  | nil =>
    intro t t' S hI h _ hmet hsi _
    simp only [List.foldlM_nil, Option.pure_def, Option.some.injEq] at h
    subst h
    exact ⟨.nil, S, [], by rw [Ws]; exact ⟨rfl, rfl, rfl⟩, ⟨hsi, hmet, List.nodup_nil, by simp⟩, by simp⟩
  | cons w ws ih2 =>
    intro t t' S hI h hw hmet hsi hM
    rw [List.foldlM_cons] at h
    cases e : stabshared H n w t with
    | none => simp [e] at h
    | some t1 =>
      rw [e] at h
      have hfold : ∀ (ws : List Obj) (t t' : Tab), Stab.Inv t → ws.foldlM (fun t w => stabshared H n w t) t = some t' →
          ∀ q, Addr q → (Has t q true → Has t' q true) ∧ (Live t q → Live t' q) := by
        intro ws
        induction ws with
        | nil =>
          intro t t' hI h
          simp only [List.foldlM_nil, Option.pure_def, Option.some.injEq] at h
          subst h
          exact fun _ _ => ⟨id, id⟩
        | cons w ws ih3 =>
          intro t t' hI h
          rw [List.foldlM_cons] at h
          cases e : stabshared H n w t with
          | none => simp [e] at h
          | some t1 =>
            rw [e] at h
            obtain ⟨h1, h2⟩ := shared_mono hok n w t t1 hI e
            have h4 := ih3 t1 t' h1 h
            exact fun q hq => ⟨fun h => (h4 q hq).1 ((h2 q hq).1 h), fun h => (h4 q hq).2 ((h2 q hq).2 h)⟩
      obtain ⟨hI1, hmono⟩ := shared_mono hok n w t t1 hI e
      have hmono2 := hfold ws t1 t' hI1 h
      obtain ⟨d, S1, X1, hW1, l1, hr1⟩ := ih w t t1 S hI e (hw w (by simp)).1 hmet (hw w (by simp)).2 hsi
        fun q hq hm => hM q hq ((hmono2 q (hok.addr q hq)).1 hm)
      have hmet1 : ∀ q, Met E H x t q → Met E H x t1 q := by
        rintro q (h | ⟨p, h1, h2, h3⟩)
        · exact .inl h
        · have hp := kids_heap h3
          exact .inr ⟨p, h1, (hmono p (hok.addr p hp)).2 h2, h3⟩
      obtain ⟨ds, S2, X2, hW2, l2, _⟩ := ih2 t1 t' S1 hI1 h (fun q hq => ⟨(hw q (by simp [hq])).1, fun hn => hmet1 q ((hw q (by simp [hq])).2 hn)⟩)
        l1.met l1.si hM
      refine ⟨.cons d ds, S2, X1 ++ X2, by rw [Ws]; exact ⟨w, ws, S1, X1, X2, rfl, hW1, hW2, rfl⟩, ⟨l2.si, l2.met, ?_, ?_⟩, ?_⟩
      · rw [List.nodup_append]
        refine ⟨l1.nodup, l2.nodup, ?_⟩
        rintro a ha b hb rfl
        exact (l2.fresh a hb).2.1 (l1.fresh a ha).2.2
      · intro q hq
        rcases List.mem_append.1 hq with hq | hq
        · obtain ⟨h1, h2, h3⟩ := l1.fresh q hq
          exact ⟨h1, h2, (hmono2 q (hok.addr q h1)).2 h3⟩
        · obtain ⟨h1, h2, h3⟩ := l2.fresh q hq
          exact ⟨h1, fun h => h2 ((hmono q (hok.addr q h1)).2 h), h3⟩
      · intro d' ds' e' k hk
        simp only [DS.cons.injEq] at e'
        rw [← e'.1] at hk
        exact ⟨w, ws, rfl, hr1 k hk⟩

theorem lock_step {x : Obj} (hok : Stab.Heap.Ok H) (hE : E.Ok H) (hread : ∀ o, Comp E H x o → Readable E H o)
    (hheap : ∀ o, M o → H o ≠ none)
    (hbox : ∀ b a, Comp E H x b → view E H b = .box a → H a ≠ none → a ≠ x ∧ ∀ p, Comp E H x p → a ∈ (view E H p).kids → p = b) :
    ∀ n o t t' S, Stab.Inv t → stabshared H n o t = some t' → Comp E H x o → (∀ q, H q ≠ none → Live t q → Met E H x t q) →
      (H o ≠ none → Met E H x t o) → SI H M t S → (∀ q, H q ≠ none → Has t' q true → M q) →
      ∃ d S' X, W E H M d false S o S' X ∧ Lock E H M x t t' S' X ∧ ∀ k, d = .ref k → Live t o := by
  classical
  intro n
  induction n with
  | zero => intro o t t' S _ h; simp [stabshared] at h
  | succ n ih =>
    intro o t t' S hI h hx hmet hmo hsi hM
    rw [stabshared] at h
    by_cases hH : H o = none
    · simp only [stabnew, hH, if_true, Option.bind_eq_bind, Option.bind_some, Bool.false_eq_true, if_false, Option.some.injEq] at h
      subst h
      obtain ⟨i, e, hi⟩ := view_none hH (hread o hx)
      exact ⟨.imm i, S, [], by rw [W]; exact ⟨rfl, e, rfl, rfl, hi⟩, ⟨hsi, hmet, List.nodup_nil, by simp⟩, by simp⟩
    · have ho : Addr o := hok.addr o hH
      obtain ⟨b, t1, en, hnew⟩ := Stab.stabnew_spec (H := H) (circ := false) hI ho hH (by simp)
      simp only [en, Option.bind_eq_bind, Option.bind_some] at h
      cases hnew with
      | @mark _ m0 hI1 hm0 hmk =>
        simp only [Bool.false_eq_true, if_false, Option.some.injEq] at h
        subst h
        have hiff : ∀ q, Addr q → (Live t1 q ↔ Live t q) := by
          intro q hq
          constructor
          · rintro ⟨m, h⟩
            rcases (hmk q hq m).1 h with h | h
            · exact ⟨m, h.2⟩
            · exact ⟨m0, by rw [h.1]; exact hm0⟩
          · rintro ⟨m, h⟩
            by_cases hqo : q = o
            · exact ⟨true, (hmk q hq true).2 (.inr ⟨hqo, rfl⟩)⟩
            · exact ⟨m, (hmk q hq m).2 (.inl ⟨hqo, h⟩)⟩
        have hMo : M o := hM o hH ((hmk o ho true).2 (.inr ⟨rfl, rfl⟩))
        have hlo : Live t o := ⟨m0, hm0⟩
        refine ⟨.ref o, S, [], by rw [W]; exact ⟨rfl, rfl, hMo, (hsi o hH).2 ⟨hlo, hMo⟩, rfl, rfl⟩, ⟨?_, ?_, List.nodup_nil, by simp⟩, fun _ _ => hlo⟩
        · intro q hq
          rw [hsi q hq, hiff q (hok.addr q hq)]
        · intro q hq hl
          rcases hmet q hq ((hiff q (hok.addr q hq)).1 hl) with h | ⟨p, h1, h2, h3⟩
          · exact .inl h
          · have hp := kids_heap h3
            exact .inr ⟨p, h1, (hiff p (hok.addr p hp)).2 h2, h3⟩
      | add hI1 habs hadd =>
        have hno : ¬ Live t o := fun ⟨m, h⟩ => habs m h
        have hiff : ∀ q, Addr q → (Live t1 q ↔ (Live t q ∨ q = o)) := by
          intro q hq
          constructor
          · rintro ⟨m, h⟩
            rcases (hadd q hq m).1 h with h | h
            · exact .inl ⟨m, h⟩
            · exact .inr h.1
          · rintro (⟨m, h⟩ | h)
            · exact ⟨m, (hadd q hq m).2 (.inl h)⟩
            · exact ⟨false, (hadd q hq false).2 (.inr ⟨h, rfl⟩)⟩
        have hlo1 : Live t1 o := (hiff o ho).2 (.inr rfl)
        have hmet1 : ∀ q, Met E H x t q → Met E H x t1 q := by
          rintro q (h | ⟨p, h1, h2, h3⟩)
          · exact .inl h
          · have hp := kids_heap h3
            exact .inr ⟨p, h1, (hiff p (hok.addr p hp)).2 (.inl h2), h3⟩
        have hmetA : ∀ q, H q ≠ none → Live t1 q → Met E H x t1 q := by
          intro q hq hl
          rcases (hiff q (hok.addr q hq)).1 hl with h | h
          · exact hmet1 q (hmet q hq h)
          · rw [h]; exact hmet1 o (hmo hH)
        let S1 := if M o then o :: S else S
        have hsi1 : SI H M t1 S1 := by
          intro q hq
          rw [hiff q (hok.addr q hq)]
          by_cases hMo : M o
          · simp only [S1, if_pos hMo, List.mem_cons, hsi q hq]
            constructor
            · rintro (h | h)
              · exact ⟨.inr h, by rw [h]; exact hMo⟩
              · exact ⟨.inl h.1, h.2⟩
            · rintro ⟨h | h, h2⟩
              · exact .inr ⟨h, h2⟩
              · exact .inl h
          · simp only [S1, if_neg hMo, hsi q hq]
            constructor
            · rintro h; exact ⟨.inl h.1, h.2⟩
            · rintro ⟨h | h, h2⟩
              · exact ⟨h, h2⟩
              · exact (hMo (by rw [← h]; exact h2)).elim
        -- the components
        have hkids : Stab.Inv t' ∧ ∃ ds S' X, Ws E H M ds S1 (view E H o).kids S' X ∧ Lock E H M x t1 t' S' X ∧
            ∀ d ds', ds = .cons d ds' → ∀ k, d = .ref k → ∃ w r, (view E H o).kids = w :: r ∧ Live t1 w := by
          simp only [if_true] at h
          rcases view_heap hE hH (hread o hx) with ⟨e1, e2⟩ | ⟨tag, e1, e2⟩
          · have : t1 = t' := by
              cases e : H o with
              | none => exact (hH e).elim
              | some nd =>
                rw [e] at h
                cases nd with
                | blk ws => exact (e1 ws e).elim
                | _ => simpa using h
            subst this
            rw [e2]
            exact ⟨hI1, .nil, S1, [], by rw [Ws]; exact ⟨rfl, rfl, rfl⟩, ⟨hsi1, hmetA, List.nodup_nil, by simp⟩, by simp⟩
          · rw [e1] at h
            simp only [List.foldlM_cons] at h
            have htag : stabshared H n tag t1 = some t1 ∨ stabshared H n tag t1 = none := by
              cases n with
              | zero => right; rfl
              | succ n => left; simp [stabshared, stabnew, e2]
            rcases htag with htag | htag
            · rw [htag] at h
              refine ⟨?_, lock_fold hok ih _ t1 t' S1 hI1 h ?_ hmetA hsi1 hM⟩
              · have : ∀ (ws : List Obj) (t t' : Tab), Stab.Inv t → ws.foldlM (fun t w => stabshared H n w t) t = some t' → Stab.Inv t' := by
                  intro ws
                  induction ws with
                  | nil =>
                    intro t t' hI h
                    simp only [List.foldlM_nil, Option.pure_def, Option.some.injEq] at h
                    subst h
                    exact hI
                  | cons w ws ih3 =>
                    intro t t' hI h
                    rw [List.foldlM_cons] at h
                    cases e : stabshared H n w t with
                    | none => simp [e] at h
                    | some t1 =>
                      rw [e] at h
                      exact ih3 t1 t' (shared_mono hok n w t t1 hI e).1 h
                exact this _ t1 t' hI1 h
              · intro w hw
                exact ⟨Relation.ReflTransGen.head hw hx, fun _ => .inr ⟨o, hx, hlo1, hw⟩⟩
            · rw [htag] at h; simp at h
        obtain ⟨hI', ds, S', X, hW, lk, hr⟩ := hkids
        have hnr : ∀ a, view E H o = .box a → ∀ d ds', ds = .cons d ds' → ∀ k, d ≠ .ref k := by
          rintro a ev d ds' rfl k rfl
          obtain ⟨w, r, e1, hl⟩ := hr _ _ rfl k rfl
          rw [ev] at e1
          simp only [View.kids, List.cons.injEq] at e1
          obtain ⟨rfl, _⟩ := e1
          have hMa : M a := by
            rw [ev, Ws] at hW
            obtain ⟨w, r, S1, X1, X2, e1, hW1, _⟩ := hW
            simp only [View.kids, List.cons.injEq] at e1
            rw [W] at hW1
            rw [e1.1]
            exact hW1.2.2.1
          have hHa := hheap a hMa
          obtain ⟨hax, hpar⟩ := hbox o a hx ev hHa
          have hm : Met E H x t a := by
            rcases (hiff a (hok.addr a hHa)).1 hl with h | h
            · exact hmet a hHa h
            · rw [h]; exact hmo hH
          rcases hm with h | ⟨p, h1, h2, h3⟩
          · exact hax h
          · rw [hpar p h1 h3] at h2
            exact hno h2
        have hfin : ∀ q, H q ≠ none → (Live t1 q → Live t' q) := by
          intro q hq hl
          simp only [if_true] at h
          have := (shared_mono hok (n + 1) o t t' hI (by rw [stabshared]; simp only [en, Option.bind_eq_bind, Option.bind_some, if_true]; exact h)).2 q
            (hok.addr q hq)
          rcases (hiff q (hok.addr q hq)).1 hl with h5 | h5
          · exact this.2 h5
          · subst h5
            -- the new object stays
            cases e : H q with
            | none => exact (hq e).elim
            | some nd =>
              rw [e] at h
              cases nd with
              | blk ws =>
                have : ∀ (ws : List Obj) (t t' : Tab), Stab.Inv t → ws.foldlM (fun t w => stabshared H n w t) t = some t' → Live t q → Live t' q := by
                  intro ws
                  induction ws with
                  | nil =>
                    intro t t' hI h
                    simp only [List.foldlM_nil, Option.pure_def, Option.some.injEq] at h
                    subst h
                    exact id
                  | cons w ws ih3 =>
                    intro t t' hI h hl
                    rw [List.foldlM_cons] at h
                    cases e : stabshared H n w t with
                    | none => simp [e] at h
                    | some t1 =>
                      rw [e] at h
                      have := shared_mono hok n w t t1 hI e
                      exact ih3 t1 t' this.1 h ((this.2 q (hok.addr q hq)).2 hl)
                exact this _ t1 t' hI1 h hl
              | _ => simp only [Option.some.injEq] at h; rw [← h]; exact hl
        have hlk : Lock E H M x t t' S' (X ++ [o]) := by
          refine ⟨lk.si, lk.met, ?_, ?_⟩
          · rw [List.nodup_append]
            refine ⟨lk.nodup, by simp, ?_⟩
            rintro a ha b hb rfl
            simp only [List.mem_singleton] at hb
            subst hb
            exact (lk.fresh a ha).2.1 hlo1
          · intro q hq
            rcases List.mem_append.1 hq with hq | hq
            · obtain ⟨h1, h2, h3⟩ := lk.fresh q hq
              exact ⟨h1, fun h => h2 ((hiff q (hok.addr q h1)).2 (.inl h)), h3⟩
            · simp only [List.mem_singleton] at hq
              subst hq
              exact ⟨hH, hno, hfin q hH hlo1⟩
        by_cases hMo : M o
        · have hS1 : S1 = o :: S := if_pos hMo
          rw [hS1] at hW
          obtain ⟨d, hd, _⟩ := body_exists hH (hread o hx) hW hnr (.inl rfl)
          exact ⟨.lab o d, S', _, by rw [W]; exact ⟨rfl, rfl, hMo, fun h => hno ((hsi o hH).1 h).1, hd⟩, hlk, by simp⟩
        · have hS1 : S1 = S := if_neg hMo
          rw [hS1] at hW
          obtain ⟨d, hd, hnr'⟩ := body_exists hH (hread o hx) hW hnr (b := false) (.inr hMo)
          exact ⟨d, S', _, hd, hlk, fun k e => (hnr' k e).elim⟩

end

end Verif.Labels

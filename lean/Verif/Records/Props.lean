import Verif.Records.Sim

/-
C70: records.
-/
namespace Verif.Records

open Spec (Field Ty Obj)

/-- C70, full statement: a program with well-formed declarations that is right about the types of its records gets the results it would get from
abstract records. -/
def C70Full : Prop :=
  ∀ (p : List (Op Ty)) (vs : List Val) (s : Spec.St), Spec.Decls Ty.Wf p → Spec.run ⟨[], []⟩ p = some (vs, s) →
    (run ⟨[], []⟩ (p.map Spec.printOp)).map (·.1) = some vs

/-- Holds if no constructor has a parameter of the same name as the type. -/
theorem c70_records_partial (p : List (Op Ty)) (vs : List Val) (s : Spec.St)
    (hd : Spec.Decls (fun t => t.Wf ∧ t.rtn ∉ t.ids) p) (hs : Spec.run ⟨[], []⟩ p = some (vs, s)) :
    (run ⟨[], []⟩ (p.map Spec.printOp)).map (·.1) = some vs := by
  obtain ⟨c, -, h, -⟩ := sim_run p R.start hd hs
  rw [h]; rfl

/-- `(define-record-type point (make-point y x) point? (x point-x set-x!) (y point-y) (z point-z set-z!))` -/
def point : Ty := ⟨0, 1, [11, 10], 2, [⟨10, 3, some 6⟩, ⟨11, 4, none⟩, ⟨12, 5, some 7⟩]⟩

/-- two types from one declaration, records of both, an assignment, a pair. -/
def pointProg : List (Op Ty) :=
  [.declare point, .declare point, .call 0 1 [.imm 100, .imm 200], .call 1 1 [.imm 5, .ptr 2], .tagged 3 [.ptr 2, .ptr 3],
   .call 0 2 [.ptr 2], .call 0 2 [.ptr 3], .call 1 2 [.ptr 3], .call 0 2 [.ptr 4], .call 0 3 [.ptr 2], .call 0 4 [.ptr 2],
   .call 0 5 [.ptr 2], .call 0 7 [.ptr 2, .imm 9], .call 0 5 [.ptr 2], .call 1 3 [.ptr 3], .poke 4 0 (.imm 8), .call 1 4 [.ptr 3]]

example : (∀ t, Op.declare t ∈ pointProg → t.Wf ∧ t.rtn ∉ t.ids) ∧
    (Spec.run ⟨[], []⟩ pointProg).map (·.1) = some [void, void, .ptr 2, .ptr 3, .ptr 4, yes, no, yes, no, .imm 200, .imm 100, no,
      void, .imm 9, .ptr 2, void, .imm 5] := by
  refine ⟨?_, by rfl⟩
  intro t ht
  simp [pointProg] at ht
  subst ht
  refine ⟨⟨by decide, by decide, by decide, by decide⟩, by decide⟩

/-- `(define-record-type node (make-node node next) node? (node node-value) (next node-next))` -/
def node : Ty := ⟨0, 1, [0, 11], 2, [⟨0, 3, none⟩, ⟨11, 4, none⟩]⟩

/-- A field with the name of the type, in the constructor: the parameter hides the type. -/
theorem c70_counterexample : ¬ C70Full := by
  intro h
  have h := h [.declare node, .tagged 3 [no, no], .call 0 1 [.ptr 1, no], .call 0 2 [.ptr 2]] [void, .ptr 1, .ptr 2, yes] _
    (by
      intro t ht
      simp at ht
      subst ht
      exact ⟨by decide, by decide, by decide, by decide⟩) rfl
  exact absurd h (by decide)

/-- A constructor identifier that is not a field: there is no message when the declaration is expanded, and every call of the constructor stops the
program. -/
theorem c70_not_a_field (t : Ty) (hn : t.names.Nodup) (hf : (t.fields.map (·.name)).Nodup)
    (hx : ∃ x ∈ t.ids, x ∉ t.fields.map (·.name)) (s : St) :
    ∃ s', step s (.declare t.print) = some (void, s') ∧
      ∀ args, step s' (.call s.frames.length t.consn args) = none := by
  obtain ⟨ds, h1, h2⟩ := Option.bind_eq_some_iff.1 (declare_eq t s.heap)
  refine ⟨_, by simp only [step, h1, Option.bind_some, h2, Option.map_some]; rfl, fun args => ?_⟩
  have hg := good_frame t s.heap.length hn
  simp only [step, List.getElem?_concat_length, Option.bind_some, callProc, hg.consn]
  split
  · simp only [consE, eval]
    rw [init_error (.var .r) (FI t.fields) t.ids [] (by rw [FI_map]; exact hf) (by rw [FI_map]; exact hx)]
    cases look (frameOf t s.heap.length) ((t.ids.map V.user).zip args) (.user t.rtn) with
    | none => simp
    | some v => cases v <;> simp [makeRecord, eval]
  · simp

example : (⟨0, 1, [10, 12], 2, [⟨10, 3, none⟩, ⟨11, 4, none⟩]⟩ : Ty).names.Nodup ∧
    ∃ x ∈ [10, 12], x ∉ ([⟨10, 3, none⟩, ⟨11, 4, none⟩] : List Field).map (·.name) := by decide

/-- Accessors and modifiers stop the program (in the debugging build) on anything that is not a record of any type. -/
theorem c70_no_record (p : List (Op Ty)) (vs : List Val) (s : Spec.St) (hd : Spec.Decls (fun t => t.Wf ∧ t.rtn ∉ t.ids) p)
    (hs : Spec.run ⟨[], []⟩ p = some (vs, s)) (k : Nat) (t : Ty) (ht : s.types[k]? = some t) (f : Field) (hf : f ∈ t.fields)
    (o : Val) (ho : ∀ j, Spec.recordOf s j o = none) :
    ∃ c, run ⟨[], []⟩ (p.map Spec.printOp) = some (vs, c) ∧ step c (.call k f.acc [o]) = none ∧
      ∀ m v, f.mod = some m → step c (.call k m [o, v]) = none := by
  obtain ⟨c, rts, h1, h⟩ := sim_run p R.start hd hs
  have hk : k < rts.length := by rw [h.rtsLen]; exact (List.getElem?_eq_some_iff.1 ht).1
  obtain ⟨fr, hfr, hg⟩ := h.frames k t rts[k] ht (by simp [hk])
  obtain ⟨i, hi⟩ := List.getElem?_of_mem hf
  have hty : istyped c.heap o = false := by
    cases o with
    | imm n => rfl
    | ptr a =>
      cases hoa : s.objs[a]? with
      | none =>
        have hc : c.heap[a]? = none := by
          rw [List.getElem?_eq_none_iff] at hoa ⊢
          rw [← h.len]; exact hoa
        simp [istyped, words, hc]
      | some ob =>
        obtain ⟨b, hb, hr⟩ := h.objs a ob hoa
        cases ob with
        | record j g =>
          have := ho j
          simp [Spec.recordOf, hoa] at this
        | other vs =>
          rcases hr with ⟨-, n, rfl⟩ | ⟨w, hw, rfl⟩
          · simp [istyped, words, hb]
          · cases w with
            | val v => exact absurd rfl (hw v)
            | tag n => simp [istyped, words, hb]
            | code n => simp [istyped, words, hb]
  refine ⟨c, h1, ?_, fun m v hm => ?_⟩
  · have h2 : look fr [(V.obj, o)] .obj = some o := by simp [look, List.lookup]
    simp [step, hfr, callProc, hg.acc i f hi, eval, h2, typedref, hty]
  · have h2 : look fr [(V.obj, o), (.val, v)] .obj = some o := by simp [look, List.lookup]
    have h3 : look fr [(V.obj, o), (.val, v)] .val = some v := by
      have : (V.val == V.obj) = false := by decide
      simp [look, List.lookup, this]
    simp [step, hfr, callProc, hg.mod i f m hi hm, eval, h2, h3, typedset, hty]

example : ∃ s, Spec.run ⟨[], []⟩ pointProg = some ([void, void, .ptr 2, .ptr 3, .ptr 4, yes, no, yes, no, .imm 200, .imm 100, no,
      void, .imm 9, .ptr 2, void, .imm 5], s) ∧ s.types[0]? = some point ∧ ∀ j, Spec.recordOf s j (.ptr 4) = none :=
  ⟨_, rfl, rfl, fun _ => rfl⟩

/-- But they do not look at the type of a record: an accessor given a record of any other declaration (even one that is in no relation to its own)
answers with whatever field of it is in the same place, if there is one. -/
theorem c70_unchecked (p : List (Op Ty)) (vs : List Val) (s : Spec.St) (hd : Spec.Decls (fun t => t.Wf ∧ t.rtn ∉ t.ids) p)
    (hs : Spec.run ⟨[], []⟩ p = some (vs, s)) (k j i : Nat) (t t' : Ty) (ht : s.types[k]? = some t) (ht' : s.types[j]? = some t')
    (f f' : Field) (hf : t.fields[i]? = some f) (hf' : t'.fields[i]? = some f') (o : Val) (g : Name → Val)
    (ho : Spec.recordOf s j o = some g) :
    ∃ c, run ⟨[], []⟩ (p.map Spec.printOp) = some (vs, c) ∧ step c (.call k f.acc [o]) = some (g f'.name, c) := by
  obtain ⟨c, rts, h1, h⟩ := sim_run p R.start hd hs
  have hk : k < rts.length := by rw [h.rtsLen]; exact (List.getElem?_eq_some_iff.1 ht).1
  have hj : j < rts.length := by rw [h.rtsLen]; exact (List.getElem?_eq_some_iff.1 ht').1
  obtain ⟨fr, hfr, hg⟩ := h.frames k t rts[k] ht (by simp [hk])
  refine ⟨c, h1, ?_⟩
  cases o with
  | imm => simp [Spec.recordOf] at ho
  | ptr a =>
    obtain ⟨-, hb⟩ := h.recordOf ht' (rt := rts[j]) (by simp [hj]) ho
    have h2 : look fr [(V.obj, Val.ptr a)] .obj = some (.ptr a) := by simp [look, List.lookup]
    simp [step, hfr, callProc, hg.acc i f hf, eval, h2, typedref_rec hb hf']

/-- `(define-record-type pare (kons kar kdr) pare? (kar pare-kar) (kdr pare-kdr))` -/
def pare : Ty := ⟨0, 1, [10, 11], 2, [⟨10, 3, none⟩, ⟨11, 4, none⟩]⟩

example : (pare.Wf ∧ pare.rtn ∉ pare.ids) ∧
    ∃ s g, Spec.run ⟨[], []⟩ [.declare point, .declare pare, .call 1 1 [.imm 4, .imm 5]] = some ([void, void, .ptr 2], s) ∧
    s.types[0]? = some point ∧ s.types[1]? = some pare ∧ Spec.recordOf s 1 (.ptr 2) = some g ∧ g 11 = .imm 5 :=
  ⟨⟨⟨by decide, by decide, by decide, by decide⟩, by decide⟩, _, _, rfl, rfl, rfl, rfl, rfl⟩

end Verif.Records

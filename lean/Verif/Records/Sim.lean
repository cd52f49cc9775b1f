import Mathlib.Tactic.Set
import Verif.Records.Lemmas

/-
The simulation for C70.
-/
namespace Verif.Records

open Spec (Field Ty Obj)

/-- blocks of objects. -/
def RObj (types : List Ty) (rts : List Nat) : Obj → Blk → Prop
  | .record k g, b => ∃ t rt, types[k]? = some t ∧ rts[k]? = some rt ∧ b = recBlk rt t.fields g
  | .other vs, b => (vs = [] ∧ ∃ n, b = .native n) ∨ ∃ w, (∀ v, w ≠ .val v) ∧ b = .sized (w :: vs.map .val)

structure R (s : Spec.St) (c : St) (rts : List Nat) : Prop where
  len : s.objs.length = c.heap.length
  objs : ∀ (a : Nat) (o : Obj), s.objs[a]? = some o → ∃ b, c.heap[a]? = some b ∧ RObj s.types rts o b
  nodup : rts.Nodup
  lt : ∀ r ∈ rts, r < c.heap.length
  rtsLen : rts.length = s.types.length
  frLen : c.frames.length = s.types.length
  frames : ∀ (k : Nat) (t : Ty) (rt : Nat), s.types[k]? = some t → rts[k]? = some rt → ∃ fr, c.frames[k]? = some fr ∧ Good t rt fr
  wf : ∀ t ∈ s.types, t.Wf ∧ t.rtn ∉ t.ids

theorem RObj.mono {types : List Ty} {rts : List Nat} (t : Ty) (rt : Nat) {o : Obj} {b : Blk}
    (h : RObj types rts o b) : RObj (types ++ [t]) (rts ++ [rt]) o b := by
  cases o with
  | other vs => exact h
  | record k g =>
    obtain ⟨t', rt', h1, h2, h3⟩ := h
    refine ⟨t', rt', ?_, ?_, h3⟩
    · rw [List.getElem?_append_left (List.getElem?_eq_some_iff.1 h1).1, h1]
    · rw [List.getElem?_append_left (List.getElem?_eq_some_iff.1 h2).1, h2]

/-- allocation. -/
theorem R.alloc {s : Spec.St} {c : St} {rts : List Nat} (h : R s c rts) {o : Obj} {b : Blk} (hb : RObj s.types rts o b) :
    R { s with objs := s.objs ++ [o] } { c with heap := c.heap ++ [b] } rts where
  len := by simp [h.len]
  objs := by
    intro a o' ha
    simp only at ha
    by_cases hl : a < s.objs.length
    · rw [List.getElem?_append_left hl] at ha
      obtain ⟨b', h1, h2⟩ := h.objs a o' ha
      exact ⟨b', by simp only; rw [List.getElem?_append_left (h.len ▸ hl)]; exact h1, h2⟩
    · have hl' : a = s.objs.length := by
        have := (List.getElem?_eq_some_iff.1 ha).1
        simp at this
        omega
      subst hl'
      simp at ha
      subst ha
      exact ⟨b, by simp [h.len], hb⟩
  nodup := h.nodup
  lt := fun r hr => by have := h.lt r hr; simp; omega
  rtsLen := h.rtsLen
  frLen := h.frLen
  frames := h.frames
  wf := h.wf

/-- assignment. -/
theorem R.set {s : Spec.St} {c : St} {rts : List Nat} (h : R s c rts) (a : Nat) {o : Obj} {b : Blk}
    (hb : RObj s.types rts o b) :
    R { s with objs := s.objs.set a o } { c with heap := c.heap.set a b } rts where
  len := by simp [h.len]
  objs := by
    intro a' o' ha
    simp only [List.getElem?_set] at ha ⊢
    by_cases he : a = a'
    · subst he
      rw [if_pos rfl] at ha ⊢
      by_cases hl : a < s.objs.length
      · rw [if_pos hl] at ha
        cases ha
        exact ⟨b, by rw [if_pos (h.len ▸ hl)], hb⟩
      · rw [if_neg hl] at ha; cases ha
    · rw [if_neg he] at ha ⊢
      exact h.objs a' o' ha
  nodup := h.nodup
  lt := fun r hr => by have := h.lt r hr; simpa using this
  rtsLen := h.rtsLen
  frLen := h.frLen
  frames := h.frames
  wf := h.wf

/-- records of a declaration. -/
theorem R.recordOf {s : Spec.St} {c : St} {rts : List Nat} (h : R s c rts) {k a : Nat} {t : Ty} {rt : Nat} {g : Name → Val}
    (ht : s.types[k]? = some t) (hrt : rts[k]? = some rt) (hg : Spec.recordOf s k (.ptr a) = some g) :
    s.objs[a]? = some (.record k g) ∧ c.heap[a]? = some (recBlk rt t.fields g) := by
  simp only [Spec.recordOf] at hg
  cases ho : s.objs[a]? with
  | none => simp [ho] at hg
  | some o =>
    cases o with
    | other vs => simp [ho] at hg
    | record k' g' =>
      simp only [ho] at hg
      by_cases hk : k' = k
      · subst hk
        simp at hg
        subst hg
        obtain ⟨b, hb, t', rt', h1, h2, rfl⟩ := h.objs a _ ho
        rw [ht] at h1; rw [hrt] at h2
        cases h1; cases h2
        exact ⟨rfl, hb⟩
      · rw [if_neg hk] at hg; cases hg

/-- the predicate. -/
theorem R.isrecord {s : Spec.St} {c : St} {rts : List Nat} (h : R s c rts) {k : Nat} {rt : Nat}
    (hrt : rts[k]? = some rt) (o : Val) :
    isrecord c.heap o (.ptr rt) = (Spec.recordOf s k o).isSome := by
  cases o with
  | imm n => simp [Records.isrecord, istyped, words, Spec.recordOf]
  | ptr a =>
    cases ho : s.objs[a]? with
    | none =>
      have hc : c.heap[a]? = none := by
        rw [List.getElem?_eq_none_iff] at ho ⊢
        rw [← h.len]; exact ho
      simp [Records.isrecord, istyped, words, Spec.recordOf, ho, hc]
    | some o =>
      obtain ⟨b, hb, hr⟩ := h.objs a o ho
      cases o with
      | other vs =>
        rcases hr with ⟨-, n, rfl⟩ | ⟨w, hw, rfl⟩
        · simp [Records.isrecord, istyped, words, Spec.recordOf, ho, hb]
        · cases w with
          | val v => exact absurd rfl (hw v)
          | tag n => simp [Records.isrecord, istyped, words, Spec.recordOf, ho, hb]
          | code n => simp [Records.isrecord, istyped, words, Spec.recordOf, ho, hb]
      | record k' g =>
        obtain ⟨t', rt', h1, h2, rfl⟩ := hr
        by_cases hk : k' = k
        · subst hk
          rw [hrt] at h2; cases h2
          simp [Records.isrecord, istyped, typedtype, words, Spec.recordOf, ho, hb, recBlk]
        · have hne : rt' ≠ rt := by
            rintro rfl
            exact hk ((List.getElem?_inj (List.getElem?_eq_some_iff.1 h2).1 h.nodup).1 (h2.trans hrt.symm))
          simp [Records.isrecord, istyped, typedtype, words, Spec.recordOf, ho, hb, recBlk, hk, hne]

theorem lookup_zip_user (x : Name) : ∀ (ids : List Name) (args : List Val),
    ((ids.map V.user).zip args).lookup (.user x) = (ids.zip args).lookup x
  | [], _ => by simp
  | _ :: _, [] => by simp
  | i :: ids, v :: args => by
    have h : (V.user x == V.user i) = (x == i) := by
      rw [Bool.eq_iff_iff]; simp
    simp only [List.map_cons, List.zip_cons_cons, List.lookup, h]
    rw [lookup_zip_user x ids args]

theorem lookup_zip_other {x : V} (hx : ∀ n, x ≠ .user n) : ∀ (ids : List Name) (args : List Val),
    ((ids.map V.user).zip args).lookup x = none
  | [], _ => by simp
  | _ :: _, [] => by simp
  | i :: ids, v :: args => by
    have h : (x == V.user i) = false := by simpa using hx i
    simp only [List.map_cons, List.zip_cons_cons, List.lookup, h]
    exact lookup_zip_other hx ids args

theorem lookup_zip_mem {x : Name} : ∀ (ids : List Name) (args : List Val), ids.length = args.length → x ∈ ids →
    ∃ v, (ids.zip args).lookup x = some v
  | [], _, _, h => by simp at h
  | _ :: _, [], h, _ => by simp at h
  | i :: ids, v :: args, hl, h => by
    simp only [List.zip_cons_cons, List.lookup]
    by_cases he : x = i
    · subst he; exact ⟨v, by simp⟩
    · rw [beq_false_of_ne he]
      exact lookup_zip_mem ids args (by simpa using hl) ((List.mem_cons.1 h).resolve_left he)

theorem lookup_zip_nmem {x : Name} : ∀ (ids : List Name) (args : List Val), x ∉ ids → (ids.zip args).lookup x = none
  | [], _, _ => by simp
  | _ :: _, [], _ => by simp
  | i :: ids, v :: args, h => by
    simp only [List.mem_cons, not_or] at h
    simp only [List.zip_cons_cons, List.lookup]
    rw [beq_false_of_ne h.1]
    exact lookup_zip_nmem ids args h.2

/-- the constructor. -/
theorem cons_eval {t : Ty} {rt : Nat} {fr : Frame} (hg : Good t rt fr) (hw : t.Wf) (hn : t.rtn ∉ t.ids) (args : List Val)
    (hl : args.length = t.ids.length) (h : Heap) :
    callProc fr t.consn args h = some (.ptr h.length, h ++ [recBlk rt t.fields (Spec.fresh t.ids args)]) := by
  simp only [callProc, hg.consn]
  rw [if_pos (by simp [hl])]
  set l := (t.ids.map V.user).zip args with hl'
  have hrtn : look fr l (.user t.rtn) = some (.ptr rt) := by
    simp only [look, hl', lookup_zip_user, lookup_zip_nmem _ _ hn, hg.rtn]
  simp only [consE, eval, hrtn, Option.map_some, Option.bind_some, makeRecord]
  have hr : look fr ((.r, .ptr h.length) :: l) .r = some (.ptr h.length) := by simp [look, List.lookup]
  have hu : ∀ x ∈ t.ids, look fr ((.r, .ptr h.length) :: l) (.user x) = some (Spec.fresh t.ids args x) := by
    intro x hx
    obtain ⟨v, hv⟩ := lookup_zip_mem t.ids args hl.symm hx
    have : (V.user x == V.r) = false := by simp
    simp only [look, List.lookup, this, hl', lookup_zip_user, hv, Spec.fresh, Option.getD_some]
  obtain ⟨xs, hi, he⟩ := eval_init fr ((.r, .ptr h.length) :: l) h.length rt t.fields hw.2.1 hr (Spec.fresh t.ids args)
    t.ids hw.2.2.2 hu
  rw [hi [], List.nil_append]
  rw [he _ (fun _ => no) (by simp [recBlk, List.map_const'])]
  simp only [List.set_append_right _ _ (Nat.le_refl _), Nat.sub_self, List.set_cons_zero]
  congr 5
  funext x
  by_cases hx : x ∈ t.ids
  · rw [if_pos hx]
  · rw [if_neg hx, Spec.fresh, lookup_zip_nmem _ _ hx]; rfl

theorem sim_call {s : Spec.St} {c : St} {rts : List Nat} (h : R s c rts) {k : Nat} {t : Ty} (ht : s.types[k]? = some t)
    {n : Name} {args : List Val} {v : Val} {s' : Spec.St} (hs : Spec.callOf s k t n args = some (v, s')) :
    ∃ c', step c (.call k n args) = some (v, c') ∧ R s' c' rts := by
  have hk : k < rts.length := by rw [h.rtsLen]; exact (List.getElem?_eq_some_iff.1 ht).1
  obtain ⟨rt, hrt⟩ : ∃ rt, rts[k]? = some rt := ⟨rts[k], by simp [hk]⟩
  obtain ⟨fr, hfr, hg⟩ := h.frames k t rt ht hrt
  obtain ⟨hw, hn⟩ := h.wf t (List.mem_of_getElem? ht)
  simp only [step, hfr, Option.bind_some]
  simp only [Spec.callOf] at hs
  split at hs
  · rename_i e; subst e
    split at hs
    · rename_i hl
      cases hs
      rw [cons_eval hg hw hn args hl]
      refine ⟨_, by rw [h.len]; rfl, h.alloc ⟨t, rt, ht, hrt, rfl⟩⟩
    · cases hs
  split at hs
  · rename_i e; subst e
    split at hs
    · rename_i o
      cases hs
      refine ⟨c, ?_, h⟩
      have h1 : look fr [(V.obj, o)] (.user t.rtn) = some (.ptr rt) := by
        have : (V.user t.rtn == V.obj) = false := by simp
        simp [look, List.lookup, this, hg.rtn]
      have h2 : look fr [(V.obj, o)] .obj = some o := by simp [look, List.lookup]
      simp [callProc, hg.predn, eval, h1, h2, h.isrecord hrt]
    · cases hs
  split at hs
  · rename_i f hf
    have hm := List.mem_of_find?_eq_some hf
    have hp : f.acc = n := by simpa using List.find?_some hf
    obtain ⟨i, hi⟩ := List.getElem?_of_mem hm
    subst hp
    split at hs
    · rename_i o
      obtain ⟨g, hgo, e⟩ := Option.map_eq_some_iff.1 hs
      cases e
      cases o with
      | imm => simp [Spec.recordOf] at hgo
      | ptr a =>
        obtain ⟨-, hb⟩ := h.recordOf ht hrt hgo
        refine ⟨c, ?_, h⟩
        have h2 : look fr [(V.obj, Val.ptr a)] .obj = some (.ptr a) := by simp [look, List.lookup]
        simp [callProc, hg.acc i f hi, eval, h2, typedref_rec hb hi]
    · cases hs
  · split at hs
    · rename_i f hf
      have hm := List.mem_of_find?_eq_some hf
      have hp : f.mod = some n := by simpa using List.find?_some hf
      obtain ⟨i, hi⟩ := List.getElem?_of_mem hm
      split at hs
      · rename_i a v'
        obtain ⟨g, hgo, e⟩ := Option.map_eq_some_iff.1 hs
        cases e
        obtain ⟨-, hb⟩ := h.recordOf ht hrt hgo
        refine ⟨{ c with heap := c.heap.set a (recBlk rt t.fields (upd g f.name v')) }, ?_, h.set a ⟨t, rt, ht, hrt, rfl⟩⟩
        have h2 : look fr [(V.obj, Val.ptr a), (.val, v')] .obj = some (.ptr a) := by simp [look, List.lookup]
        have h3 : look fr [(V.obj, Val.ptr a), (.val, v')] .val = some v' := by
          have : (V.val == V.obj) = false := by decide
          simp [look, List.lookup, this]
        simp [callProc, hg.mod i f n hi hp, eval, h2, h3, typedset_rec hb hw.2.1 hi]
      · cases hs
    · cases hs

theorem sim {s : Spec.St} {c : St} {rts : List Nat} (h : R s c rts) {o : Op Ty}
    (ho : ∀ t, o = .declare t → t.Wf ∧ t.rtn ∉ t.ids) {v : Val} {s' : Spec.St} (hs : Spec.step s o = some (v, s')) :
    ∃ c' rts', step c (Spec.printOp o) = some (v, c') ∧ R s' c' rts' := by
  cases o with
  | declare t =>
    obtain ⟨hw, hn⟩ := ho t rfl
    simp only [Spec.step] at hs
    cases hs
    refine ⟨{ heap := c.heap ++ [.sized [.tag 3, .val (.imm 3), .val (.imm 3)]],
              frames := c.frames ++ [frameOf t c.heap.length] }, rts ++ [c.heap.length], ?_, ?_⟩
    · have := declare_eq t c.heap
      simp only [Spec.printOp, step]
      obtain ⟨ds, h1, h2⟩ := Option.bind_eq_some_iff.1 this
      rw [h1]
      simp only [Option.bind_some, h2, Option.map_some]
    · have ha := h.alloc (o := .other [.imm 3, .imm 3]) (b := .sized [.tag 3, .val (.imm 3), .val (.imm 3)])
        (.inr ⟨.tag 3, by simp, rfl⟩)
      refine { len := ha.len, objs := ?_, nodup := ?_, lt := ?_, rtsLen := by simp [h.rtsLen], frLen := by simp [h.frLen],
               frames := ?_, wf := ?_ }
      · intro a o hao
        obtain ⟨b, h1, h2⟩ := ha.objs a o hao
        exact ⟨b, h1, h2.mono t c.heap.length⟩
      · rw [List.nodup_append]
        refine ⟨h.nodup, by simp, ?_⟩
        intro a ha' b hb e
        have := h.lt a ha'
        simp at hb
        omega
      · intro r hr
        rcases List.mem_append.1 hr with hr | hr
        · have := h.lt r hr; simp; omega
        · simp at hr; subst hr; simp
      · intro k t' rt hk hr
        simp only at hk
        by_cases hl : k < s.types.length
        · rw [List.getElem?_append_left hl] at hk
          rw [List.getElem?_append_left (by rw [h.rtsLen]; exact hl)] at hr
          obtain ⟨fr, h1, h2⟩ := h.frames k t' rt hk hr
          exact ⟨fr, by simp only; rw [List.getElem?_append_left (by rw [h.frLen]; exact hl)]; exact h1, h2⟩
        · have hl' : k = s.types.length := by
            have := (List.getElem?_eq_some_iff.1 hk).1
            simp at this
            omega
          subst hl'
          simp at hk
          subst hk
          rw [← h.rtsLen] at hr
          simp at hr
          subst hr
          refine ⟨frameOf t c.heap.length, ?_, good_frame t _ hw.1⟩
          simp only
          rw [← h.frLen]
          simp
      · intro t' ht'
        rcases List.mem_append.1 ht' with ht' | ht'
        · exact h.wf t' ht'
        · simp at ht'; subst ht'; exact ⟨hw, hn⟩
  | native n =>
    cases hs
    exact ⟨_, rts, by simp only [Spec.printOp, step, Records.alloc, h.len], h.alloc (.inl ⟨rfl, n, rfl⟩)⟩
  | tagged t vs =>
    cases hs
    exact ⟨_, rts, by simp only [Spec.printOp, step, Records.alloc, h.len], h.alloc (.inr ⟨.tag t, by simp, rfl⟩)⟩
  | closure t vs =>
    cases hs
    exact ⟨_, rts, by simp only [Spec.printOp, step, Records.alloc, h.len], h.alloc (.inr ⟨.code t, by simp, rfl⟩)⟩
  | poke a i x =>
    simp only [Spec.step] at hs
    cases ho : s.objs[a]? with
    | none => simp [ho] at hs
    | some o =>
      cases o with
      | record k g => simp [ho] at hs
      | other vs =>
        simp only [ho] at hs
        split at hs
        · rename_i hi
          cases hs
          obtain ⟨b, hb, hr⟩ := h.objs a _ ho
          rcases hr with ⟨rfl, -⟩ | ⟨w, hw, rfl⟩
          · simp at hi
          · refine ⟨{ c with heap := c.heap.set a (.sized (w :: (vs.set i x).map .val)) }, rts, ?_,
              h.set a (.inr ⟨w, hw, rfl⟩)⟩
            have ht : istyped c.heap (.ptr a) = false := by
              cases w with
              | val v => exact absurd rfl (hw v)
              | tag n => simp [istyped, words, hb]
              | code n => simp [istyped, words, hb]
            simp [Spec.printOp, step, hb, ht, hi, List.map_set]
        · cases hs
  | call k n args =>
    simp only [Spec.step] at hs
    obtain ⟨t, ht, hc⟩ := Option.bind_eq_some_iff.1 hs
    obtain ⟨c', h1, h2⟩ := sim_call h ht hc
    exact ⟨c', rts, h1, h2⟩

theorem sim_run : ∀ (p : List (Op Ty)) {s : Spec.St} {c : St} {rts : List Nat}, R s c rts →
    Spec.Decls (fun t => t.Wf ∧ t.rtn ∉ t.ids) p → ∀ {vs : List Val} {s' : Spec.St}, Spec.run s p = some (vs, s') →
    ∃ c' rts', run c (p.map Spec.printOp) = some (vs, c') ∧ R s' c' rts'
  | [], s, c, rts, h, _, vs, s', hs => by
    cases hs
    exact ⟨c, rts, rfl, h⟩
  | o :: p, s, c, rts, h, hd, vs, s', hs => by
    simp only [Spec.run] at hs
    obtain ⟨⟨v, s1⟩, h1, h2⟩ := Option.bind_eq_some_iff.1 hs
    obtain ⟨⟨vs1, s2⟩, h3, h4⟩ := Option.map_eq_some_iff.1 h2
    cases h4
    obtain ⟨c1, rts1, h5, h6⟩ := sim h (fun t e => hd t (by simp [e])) h1
    obtain ⟨c2, rts2, h7, h8⟩ := sim_run p h6 (fun t ht => hd t (by simp [ht])) h3
    exact ⟨c2, rts2, by simp only [List.map_cons, run, h5, Option.bind_some, h7, Option.map_some], h8⟩

theorem R.start : R ⟨[], []⟩ ⟨[], []⟩ [] where
  len := rfl
  objs := by simp
  nodup := by simp
  lt := by simp
  rtsLen := rfl
  frLen := rfl
  frames := by simp
  wf := by simp

end Verif.Records

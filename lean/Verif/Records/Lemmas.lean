import Mathlib.Data.List.Induction
import Verif.Records.Spec

/-
Lemmas for C70: the expansion of a declaration and the values of its definitions.
-/
namespace Verif.Records

open Spec (Field Ty)

/-- fields, accessors and modifiers with their indices. -/
def FI (fs : List Field) : List (Name × Nat) := fs.zipIdx.map (fun p => (p.1.name, p.2))
def AI (fs : List Field) : List (Name × Nat) := fs.zipIdx.map (fun p => (p.1.acc, p.2))
def MI (fs : List Field) : List (Name × Nat) := fs.zipIdx.filterMap (fun p => p.1.mod.map (fun m => (m, p.2)))

theorem FI_snoc (fs : List Field) (f : Field) : FI (fs ++ [f]) = FI fs ++ [(f.name, fs.length)] := by
  simp [FI, List.zipIdx_append]

theorem AI_snoc (fs : List Field) (f : Field) : AI (fs ++ [f]) = AI fs ++ [(f.acc, fs.length)] := by
  simp [AI, List.zipIdx_append]

theorem MI_snoc (fs : List Field) (f : Field) :
    MI (fs ++ [f]) = MI fs ++ (f.mod.map (fun m => (m, fs.length))).toList := by
  rcases f with ⟨n, a, m⟩
  cases m <;> simp [MI, List.zipIdx_append]

theorem FI_length (fs : List Field) : (FI fs).length = fs.length := by simp [FI]

/-- the constructor's expression. -/
def consE (t : Ty) : E :=
  .let1 .r (.make (.var (.user t.rtn)) t.fields.length) (init (.var .r) (FI t.fields) t.ids [])

/-- all definitions but the first. -/
def restDefs (t : Ty) : List (Name × (List V × E)) :=
  (t.consn, (t.ids.map .user, consE t)) ::
  (t.predn, ([.obj], .isRec (.var .obj) (.var (.user t.rtn)))) ::
  ((AI t.fields).map (fun a => (a.1, ([V.obj], E.ref (.var .obj) a.2))) ++
   (MI t.fields).map (fun m => (m.1, ([V.obj, V.val], E.set (.var .obj) m.2 (.var .val)))))

theorem unroll_eq (t : Ty) : ∀ (fs pre : List Field), pre ++ fs = t.fields →
    unroll t.rtn t.consn t.ids t.predn (fs.map Field.print) (FI pre) (AI pre) (MI pre) =
      some ((t.rtn, .newType) :: (restDefs t).map (fun d => (d.1, .lam d.2.1 d.2.2)))
  | [], pre, h => by
    have h : pre = t.fields := by simpa using h
    subst h
    simp [unroll, restDefs, consE, FI_length, Function.comp_def]
  | f :: fs, pre, h => by
    have ih := unroll_eq t fs (pre ++ [f]) (by simpa using h)
    rcases f with ⟨n, a, m⟩
    rw [FI_snoc, AI_snoc, MI_snoc] at ih
    cases m with
    | none =>
      simp only [List.map_cons, Field.print, Option.toList, unroll, FI_length]
      simpa [Field.print] using ih
    | some m =>
      simp only [List.map_cons, Field.print, Option.toList, unroll, FI_length]
      simpa [Field.print] using ih

theorem expand_eq (t : Ty) :
    expand t.print = some ((t.rtn, .newType) :: (restDefs t).map (fun d => (d.1, .lam d.2.1 d.2.2))) :=
  unroll_eq t t.fields [] rfl

theorem evalDefs_lams : ∀ (ds : List (Name × (List V × E))) (fr : Frame) (h : Heap),
    evalDefs (ds.map (fun d => (d.1, .lam d.2.1 d.2.2))) fr h =
      some ((ds.map (fun d => (d.1, Def.proc d.2.1 d.2.2))).reverse ++ fr, h)
  | [], fr, h => rfl
  | d :: ds, fr, h => by
    simp only [List.map_cons, evalDefs]
    rw [evalDefs_lams ds]
    simp

/-- the frame of a declaration. -/
def frameOf (t : Ty) (rt : Nat) : Frame :=
  ((restDefs t).map (fun d => (d.1, Def.proc d.2.1 d.2.2))).reverse ++ [(t.rtn, .val (.ptr rt))]

theorem declare_eq (t : Ty) (h : Heap) :
    (expand t.print).bind (fun ds => evalDefs ds [] h) =
      some (frameOf t h.length, h ++ [.sized [.tag 3, .val (.imm 3), .val (.imm 3)]]) := by
  rw [expand_eq]
  simp only [Option.bind_some, evalDefs, eval, newType]
  rw [evalDefs_lams]
  rfl

theorem lookup_of_mem {α β : Type} [BEq α] [LawfulBEq α] {l : List (α × β)} (hd : (l.map (·.1)).Nodup) {a : α} {b : β}
    (h : (a, b) ∈ l) : l.lookup a = some b := by
  induction l with
  | nil => simp at h
  | cons p l ih =>
    rcases p with ⟨a', b'⟩
    simp only [List.map_cons, List.nodup_cons, List.mem_map] at hd
    rcases List.mem_cons.1 h with e | h'
    · cases e; simp [List.lookup]
    · have : a ≠ a' := by rintro rfl; exact hd.1 ⟨(a, b), h', rfl⟩
      simp only [List.lookup]
      rw [beq_false_of_ne this]
      exact ih hd.2 h'

theorem AI_map (fs : List Field) : (AI fs).map (·.1) = fs.map (·.acc) := by
  induction fs using List.reverseRecOn with
  | nil => rfl
  | append_singleton fs f ih => rw [AI_snoc]; simp [ih]

theorem FI_map (fs : List Field) : (FI fs).map (·.1) = fs.map (·.name) := by
  induction fs using List.reverseRecOn with
  | nil => rfl
  | append_singleton fs f ih => rw [FI_snoc]; simp [ih]

theorem MI_map (fs : List Field) : (MI fs).map (·.1) = fs.filterMap (·.mod) := by
  induction fs using List.reverseRecOn with
  | nil => rfl
  | append_singleton fs f ih =>
    rw [MI_snoc]
    rcases f with ⟨n, a, m⟩
    cases m <;> simp [ih]

theorem frame_names (t : Ty) (rt : Nat) (h : t.names.Nodup) : ((frameOf t rt).map (·.1)).Nodup := by
  have hp : ((frameOf t rt).map (·.1)).Perm t.names := by
    have e : (frameOf t rt).map (·.1) = ((restDefs t).map (·.1)).reverse ++ [t.rtn] := by
      simp [frameOf, List.map_reverse, Function.comp_def]
    have e' : (restDefs t).map (·.1) = t.consn :: t.predn :: (t.fields.map (·.acc) ++ t.fields.filterMap (·.mod)) := by
      have h1 := AI_map t.fields
      have h2 := MI_map t.fields
      simp [restDefs, Function.comp_def, h1, h2]
    rw [e, e']
    exact ((List.reverse_perm _).append_right _).trans (List.perm_append_singleton _ _)
  exact hp.nodup_iff.2 h

/-- what the frame of a declaration holds. -/
structure Good (t : Ty) (rt : Nat) (fr : Frame) : Prop where
  rtn : fr.lookup t.rtn = some (.val (.ptr rt))
  consn : fr.lookup t.consn = some (.proc (t.ids.map .user) (consE t))
  predn : fr.lookup t.predn = some (.proc [.obj] (.isRec (.var .obj) (.var (.user t.rtn))))
  acc : ∀ i f, t.fields[i]? = some f → fr.lookup f.acc = some (.proc [.obj] (.ref (.var .obj) i))
  mod : ∀ i f m, t.fields[i]? = some f → f.mod = some m →
    fr.lookup m = some (.proc [.obj, .val] (.set (.var .obj) i (.var .val)))

theorem mem_AI {fs : List Field} {i : Nat} {f : Field} (h : fs[i]? = some f) : (f.acc, i) ∈ AI fs := by
  simp only [AI, List.mem_map]
  exact ⟨(f, i), by simpa [List.mem_zipIdx_iff_getElem?] using h, rfl⟩

theorem mem_FI {fs : List Field} {i : Nat} {f : Field} (h : fs[i]? = some f) : (f.name, i) ∈ FI fs := by
  simp only [FI, List.mem_map]
  exact ⟨(f, i), by simpa [List.mem_zipIdx_iff_getElem?] using h, rfl⟩

theorem mem_MI {fs : List Field} {i : Nat} {f : Field} {m : Name} (h : fs[i]? = some f) (hm : f.mod = some m) :
    (m, i) ∈ MI fs := by
  simp only [MI, List.mem_filterMap]
  exact ⟨(f, i), by simpa [List.mem_zipIdx_iff_getElem?] using h, by simp [hm]⟩

theorem good_frame (t : Ty) (rt : Nat) (h : t.names.Nodup) : Good t rt (frameOf t rt) where
  rtn := lookup_of_mem (frame_names t rt h) (by simp [frameOf])
  consn := lookup_of_mem (frame_names t rt h) (by simp [frameOf, restDefs])
  predn := lookup_of_mem (frame_names t rt h) (by simp [frameOf, restDefs])
  acc := fun i f hf => lookup_of_mem (frame_names t rt h) (by
    have := mem_AI hf
    simp only [frameOf, restDefs, List.mem_append, List.mem_reverse, List.mem_map]
    exact .inl ⟨(f.acc, ([.obj], .ref (.var .obj) i)), by
      simp only [List.mem_cons, List.mem_append, List.mem_map]
      exact .inr (.inr (.inl ⟨(f.acc, i), this, rfl⟩)), rfl⟩)
  mod := fun i f m hf hm => lookup_of_mem (frame_names t rt h) (by
    have := mem_MI hf hm
    simp only [frameOf, restDefs, List.mem_append, List.mem_reverse, List.mem_map]
    exact .inl ⟨(m, ([.obj, .val], .set (.var .obj) i (.var .val))), by
      simp only [List.mem_cons, List.mem_append, List.mem_map]
      exact .inr (.inr (.inr ⟨(m, i), this, rfl⟩)), rfl⟩)

/-! ### the constructor -/

theorem idAssq_mem {α : Type} (id : Name) (i : Nat) (kt : Nat → α) (kf : α) :
    ∀ (l : List (Name × Nat)), (l.map (·.1)).Nodup → (id, i) ∈ l → idAssq id l kt kf = kt i
  | [], _, h => by simp at h
  | (b, j) :: l, hd, h => by
    simp only [List.map_cons, List.nodup_cons, List.mem_map] at hd
    rw [idAssq, idEq]
    rcases List.mem_cons.1 h with e | h'
    · cases e; rw [if_pos rfl]
    · have : id ≠ b := by rintro rfl; exact hd.1 ⟨(id, i), h', rfl⟩
      rw [if_neg this]
      exact idAssq_mem id i kt kf l hd.2 h'

theorem idAssq_none {α : Type} (id : Name) (kt : Nat → α) (kf : α) :
    ∀ (l : List (Name × Nat)), id ∉ l.map (·.1) → idAssq id l kt kf = kf
  | [], _ => rfl
  | (b, j) :: l, h => by
    simp only [List.map_cons, List.mem_cons, not_or] at h
    rw [idAssq, idEq, if_neg h.1]
    exact idAssq_none id kt kf l h.2

/-- a constructor identifier that is no field. -/
theorem init_error (r : E) (fi : List (Name × Nat)) : ∀ (ids : List Name) (xs : List E),
    (fi.map (·.1)).Nodup → (∃ x ∈ ids, x ∉ fi.map (·.1)) → init r fi ids xs = .error
  | [], _, _, h => by simp at h
  | id0 :: ids, xs, hd, h => by
    rw [init]
    by_cases hm : id0 ∈ fi.map (·.1)
    · obtain ⟨⟨a, i⟩, hi, rfl⟩ := List.mem_map.1 hm
      rw [idAssq_mem a i _ _ fi hd hi]
      refine init_error r fi ids _ hd ?_
      obtain ⟨x, hx, hx'⟩ := h
      rcases List.mem_cons.1 hx with rfl | hx
      · exact absurd hm hx'
      · exact ⟨x, hx, hx'⟩
    · exact idAssq_none _ _ _ _ hm

theorem eval_begin_append (fr : Frame) (l : Locals) (b : E) : ∀ (xs : List E) (x : E) (h : Heap),
    eval fr (begin (xs ++ [x]) b) l h = eval fr (begin xs (.seq x b)) l h
  | xs, x, h => by simp [begin]

theorem eval_begin_seq (fr : Frame) (l : Locals) (x : E) (ys : List E) (b : E) (h : Heap) :
    eval fr (begin (x :: ys) b) l h = (eval fr x l h).bind (fun r => eval fr (begin ys b) l r.2) := by
  simp [begin, eval]

/-- the block of a record. -/
def recBlk (rt : Nat) (fs : List Field) (g : Name → Val) : Blk :=
  .sized (.val (.ptr rt) :: fs.map (fun x => .val (g x.name)))

def upd (g : Name → Val) (n : Name) (v : Val) (x : Name) : Val := if x = n then v else g x

theorem set_map (fs : List Field) (g : Name → Val) (v : Val) (i : Nat) (f : Field) (hd : (fs.map (·.name)).Nodup)
    (hf : fs[i]? = some f) :
    (fs.map (fun x => Word.val (g x.name))).set i (.val v) = fs.map (fun x => .val (upd g f.name v x.name)) := by
  apply List.ext_getElem?
  intro j
  rw [List.getElem?_set]
  by_cases hij : i = j
  · subst hij
    have hl : i < fs.length := (List.getElem?_eq_some_iff.1 hf).1
    simp [hl, upd]
    simp [List.getElem?_eq_some_iff.1 hf |>.2]
  · rw [if_neg hij, List.getElem?_map, List.getElem?_map]
    cases hj : fs[j]? with
    | none => rfl
    | some f' =>
      have hne : f'.name ≠ f.name := by
        intro e
        have h1 : (fs.map (·.name))[i]? = some f.name := by simp [hf]
        have h2 : (fs.map (·.name))[j]? = some f.name := by simp [hj, e]
        have hl : i < (fs.map (·.name)).length := (List.getElem?_eq_some_iff.1 h1).1
        exact hij ((List.getElem?_inj hl hd).1 (h1.trans h2.symm))
      simp [upd, hne]

theorem typedset_rec {h : Heap} {a rt : Nat} {fs : List Field} {g : Name → Val} (hb : h[a]? = some (recBlk rt fs g))
    {i : Nat} {f : Field} (hd : (fs.map (·.name)).Nodup) (hf : fs[i]? = some f) (v : Val) :
    typedset h (.ptr a) i v = some (h.set a (recBlk rt fs (upd g f.name v))) := by
  have hw : words h (.ptr a) = some (.val (.ptr rt) :: fs.map (fun x => .val (g x.name))) := by
    simp [words, hb, recBlk]
  have hl : i < fs.length := (List.getElem?_eq_some_iff.1 hf).1
  have ht : istyped h (.ptr a) = true := by simp [istyped, hw]
  simp only [typedset, ht, if_true, hw]
  simp only [List.length_cons, List.length_map]
  rw [if_pos (by omega)]
  simp only [List.set_cons_succ]
  rw [set_map fs g v i f hd hf]
  rfl

theorem typedref_rec {h : Heap} {a rt : Nat} {fs : List Field} {g : Name → Val} (hb : h[a]? = some (recBlk rt fs g))
    {i : Nat} {f : Field} (hf : fs[i]? = some f) :
    typedref h (.ptr a) i = some (g f.name) := by
  have hw : words h (.ptr a) = some (.val (.ptr rt) :: fs.map (fun x => .val (g x.name))) := by
    simp [words, hb, recBlk]
  have ht : istyped h (.ptr a) = true := by simp [istyped, hw]
  simp [typedref, ht, hw, hf]

/-- the initialisation of a new record. -/
theorem eval_init (fr : Frame) (l : Locals) (a rt : Nat) (fs : List Field) (hd : (fs.map (·.name)).Nodup)
    (hr : look fr l .r = some (.ptr a)) (L : Name → Val) :
    ∀ (ids : List Name), (∀ x ∈ ids, x ∈ fs.map (·.name)) → (∀ x ∈ ids, look fr l (.user x) = some (L x)) →
    ∃ xs : List E, (∀ ys, init (.var .r) (FI fs) ids ys = begin (ys ++ xs) (.var .r)) ∧
      ∀ (h : Heap) (g : Name → Val), h[a]? = some (recBlk rt fs g) →
        eval fr (begin xs (.var .r)) l h =
          some (.ptr a, h.set a (recBlk rt fs (fun x => if x ∈ ids then L x else g x)))
  | [], _, _ => by
    refine ⟨[], fun ys => by simp [init], fun h g hb => ?_⟩
    obtain ⟨hl, hv⟩ := List.getElem?_eq_some_iff.1 hb
    have hs : h.set a (recBlk rt fs g) = h := by rw [← hv]; exact List.set_getElem_self hl
    simp [begin, eval, hr, hs]
  | x :: ids, hm, hL => by
    obtain ⟨xs, hx, he⟩ := eval_init fr l a rt fs hd hr L ids (fun y hy => hm y (by simp [hy]))
      (fun y hy => hL y (by simp [hy]))
    obtain ⟨f, hf, rfl⟩ := List.mem_map.1 (hm x (by simp))
    obtain ⟨i, hi⟩ := List.getElem?_of_mem hf
    refine ⟨.set (.var .r) i (.var (.user f.name)) :: xs, fun ys => ?_, fun h g hb => ?_⟩
    · rw [init, idAssq_mem f.name i _ _ _ (by rw [FI_map]; exact hd) (mem_FI hi), hx]
      simp
    · obtain ⟨hl, -⟩ := List.getElem?_eq_some_iff.1 hb
      rw [eval_begin_seq]
      simp only [eval, hr, hL f.name (by simp), Option.map_some, Option.bind_some]
      rw [typedset_rec hb hd hi]
      simp only [Option.map_some, Option.bind_some]
      rw [he _ (upd g f.name (L f.name)) (by simp [hl])]
      rw [List.set_set]
      congr 4
      funext y
      by_cases h1 : y ∈ ids
      · simp [h1]
      · by_cases h2 : y = f.name
        · subst h2; simp [upd]
        · simp [h1, h2, upd]

end Verif.Records

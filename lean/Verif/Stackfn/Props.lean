import Verif.Stackfn.Accept
/-
C57: stack functions behave like the procedures they are made from.
-/
namespace Verif.Stackfn
open Verif.Core
variable {W : Type}

/-! ### the specification -/

/-- `(define f (lambda ids body))` in a library whose globals `known` stay variables; ids are bound once, their time stamps are below `N`. -/
structure Proc where
  f : Id
  known : Id → Bool
  ids : List Id
  body : Exp
  N : Nat

/-- names are as the expander makes them: `f` and `known` are global, parameters and bound ids are local and bound once. -/
structure Proc.Named (p : Proc) : Prop where
  f : p.f.isGlobal = true
  known : ∀ x, p.known x = true → x.isGlobal = true
  nd : (p.ids ++ binders p.body).Nodup
  lc : ∀ x ∈ p.ids ++ binders p.body, x.isGlobal = false
  ts : ∀ x ∈ p.ids ++ binders p.body, x.ts < p.N

/-- the procedure passes the check for stack functions. -/
def Proc.isStack (p : Proc) : Bool := agStack p.f p.known p.body p.ids [] true

/-- the C function. -/
def Proc.code (T : Texts) (p : Proc) : Fn := cgFn T p.f p.ids p.body p.N

/-- the procedure as a value. -/
def Proc.clos (p : Proc) : Val := .clos p.ids p.body .nil

/-- **What a call of the C function `P` with arguments `vs` does is what the application of the procedure `p` can do**: return the same value and leave
the same store; fail if the application can get stuck; end the program with the same value; run forever if the application can. -/
structure Same' (M : Sem W) (p : Proc) (P : Fn) (vs : List Val) (κ : Kont) (σ : Store W) : Prop where
  ok : ∀ n v σ', callFn M P n vs σ = .ok (v, σ') → ∃ m, Runs M m (.ap p.clos vs κ σ) (.ret v κ σ')
  fail : ∀ n, callFn M P n vs σ = .fail → ∃ m t, Runs M m (.ap p.clos vs κ σ) t ∧ Stuck M t
  stop : ∀ n v w, callFn M P n vs σ = .stop v w → ∃ m, Runs M m (.ap p.clos vs κ σ) (.done v w)
  more : (∀ n, callFn M P n vs σ = .more) → ∀ k, ∃ t, Runs M k (.ap p.clos vs κ σ) t

/-! ### the function -/

/-- what the proof fixes. -/
def Proc.prog (M : Sem W) (T : Texts) (p : Proc) : Prog W := ⟨M, T, p.f, p.clos, p.known, p.code T⟩

theorem initFrame_get : ∀ {ids : List Id} {vs : List Val}, ids.Nodup → ids.length = vs.length → ∀ (i : Nat) p, ids[i]? = some p → initFrame ids vs p = vs[i]?
  | [], _, _, _, i, p, h => by simp at h
  | _ :: _, [], _, h, _, _, _ => by simp at h
  | x :: ids, v :: vs, hn, hl, i, p, h => by
    rw [List.nodup_cons] at hn
    rw [initFrame, Frame.set]
    cases i with
    | zero => simp at h; simp [h]
    | succ i =>
      have h' : ids[i]? = some p := by simpa using h
      rw [if_neg (by rintro rfl; exact hn.1 (List.mem_of_getElem? h'))]
      simpa using initFrame_get hn.2 (by simpa using hl) i p h'

/-- the label at the start changes nothing. -/
theorem code_run {M : Sem W} {T : Texts} (p : Proc) : ∀ k (fr : Frame) (σ : Store W), run M (p.code T) k (p.code T).code fr σ = run M (p.code T) k (cgBody T p.f p.body .ret [(p.f, p.ids)] p.N).1 fr σ := by
  have hcode : (p.code T).code = (if tc p.f p.body then [.label (.id p.f)] else []) ++ (cgBody T p.f p.body .ret [(p.f, p.ids)] p.N).1 := rfl
  intro k fr σ
  cases k with
  | zero => rfl
  | succ k =>
    have e1 := run_succ (p.prog M T) k
    show run (p.prog M T).M (p.prog M T).P (k + 1) _ fr σ = run (p.prog M T).M (p.prog M T).P (k + 1) _ fr σ
    rw [e1, e1]
    congr 1
    show execs _ _ _ _ _ = execs _ _ _ _ _
    rw [hcode]
    split
    · rw [List.singleton_append, execs, exec]; rfl
    · rfl

theorem fn_ok {M : Sem W} {T : Texts} {p : Proc} (hN : p.Named) (hs : p.isStack = true) (hsn : sane p.body [(p.f, p.ids)] true = true) : ∀ n, ∀ k ≤ n,
    ∀ (fr : Frame) vs κ (σ : Store W), σ.glob p.f = some p.clos → p.ids.length = vs.length → (∀ (i : Nat) q, p.ids[i]? = some q → fr q = vs[i]?) →
      Sim M k (.ap p.clos vs κ σ) (run M (p.code T) k (cgBody T p.f p.body .ret [(p.f, p.ids)] p.N).1 fr σ) (Ret κ σ) := by
  have hfb : p.f ∉ binders p.body := fun h => by have := hN.lc p.f (by simp [h]); rw [hN.f] at this; cases this
  have hcode : (p.code T).code = (if tc p.f p.body then [.label (.id p.f)] else []) ++ (cgBody T p.f p.body .ret [(p.f, p.ids)] p.N).1 := rfl
  have hrun := code_run (M := M) (T := T) p
  have hnd := List.nodup_append.1 hN.nd
  intro n
  induction n with
  | zero =>
    intro k hk fr vs κ σ _ _ _
    obtain rfl : k = 0 := by omega
    rw [run]; exact ⟨0, _, Nat.le_refl _, .refl _⟩
  | succ n ih =>
    intro k hk
    by_cases hk' : k ≤ n
    · exact ih k hk'
    obtain rfl : k = n + 1 := by omega
    intro fr vs κ σ hg hl hv
    have e1 := run_succ (p.prog M T) n
    show Sim (p.prog M T).M (n + 1) _ (run (p.prog M T).M (p.prog M T).P (n + 1) _ fr σ) _
    rw [e1]
    refine Sim.step' (any_clos hl _ _ _ _) ?_
    refine Sim.bind (body_ok (G := p.prog M T) p.body n .ret p.ids [] [(p.f, p.ids)] p.N _ κ σ fr ?_ ?_) (fun fl s h => h.2)
    · exact ⟨by simpa [Proc.isStack, Proc.prog] using hs, by simpa using hsn, hnd.2.1, fun x hx => hN.lc x (by simp [hx]), fun x hx => hN.ts x (by simp [hx]), fun x hx h => hnd.2.2 x hx x h rfl,
        fun x hx => hN.ts x (by simp [hx]), by simp⟩
    · refine ⟨fun m hm => ⟨hN.f, hN.known, fun vs' κ' σ' hg' => ?_⟩, ?_, hg, fun _ => ?_, fun _ => ?_⟩
      · show Sim M m (.ap p.clos vs' κ' σ') (callee M (p.code T) m vs' σ') _
        unfold callee
        split
        · rename_i hl'
          rw [hrun]
          exact ih m hm _ vs' κ' σ' hg' hl' (initFrame_get hnd.1 hl')
        · trivial
      · have := agr_bind (ρ := .nil) (xs := []) hnd.1 hl hv (by simp) (fun x hx => by cases hx)
        simpa using this
      · intro g ps hp
        rw [params] at hp
        split at hp
        · rename_i e; subst e; injection hp with hp; subst hp
          refine ⟨hfb, fun q hq => hN.ts q (by simp [hq]), [], .nil, p.clos, by simp, by simp, by simp, hnd.1, .inl ⟨rfl, rfl⟩, ?_⟩
          intro m hm fr' vs' κ' σ' hg' hl' _ hv'
          unfold Prog.jump
          show Sim M m _ (match findLabel (.id p.f) (p.code T).code with | some k => run M (p.code T) m k fr' σ' | none => .bad) _
          rw [hcode]
          split
          · rename_i k hk
            split at hk
            · simp only [List.singleton_append, findLabel, findStmt, if_true, List.nil_append, Option.some.injEq] at hk
              subst hk
              exact ih m hm fr' vs' κ' σ' hg' hl' hv'
            · rw [List.nil_append, (cg_labels T p.f p.f).1 _ _ _ _ hfb] at hk; cases hk
          · trivial
        · simp [params] at hp
      · refine ⟨[], fun x hx => ?_⟩
        have hne : p.f ≠ x := fun e => hfb (e ▸ hx)
        show findLabel (.id x) (p.code T).code = _
        rw [hcode]
        split
        · rw [List.singleton_append, findLabel, findStmt, if_neg (by intro e; injection e with e; exact hne e)]
          simp [Proc.prog]
        · show findLabel (.id x) (_ : List Stmt) = _
          rw [List.nil_append]
          simp [Proc.prog]

theorem Runs.take {M : Sem W} : ∀ {m k : Nat} {s t : State W}, Runs M m s t → k ≤ m → ∃ u, Runs M k s u
  | _, 0, s, _, _, _ => ⟨s, .refl s⟩
  | _, k + 1, s, _, .refl _, h => by omega
  | _, k + 1, s, _, .step a r, h => by
    obtain ⟨u, hu⟩ := r.take (k := k) (by omega)
    exact ⟨u, .step a hu⟩

/-! ### C57 -/

/-- **What a stack function does, the procedure can do**: if calls have the right number of arguments (`sane`), for every call of the C function. -/
theorem c57_stack_functions_partial (M : Sem W) (T : Texts) (p : Proc) (hN : p.Named) (hs : p.isStack = true) (hsn : sane p.body [(p.f, p.ids)] true = true)
    (vs : List Val) (hl : p.ids.length = vs.length) (κ : Kont) (σ : Store W) (hg : σ.glob p.f = some p.clos) : Same' M p (p.code T) vs κ σ := by
  have hrun : ∀ n, Sim M n (.ap p.clos vs κ σ) (callFn M (p.code T) n vs σ) (Ret κ σ) := by
    intro n
    have hnd := List.nodup_append.1 hN.nd
    have h := fn_ok (M := M) (T := T) hN hs hsn n n (Nat.le_refl n) (initFrame p.ids vs) vs κ σ hg hl (initFrame_get hnd.1 hl)
    rw [callFn, code_run]
    exact h
  refine ⟨fun n v σ' h => ?_, fun n h => ?_, fun n v w h => ?_, fun h k => ?_⟩
  · have := hrun n; rw [h] at this
    obtain ⟨m, t, h1, h2, -⟩ := this
    exact ⟨m, h2 ▸ h1⟩
  · have := hrun n; rw [h] at this
    exact this
  · have := hrun n; rw [h] at this
    exact this
  · have := hrun k; rw [h k] at this
    obtain ⟨m, t, h1, h2⟩ := this
    exact h2.take h1

/-- **The C function is well-formed**: the code generator reports no error, all labels used in `goto` exist, calls have the right number of
arguments, and nothing is allocated while values are in C variables; if also tail calls in the body of a named `let` stay in it (`closed`). -/
theorem c57_accepted_partial (T : Texts) (p : Proc) (hN : p.Named) (hs : p.isStack = true) (hsn : sane p.body [(p.f, p.ids)] true = true) (hc : closed p.body = true) : Accepted (p.code T) := by
  have hfb : p.f ∉ binders p.body := fun h => by have := hN.lc p.f (by simp [h]); rw [hN.f] at this; cases this
  have hcode : (p.code T).code = (if tc p.f p.body then [.label (.id p.f)] else []) ++ (cgBody T p.f p.body .ret [(p.f, p.ids)] p.N).1 := rfl
  have hnd := List.nodup_append.1 hN.nd
  have hb : okSs p.ids.length (fun l => (findLabel l (p.code T).code).isSome) (cgBody T p.f p.body .ret [(p.f, p.ids)] p.N).1 = true := by
    refine body_acc (known := p.known) p.body .ret p.ids [] [(p.f, p.ids)] p.N ⟨by simpa [Proc.isStack] using hs, by simpa using hsn, hc, hnd.2.1, hfb, by simp, ?_, by simp [params]⟩ (fun _ => ⟨?_, ?_⟩)
    · intro g hg
      simp only [List.not_mem_nil, or_false] at hg
      exact ⟨p.ids, by simp [params, hg]⟩
    · intro g hg hg'
      simp only [List.not_mem_nil, or_false] at hg'
      subst hg'
      rw [hcode, tc_targets _ _ hc hg hfb]
      simp [findLabel, findStmt]
    · intro x hx
      rw [hcode]
      cases h : findLabel (.id x) ((if tc p.f p.body then [.label (.id p.f)] else []) ++ (cgBody T p.f p.body .ret [(p.f, p.ids)] p.N).1) with
      | some c => rfl
      | none => exact absurd (none_append.1 h).2 hx
  show okSs p.ids.length (fun l => (findLabel l (p.code T).code).isSome) (p.code T).code = true
  conv => lhs; arg 3; rw [hcode]
  rw [okSs_append, hb]
  split <;> rfl

/-- well-formed code runs: it never comes to a compiler error, a missing label, an allocation, or a call with the wrong number of arguments. -/
theorem c57_runs (M : Sem W) (T : Texts) (p : Proc) (h : Accepted (p.code T)) (n : Nat) (vs : List Val) (σ : Store W) : callFn M (p.code T) n vs σ ≠ .bad :=
  run_nb M h n _ _ _ h

/-- **The full claim**: what passes the check becomes a C function that is accepted and does what the procedure does. -/
def C57Full : Prop := ∀ (W : Type) (M : Sem W) (T : Texts) (p : Proc), p.Named → p.isStack = true →
  Accepted (p.code T) ∧ ∀ (vs : List Val), p.ids.length = vs.length → ∀ (κ : Kont) (σ : Store W), σ.glob p.f = some p.clos → Same' M p (p.code T) vs κ σ

/-! ### a procedure -/

/-- a global id. -/
def exF : Id := ⟨-1, true⟩

/-- `(define (f n acc)
  (if n
      (begin (op1 n) (f (op0 n) (if (f (op0 n) acc) n acc)))
      (letrec ([g (lambda (x) (if x (h acc) (f x x)))] [h (lambda (y) (g (op0 y (let ([z (f y y)]) z))))])
        (let loop ([i (let ([w (op0 acc)]) (op1 w w))] [j n]) (if (begin (op1 i) j) (loop j i) i)))))`, with a loop that is never left by a jump. -/
def exP : Proc where
  f := exF
  known := fun _ => false
  ids := [lexId 0, lexId 1]
  body := .ite (.var (lexId 0))
    (.app (.lam [lexId 2] (.app (.var exF) [.prim noEffect (.op 0) [.var (lexId 0)], .ite (.app (.var exF) [.prim noEffect (.op 0) [.var (lexId 0)], .var (lexId 1)]) (.var (lexId 0)) (.var (lexId 1))]))
      [.prim noEffect (.op 1) [.var (lexId 0)]])
    (.fix [lexId 3, lexId 4]
      [.lam [lexId 5] (.ite (.var (lexId 5)) (.app (.var (lexId 4)) [.var (lexId 1)]) (.app (.var exF) [.var (lexId 5), .var (lexId 5)])),
       .lam [lexId 6] (.app (.var (lexId 3)) [.prim noEffect (.op 0) [.var (lexId 6), .app (.lam [lexId 7] (.var (lexId 7))) [.app (.var exF) [.var (lexId 6), .var (lexId 6)]]]])]
      (.app (.fix [lexId 8] [.lam [lexId 9, lexId 10]
          (.ite (.app (.lam [lexId 11] (.var (lexId 10))) [.prim noEffect (.op 1) [.var (lexId 9)]]) (.app (.var (lexId 8)) [.var (lexId 10), .var (lexId 9)]) (.var (lexId 9)))] (.var (lexId 8)))
        [.app (.lam [lexId 12] (.prim noEffect (.op 1) [.var (lexId 12), .var (lexId 12)])) [.prim noEffect (.op 0) [.var (lexId 1)]], .var (lexId 0)]))
  N := 13

theorem exP_named : exP.Named where
  f := rfl
  known := fun x hx => by cases hx
  nd := by decide +kernel
  lc := by decide +kernel
  ts := by decide +kernel

example : exP.Named ∧ exP.isStack = true ∧ sane exP.body [(exP.f, exP.ids)] true = true ∧ closed exP.body = true :=
  ⟨exP_named, by decide +kernel, by decide +kernel, by decide +kernel⟩

example (T : Texts) : Accepted (exP.code T) := c57_accepted_partial T exP exP_named (by decide +kernel) (by decide +kernel) (by decide +kernel)

/-- a call that returns: the jumps and the nested call are taken. -/
def exM : Sem Nat := ⟨fun n _ w => some (if n = 0 then 0 else 7, w + 1)⟩
@[inherit_doc exM]
def exRun : Res Nat (Val × Store Nat) := callFn exM (exP.code (fun _ => true)) 50 [.atom 2, .atom 5] ⟨fun x => if x = exF then some exP.clos else none, [], 0⟩
example : (match exRun with | .ok (.atom v, σ) => some (v, σ.world) | _ => none) = some (7, 9) := by decide +kernel

/-! ### what goes wrong -/

/-- `(define (f n) (let loop ([i n]) (f i)))` -/
def exLoop : Proc where
  f := exF
  known := fun _ => false
  ids := [lexId 0]
  body := .app (.fix [lexId 1] [.lam [lexId 2] (.app (.var exF) [.var (lexId 2)])] (.var (lexId 1))) [.var (lexId 0)]
  N := 3

/-- **The full claim fails**: a tail call of the function from the body of a named `let` becomes a jump to a label that is not there, because
`cg-contains-tail-call?` (6.sf:699-716) does not look into named `let`. -/
theorem c57_counterexample : ¬ C57Full := by
  intro h
  have h1 := (h Nat ⟨fun _ _ _ => none⟩ (fun _ => true) exLoop ⟨rfl, fun x hx => (by cases hx), by decide +kernel, by decide +kernel, by decide +kernel⟩ (by decide +kernel)).1
  revert h1
  unfold Accepted
  decide +kernel

/-- `(define (f a) (if a (f) a))` -/
def exArity : Proc where
  f := exF
  known := fun _ => false
  ids := [lexId 0]
  body := .ite (.var (lexId 0)) (.app (.var exF) []) (.var (lexId 0))
  N := 1

@[inherit_doc exArity]
def exStore : Store Nat := ⟨fun x => if x = exF then some exArity.clos else none, [], 0⟩

theorem Runs.inv {M : Sem W} {n : Nat} {s t : State W} (h : Runs M (n + 1) s t) : ∃ u, Any M s u ∧ Runs M n u t := by
  cases h with
  | step a r => exact ⟨_, a, r⟩

/-- **Calls with too few arguments**: the check and the code generator do not compare the numbers of arguments and parameters; the jump keeps the old values of the parameters
left over.  Here the function runs forever, where the procedure stops with an error. -/
theorem c57_counterexample_arity (M : Sem Nat) (T : Texts) : exArity.Named ∧ exArity.isStack = true ∧ Accepted (exArity.code T) ∧ exStore.glob exArity.f = some exArity.clos ∧
    ¬ Same' M exArity (exArity.code T) [.atom 2] .halt exStore := by
  have hcode : (exArity.code T).code = [.label (.id exF), .ite (.var (lexId 0)) [.goto (.id exF)] [.put .ret (.var (lexId 0))]] := rfl
  refine ⟨⟨rfl, fun x hx => (by cases hx), by decide +kernel, by decide +kernel, by decide +kernel⟩, by decide +kernel, ?_, rfl, fun h => ?_⟩
  · unfold Accepted
    rw [hcode]
    rfl
  · have hm : ∀ n, ∀ code, (code = (exArity.code T).code ∨ code = (exArity.code T).code.tail) → run M (exArity.code T) n code (initFrame [lexId 0] [.atom 2]) exStore = .more := by
      intro n
      induction n with
      | zero => intro code _; rfl
      | succ n ih =>
        intro code hc
        have hf : findLabel (.id exF) (exArity.code T).code = some (exArity.code T).code.tail := by rw [hcode]; rfl
        have hv : initFrame [lexId 0] [Val.atom 2] (lexId 0) = some (.atom 2) := rfl
        have hg : (lexId 0).isGlobal = false := rfl
        have he : execs M (fun vs σ => if (exArity.code T).params.length = vs.length then run M (exArity.code T) n (exArity.code T).code (initFrame (exArity.code T).params vs) σ else .bad)
            code (initFrame [lexId 0] [.atom 2]) exStore = .ok (.jump (.id exF) (initFrame [lexId 0] [.atom 2]) exStore) := by
          rw [hcode] at hc
          rcases hc with rfl | rfl
          · simp [execs, exec, evalC, hv, hg, Res.bind, Val.isFalse]
          · simp [execs, exec, evalC, hv, hg, Res.bind, Val.isFalse]
        rw [run, he]
        simp only [Res.bind, hf]
        exact ih _ (.inr rfl)
    obtain ⟨t, ht⟩ := h.more (fun n => hm n _ (.inl rfl)) 12
    have hord : ∀ (ord : Op → List Exp → List Nat), FairOrder ord → ∀ op e, ord op [e] = [0] := fun ord ho op e => by simpa using ho op [e]
    obtain ⟨u, ⟨ord, ho, h1⟩, ht⟩ := ht.inv
    simp [Core.step, Proc.clos, exArity, bindAll] at h1; subst h1
    obtain ⟨u, ⟨ord, ho, h1⟩, ht⟩ := ht.inv
    simp [Core.step] at h1; subst h1
    obtain ⟨u, ⟨ord, ho, h1⟩, ht⟩ := ht.inv
    simp [Core.step, Env.lookup, show (lexId 0).isGlobal = false from rfl] at h1; subst h1
    obtain ⟨u, ⟨ord, ho, h1⟩, ht⟩ := ht.inv
    simp [Core.step, Val.isFalse] at h1; subst h1
    obtain ⟨u, ⟨ord, ho, h1⟩, ht⟩ := ht.inv
    simp [Core.step, hord ord ho] at h1; subst h1
    obtain ⟨u, ⟨ord, ho, h1⟩, ht⟩ := ht.inv
    simp [Core.step] at h1; subst h1
    obtain ⟨u, ⟨ord, ho, h1⟩, ht⟩ := ht.inv
    simp [Core.step, show exF.isGlobal = true from rfl, exStore] at h1; subst h1
    obtain ⟨u, ⟨ord, ho, h1⟩, ht⟩ := ht.inv
    simp [Core.step] at h1; subst h1
    obtain ⟨u, ⟨ord, ho, h1⟩, ht⟩ := ht.inv
    simp [Core.step, vals, upd] at h1; subst h1
    obtain ⟨u, ⟨ord, ho, h1⟩, ht⟩ := ht.inv
    simp [Core.step, Proc.clos, exArity] at h1

end Verif.Stackfn

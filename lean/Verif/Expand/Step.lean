import Verif.Expand.Sim
/-
Corresponding forms expand to corresponding outputs: one level of the recursion.  The run on the left has the switch on.
-/
namespace Verif.Expand
open Verif.Macros

/-- if the first computation succeeds, the second one does, with a corresponding answer. -/
def Q (A : Ans → Ans → Prop) (a a' : Option Ans) : Prop := ∀ x, a = some x → ∃ x', a' = some x' ∧ A x x'

theorem Q.none {A : Ans → Ans → Prop} {a' : Option Ans} : Q A none a' := fun _ h => by cases h

/-- corresponding continuations. -/
def EKRel (h : Host) (N : IdRel) (A : Ans → Ans → Prop) (k k' : EK) : Prop := ∀ o o', OutRel h N o o' → Q A (k o) (k' o')
@[inherit_doc EKRel] def SKRel (h : Host) (N : IdRel) (sh : Nat) (gl : Bool) (A : Ans → Ans → Prop) (k k' : SK) : Prop :=
  ∀ v v' hd hd' st st' ln, ValRel h N sh gl v v' → StoreRel h N sh gl st st' → Q A (k v hd st ln) (k' v' hd' st' ln)
@[inherit_doc EKRel] def DKRel (h : Host) (N : IdRel) (sh : Nat) (gl : Bool) (A : Ans → Ans → Prop) (W : IdRel → Env → Env → Prop) (k k' : DK) : Prop :=
  ∀ R b hd hd' x x' idn e e' st st' ln, W R e e' → Good N sh gl R e e' idn → SxRel R x x' → StoreRel h N sh gl st st' →
    Q A (k b (.pair hd x) idn e st ln) (k' b (.pair hd' x') (idn + sh) e' st' ln)
@[inherit_doc EKRel] def BKRel (h : Host) (N : IdRel) (sh : Nat) (gl : Bool) (A : Ans → Ans → Prop) (W : IdRel → Env → Env → Prop) (k k' : BK) : Prop :=
  ∀ R hd hd' x x' idn e e' st st' ln, W R e e' → Good N sh gl R e e' idn → SxRel R x x' → StoreRel h N sh gl st st' →
    Q A (k (.pair hd x) idn e st ln) (k' (.pair hd' x') (idn + sh) e' st' ln)

/-- one correspondence extends another. -/
def Le (R S : IdRel) : Prop := ∀ s s', R s s' → S s s'

theorem Le.refl (R : IdRel) : Le R R := fun _ _ h => h
theorem Le.trans {R S T : IdRel} (h : Le R S) (g : Le S T) : Le R T := fun _ _ q => g _ _ (h _ _ q)

/-- where definitions may be met: anywhere at the top level, otherwise in the same environment. -/
def Where (W : IdRel → Env → Env → Prop) (lsd : Bool) (R : IdRel) (e e' : Env) : Prop :=
  ∀ R2 e2 e2', (lsd = true ∨ (Le R R2 ∧ e2 = e ∧ e2' = e')) → W R2 e2 e2'

/-- plain answers. -/
def OutA (h : Host) (N : IdRel) (A : Ans → Ans → Prop) : Prop := ∀ o o', OutRel h N o o' → A (.out o) (.out o')

/-- corresponding `expand-any`. -/
def AnySim (h : Host) (N : IdRel) (sh : Nat) (gl : Bool) (any any' : AnyT) : Prop :=
  ∀ A W R x x' idn e e' st st' ln lsd ek ek' sk sk' dk dk' bk bk', OutA h N A → Good N sh gl R e e' idn → SxRel R x x' →
    StoreRel h N sh gl st st' → Where W lsd R e e' → Option.Rel (EKRel h N A) ek ek' → Option.Rel (SKRel h N sh gl A) sk sk' →
    Option.Rel (DKRel h N sh gl A W) dk dk' → Option.Rel (BKRel h N sh gl A W) bk bk' →
    Q A (any x idn e st ln lsd ek sk dk bk) (any' x' (idn + sh) e' st' ln lsd ek' sk' dk' bk')

/-- corresponding constants. -/
def QuoteSim (h : Host) (N : IdRel) (sh : Nat) (gl : Bool) (any any' : AnyT) : Prop :=
  ∀ A R x x' idn st st' ln lsd ek ek' sk sk' dk dk' bk bk', (∀ s s', R s s' → N s s') → SxRel R x x' → StoreRel h N sh gl st st' →
    Option.Rel (EKRel h N A) ek ek' →
    Q A (any (listOf [.sym "%quote", decompose h x]) idn [] st ln lsd ek sk dk bk)
      (any' (listOf [.sym "%quote", decompose h x']) (idn + sh) [] st' ln lsd ek' sk' dk' bk')

/-- corresponding definitions. -/
abbrev DsRel (Ri Rs : IdRel) : List (Sx × Sx) → List (Sx × Sx) → Prop :=
  List.Forall₂ fun d d' => (∃ a b c a' b' c', d.1 = .sid a b c ∧ d'.1 = .sid a' b' c' ∧ Ri (a, b, c) (a', b', c')) ∧ SxRel Rs d.2 d'.2

/-- the environment binds what is defined. -/
def InEnv (ds : List (Sx × Sx)) (e : Env) : Prop := ∀ d ∈ ds, (assv (sidId d.1) e).isSome = true

/-- corresponding continuations of `expand-def`. -/
def DefKRel (h : Host) (N : IdRel) (sh : Nat) (gl : Bool) (A : Ans → Ans → Prop) (R : IdRel) (k k' : DefK) : Prop :=
  ∀ R2 vds vds' sds sds' exprs exprs' idn e e' st st' ln, Le R R2 → Good N sh gl R2 e e' idn → DsRel R2 R2 vds vds' →
    DsRel R2 R2 sds sds' → InEnv sds e → Option.Rel (List.Forall₂ (SxRel R2)) exprs exprs' → StoreRel h N sh gl st st' →
    Q A (k vds sds exprs idn e st ln) (k' vds' sds' exprs' (idn + sh) e' st' ln)

/-- corresponding `expand-def`. -/
def DefSim (h : Host) (N : IdRel) (sh : Nat) (gl : Bool) (dfn dfn' : DefT) : Prop :=
  ∀ A R x x' vds vds' sds sds' exprs exprs' idn e e' st st' ln k k' ek ek', OutA h N A → Good N sh gl R e e' idn → SxRel R x x' →
    DsRel R R vds vds' → DsRel R R sds sds' → InEnv sds e → Option.Rel (List.Forall₂ (SxRel R)) exprs exprs' →
    StoreRel h N sh gl st st' → DefKRel h N sh gl A R k k' → Option.Rel (EKRel h N A) ek ek' →
    Q A (dfn x vds sds exprs idn e st ln k ek) (dfn' x' vds' sds' exprs' (idn + sh) e' st' ln k' ek')

section
variable {h : Host} {N : IdRel} {sh : Nat} {gl : Bool} {R : IdRel} {e e' : Env} {idn : Nat}

theorem forall₂_mono {V W : Type} {P P2 : V → W → Prop} (hp : ∀ a b, P a b → P2 a b) : ∀ {l : List V} {l' : List W},
    List.Forall₂ P l l' → List.Forall₂ P2 l l'
  | _, _, .nil => .nil
  | _, _, .cons a b => .cons (hp _ _ a) (forall₂_mono hp b)

theorem DsRel.mono {Ri Rs Ri2 Rs2 : IdRel} (hi : Le Ri Ri2) (hs : Le Rs Rs2) {l l' : List (Sx × Sx)} (hd : DsRel Ri Rs l l') :
    DsRel Ri2 Rs2 l l' :=
  forall₂_mono (fun _ _ ⟨⟨a, b, c, a', b', c', h1, h2, h3⟩, h4⟩ => ⟨⟨a, b, c, a', b', c', h1, h2, hi _ _ h3⟩, h4.mono hs⟩) hd

theorem Good.bind (hg : Good N sh gl R e e' idn) {k k' : Key} (hk : idR R k k') (ln : Nat) :
    Good N sh gl R ((k, .num ln) :: e) ((k', .num ln) :: e') idn where
  clo := hg.clo
  name := hg.name
  ids := hg.ids
  det := hg.det
  num := hg.num
  look s s' hs := by
    simp only [lookupSid, assv]
    have := hg.idR_iff ⟨s, s', hs, rfl, rfl⟩ hk
    by_cases h1 : s.2.1 = k
    · rw [if_pos h1, if_pos (this.mp h1)]; rfl
    · rw [if_neg h1, if_neg (fun h2 => h1 (this.mpr h2))]
      exact hg.look s s' hs
  num' := hg.num'
  ok := hg.ok
  envNum a' ha' := by
    obtain ⟨s, s', hs, rfl, rfl⟩ := hk
    simp only [assv] at ha' ⊢
    by_cases h1 : Key.num a' = s'.2.1
    · obtain ⟨a, ha⟩ := hg.num' s s' hs a' h1.symm
      obtain ⟨b, hb, hle⟩ := hg.num s s' hs a ha
      rw [← h1] at hb
      cases hb
      exact ⟨a, by rw [if_pos ha.symm]; rfl, hle⟩
    · rw [if_neg h1] at ha'
      obtain ⟨a, ha, hle⟩ := hg.envNum a' ha'
      refine ⟨a, ?_, hle⟩
      split
      · rfl
      · exact ha
  vals p hp := by
    rcases List.mem_cons.mp hp with rfl | hp
    · exact ⟨ln, rfl⟩
    · exact hg.vals p hp
  vals' p hp := by
    rcases List.mem_cons.mp hp with rfl | hp
    · exact ⟨ln, rfl⟩
    · exact hg.vals' p hp
  fresh := hg.fresh
  envFresh a ha := by
    obtain ⟨s, s', hs, rfl, rfl⟩ := hk
    simp only [assv] at ha
    by_cases h1 : Key.num a = s.2.1
    · exact hg.fresh s s' hs a h1.symm
    · rw [if_neg h1] at ha
      exact hg.envFresh a ha

theorem idR.mono {S : IdRel} (hl : Le R S) {k k' : Key} (hk : idR R k k') : idR S k k' := by
  obtain ⟨s, s', h1, h2, h3⟩ := hk
  exact ⟨s, s', hl _ _ h1, h2, h3⟩

theorem Good.nodup (hg : Good N sh gl R e e' idn) : ∀ {l l' : List Sx}, List.Forall₂ (SxRel R) l l' → (∀ x ∈ l, isSid x = true) →
    (l.Nodup ↔ l'.Nodup)
  | _, _, .nil, _ => by simp
  | x :: l, x' :: l', .cons h1 h2, hs => by
    have ih := hg.nodup h2 (fun y hy => hs y (List.mem_cons_of_mem _ hy))
    have hx := hs x List.mem_cons_self
    have hm : x ∈ l ↔ x' ∈ l' := by
      cases h1 with
      | sid r =>
        rename_i a b c a' b' c'
        have : ∀ {l l' : List Sx}, List.Forall₂ (SxRel R) l l' → (Sx.sid a b c ∈ l ↔ Sx.sid a' b' c' ∈ l') := by
          intro l l' hl
          induction hl with
          | nil => simp
          | cons q1 q2 ih =>
            simp only [List.mem_cons, ih]
            refine or_congr_left ?_
            cases q1 with
            | sid q =>
              have q1 := hg.ids _ _ _ _ r q
              have q2 := hg.det _ _ _ _ r q
              constructor
              · intro he
                simp only [Sx.sid.injEq] at he
                obtain ⟨rfl, rfl, rfl⟩ := he
                have := (q2 rfl).2
                simp only [Prod.mk.injEq] at this
                obtain ⟨rfl, rfl, rfl⟩ := this
                rfl
              · intro he
                simp only [Sx.sid.injEq] at he
                obtain ⟨rfl, rfl, rfl⟩ := he
                have := (q2 (q1.mpr rfl)).1
                simp only [Prod.mk.injEq] at this
                obtain ⟨rfl, rfl, rfl⟩ := this
                rfl
            | _ => simp
        exact this h2
      | _ => simp [isSid] at hx
    simp only [List.nodup_cons, ih, hm]

theorem all_isSid_rel : ∀ {l l' : List Sx}, List.Forall₂ (SxRel R) l l' → l.all isSid = l'.all isSid
  | _, _, .nil => rfl
  | _, _, .cons h1 h2 => by simp only [List.all_cons, isSid_rel h1, all_isSid_rel h2]

theorem flattenDotted_rel : ∀ {x x' : Sx}, SxRel R x x' → List.Forall₂ (SxRel R) (flattenDotted x) (flattenDotted x')
  | _, _, .nil => .cons .nil .nil
  | _, _, .atom n => .cons (.atom n) .nil
  | _, _, .sid r => .cons (.sid r) .nil
  | _, _, .vec l r => .cons (.vec l r) .nil
  | _, _, .pair r s => by simpa only [flattenDotted] using .cons r (flattenDotted_rel s)

theorem bindFormals_rel : ∀ {fs fs' : List Sx}, List.Forall₂ (SxRel R) fs fs' → ∀ {e e' : Env} {st st' : Store} (ln : Nat),
    Good N sh gl R e e' idn → StoreRel h N sh gl st st' →
    List.Forall₂ (VarRel N) (bindFormals fs e st ln).1 (bindFormals fs' e' st' ln).1 ∧
    Good N sh gl R (bindFormals fs e st ln).2.1 (bindFormals fs' e' st' ln).2.1 idn ∧
    StoreRel h N sh gl (bindFormals fs e st ln).2.2.1 (bindFormals fs' e' st' ln).2.2.1 ∧
    (bindFormals fs e st ln).2.2.2 = (bindFormals fs' e' st' ln).2.2.2
  | _, _, .nil, _, _, _, _, _, hg, hs => ⟨.nil, hg, hs, rfl⟩
  | _, _, .cons h1 h2, e, e', st, st', ln, hg, hs => by
    cases h1 with
    | sid r =>
      simp only [bindFormals]
      have hn := hg.name _ _ r
      have hv : VarRel N (.loc ln _) (.loc ln _) := .loc ln ⟨_, _, _, _, hn⟩
      obtain ⟨q1, q2, q3, q4⟩ := bindFormals_rel h2 (ln + 1) (hg.bind ⟨_, _, r, rfl, rfl⟩ ln) (hs.cons ln (.var hv))
      exact ⟨.cons hv q1, q2, q3, q4⟩
    | _ =>
      simp only [bindFormals]
      exact bindFormals_rel h2 ln hg hs

theorem dropLast_rel {V W : Type} {P : V → W → Prop} : ∀ {l : List V} {l' : List W}, List.Forall₂ P l l' →
    List.Forall₂ P l.dropLast l'.dropLast
  | _, _, .nil => .nil
  | _, _, .cons _ .nil => .nil
  | _, _, .cons a (.cons b c) => by simpa only [List.dropLast] using .cons a (dropLast_rel (.cons b c))

theorem getLast_rel {V W : Type} {P : V → W → Prop} : ∀ {l : List V} {l' : List W}, List.Forall₂ P l l' →
    Option.Rel P l.getLast? l'.getLast?
  | _, _, .nil => .none
  | _, _, .cons a .nil => .some a
  | _, _, .cons _ (.cons b c) => by simpa only [List.getLast?_cons_cons] using getLast_rel (.cons b c)

theorem bindKeywords_rel : ∀ {fs fs' : List Sx}, List.Forall₂ (SxRel R) fs fs' → (∀ f ∈ fs, isSid f = true) →
    ∀ (ln : Nat) {e e' : Env}, Good N sh gl R e e' idn → Good N sh gl R (bindKeywords fs ln e) (bindKeywords fs' ln e') idn
  | _, _, .nil, _, _, _, _, hg => hg
  | f :: _, _, .cons h1 h2, hs, ln, e, e', hg => by
    have := hs f List.mem_cons_self
    cases h1 with
    | sid r =>
      simp only [bindKeywords, sidId]
      exact bindKeywords_rel h2 (fun y hy => hs y (List.mem_cons_of_mem _ hy)) (ln + 1) (hg.bind ⟨_, _, r, rfl, rfl⟩ ln)
    | _ => simp [isSid] at this

theorem bindKeywords_mono (k : Key) : ∀ (fs : List Sx) (ln : Nat) (e : Env), (assv k e).isSome = true →
    (assv k (bindKeywords fs ln e)).isSome = true
  | [], _, _, hk => hk
  | f :: fs, ln, e, hk => by
    simp only [bindKeywords]
    refine bindKeywords_mono k fs (ln + 1) _ ?_
    simp only [assv]
    split
    · rfl
    · exact hk

theorem bindKeywords_mem : ∀ (fs : List Sx) (ln : Nat) (e : Env), ∀ f ∈ fs, (assv (sidId f) (bindKeywords fs ln e)).isSome = true
  | f :: fs, ln, e, f', hf => by
    simp only [bindKeywords]
    rcases List.mem_cons.mp hf with rfl | hf
    · exact bindKeywords_mono _ fs _ _ (by simp [assv])
    · exact bindKeywords_mem fs _ _ f' hf

theorem restrict_rel : ∀ {x x' : Sx}, SxRel R x x' → (∀ n ∈ idNums x, n < idn) →
    SxRel (fun s s' => R s s' ∧ ∀ a, s.2.1 = .num a → a < idn) x x'
  | _, _, .nil, _ => .nil
  | _, _, .atom n, _ => .atom n
  | _, _, .sid (a := a) (b := b) (c := c) r, hx => .sid ⟨r, fun n hn => hx n (by
      simp only at hn
      subst hn
      simp [idNums])⟩
  | _, _, .vec l r, hx => .vec l (restrict_rel r (by simpa only [idNums] using hx))
  | _, _, .pair r s, hx => by
    simp only [idNums, List.mem_append] at hx
    exact .pair (restrict_rel r (fun n hn => hx n (Or.inl hn))) (restrict_rel s (fun n hn => hx n (Or.inr hn)))

theorem restrict_rels : ∀ {l l' : List Sx}, List.Forall₂ (SxRel R) l l' → (∀ x ∈ l, ∀ n ∈ idNums x, n < idn) →
    List.Forall₂ (SxRel (fun s s' => R s s' ∧ ∀ a, s.2.1 = .num a → a < idn)) l l'
  | _, _, .nil, _ => .nil
  | x :: _, _, .cons r s, hx => .cons (restrict_rel r (hx x List.mem_cons_self))
    (restrict_rels s (fun y hy => hx y (List.mem_cons_of_mem _ hy)))

theorem restrict_good (hl : Link N sh gl R e e') (he : ∀ n ∈ envNums e, n < idn) :
    Good N sh gl (fun s s' => R s s' ∧ ∀ a, s.2.1 = .num a → a < idn) e e' idn where
  toLink := hl.mono (fun _ _ h => h.1)
  fresh s s' hs := hs.2
  envFresh a ha := he a (by
    obtain ⟨v, hv⟩ := Option.isSome_iff_exists.mp ha
    simp only [envNums, List.mem_filterMap]
    exact ⟨_, assv_mem_pair hv, rfl⟩)

/-! ### the helpers of the expander -/

variable {any any' : AnyT} {dfn dfn' : DefT}

theorem AnySim.simple (ha : AnySim h N sh gl any any') {A : Ans → Ans → Prop} (hA : OutA h N A) {x x' : Sx} {st st' : Store} {ln : Nat}
    {ek ek' : Option EK} {sk sk' : Option SK} (hg : Good N sh gl R e e' idn) (hx : SxRel R x x') (hs : StoreRel h N sh gl st st')
    (hek : Option.Rel (EKRel h N A) ek ek') (hsk : Option.Rel (SKRel h N sh gl A) sk sk') (lsd : Bool) :
    Q A (any x idn e st ln lsd ek sk none none) (any' x' (idn + sh) e' st' ln lsd ek' sk' none none) :=
  ha A (fun _ _ _ => True) R x x' idn e e' st st' ln lsd ek ek' sk sk' none none none none hA hg hx hs (fun _ _ _ _ => trivial)
    hek hsk .none .none

theorem expandExpr_of_Q {a a' : Option Ans} {o : Out}
    (hQ : Q (fun a a' => ∃ o o', a = .out o ∧ a' = .out o' ∧ OutRel h N o o') a a')
    (ho : outOf a = some o) : ∃ o', outOf a' = some o' ∧ OutRel h N o o' := by
  unfold outOf at ho
  split at ho
  · cases ho
    obtain ⟨x', h1, o1, o1', h2, rfl, h3⟩ := hQ _ rfl
    cases h2
    exact ⟨o1', by rw [h1]; rfl, h3⟩
  · cases ho

theorem OutA.plain : OutA h N (fun a a' => ∃ o o', a = .out o ∧ a' = .out o' ∧ OutRel h N o o') := fun o o' ho => ⟨o, o', rfl, rfl, ho⟩

theorem expandExpr_sim (ha : AnySim h N sh gl any any') {x x' : Sx} {st st' : Store} {ln : Nat} (hg : Good N sh gl R e e' idn)
    (hx : SxRel R x x') (hs : StoreRel h N sh gl st st') {o : Out} (ho : expandExpr any x idn e st ln = some o) :
    ∃ o', expandExpr any' x' (idn + sh) e' st' ln = some o' ∧ OutRel h N o o' := by
  refine expandExpr_of_Q (ha.simple OutA.plain hg hx hs (.some ?_) .none false) ho
  intro o o' ho x hx
  cases hx
  exact ⟨_, rfl, o, o', rfl, rfl, ho⟩

theorem expandExprs_sim (ha : AnySim h N sh gl any any') {st st' : Store} {ln : Nat} (hg : Good N sh gl R e e' idn)
    (hs : StoreRel h N sh gl st st') : ∀ {xs xs' : List Sx}, List.Forall₂ (SxRel R) xs xs' → ∀ {os : List Out},
    expandExprs any xs idn e st ln = some os → ∃ os', expandExprs any' xs' (idn + sh) e' st' ln = some os' ∧ List.Forall₂ (OutRel h N) os os'
  | _, _, .nil, os, ho => by cases ho; exact ⟨[], rfl, .nil⟩
  | x :: xs, x' :: xs', .cons h1 h2, os, ho => by
    simp only [expandExprs] at ho ⊢
    cases h3 : expandExpr any x idn e st ln with
    | none => rw [h3] at ho; cases ho
    | some o =>
      cases h4 : expandExprs any xs idn e st ln with
      | none => rw [h3, h4] at ho; cases ho
      | some os =>
        rw [h3, h4] at ho
        cases ho
        obtain ⟨o', h5, h6⟩ := expandExpr_sim ha hg h1 hs h3
        obtain ⟨os', h7, h8⟩ := expandExprs_sim ha hg hs h2 h4
        exact ⟨_, by rw [h5, h7], .cons h6 h8⟩

theorem expandVal_sim (ha : AnySim h N sh gl any any') {A : Ans → Ans → Prop} (hA : OutA h N A) {x x' : Sx} {st st' : Store} {ln : Nat}
    (hg : Good N sh gl R e e' idn) (hx : SxRel R x x') (hs : StoreRel h N sh gl st st') {k k' : Val → Store → Nat → Option Ans}
    (hk : ∀ v v' st st' ln, ValRel h N sh gl v v' → StoreRel h N sh gl st st' → Q A (k v st ln) (k' v' st' ln)) :
    Q A (expandVal any x idn e st ln k) (expandVal any' x' (idn + sh) e' st' ln k') := by
  refine ha.simple hA hg hx hs (.some ?_) (.some ?_) false
  · intro o o' ho
    exact hk _ _ _ _ _ (.code ho) hs
  · intro v v' hd hd' st st' ln hv hs
    exact hk _ _ _ _ _ hv hs

theorem expandLambda_sim (ha : AnySim h N sh gl any any') {f f' x x' : Sx} {st st' : Store} {ln : Nat} (hg : Good N sh gl R e e' idn)
    (hf : SxRel R f f') (hx : SxRel R x x') (hs : StoreRel h N sh gl st st') {o : Out}
    (ho : expandLambda any f x idn e st ln = some o) :
    ∃ o', expandLambda any' f' x' (idn + sh) e' st' ln = some o' ∧ OutRel h N o o' := by
  have hfs : List.Forall₂ (SxRel R) (if isList f then items f else flattenDotted f) (if isList f' then items f' else flattenDotted f') := by
    rw [← isList_rel hf]
    split
    · exact items_rel hf
    · exact flattenDotted_rel hf
  simp only [expandLambda] at ho ⊢
  revert hfs ho
  generalize (if isList f then items f else flattenDotted f) = fs
  generalize (if isList f' then items f' else flattenDotted f') = fs'
  intro hfs ho
  split at ho
  · rename_i hc
    simp only [Bool.and_eq_true, decide_eq_true_eq] at hc
    have hc' : (fs'.all isSid && decide fs'.Nodup) = true := by
      simp only [Bool.and_eq_true, decide_eq_true_eq]
      refine ⟨by rw [← all_isSid_rel hfs]; exact hc.1, (hg.nodup hfs ?_).mp hc.2⟩
      simpa only [List.all_eq_true] using hc.1
    rw [if_pos hc']
    obtain ⟨q1, q2, q3, q4⟩ := bindFormals_rel hfs ln hg hs
    cases hb : expandExpr any x idn (bindFormals fs e st ln).2.1 (bindFormals fs e st ln).2.2.1 (bindFormals fs e st ln).2.2.2 with
    | none => rw [hb] at ho; cases ho
    | some b =>
      rw [hb] at ho
      obtain ⟨b', hb', hbb⟩ := expandExpr_sim ha q2 hx q3 hb
      rw [q4] at hb'
      rw [hb', ← isList_rel hf]
      simp only at ho ⊢
      split at ho
      · rename_i hl
        cases ho
        rw [if_pos hl]
        exact ⟨_, rfl, .lam q1 .none hbb⟩
      · rename_i hl
        cases ho
        rw [if_neg hl]
        exact ⟨_, rfl, .lam (dropLast_rel q1) (getLast_rel q1) hbb⟩
  · cases ho

theorem expandLetcc_sim (ha : AnySim h N sh gl any any') {f f' x x' : Sx} {st st' : Store} {ln : Nat} (hg : Good N sh gl R e e' idn)
    (hf : SxRel R f f') (hx : SxRel R x x') (hs : StoreRel h N sh gl st st') {o : Out}
    (ho : expandLetcc any f x idn e st ln = some o) :
    ∃ o', expandLetcc any' f' x' (idn + sh) e' st' ln = some o' ∧ OutRel h N o o' := by
  cases hf with
  | sid r =>
    rename_i a b c a' b' c'
    simp only [expandLetcc] at ho ⊢
    have hv : VarRel N (.loc ln a) (.loc ln a') := .loc ln ⟨_, _, _, _, hg.name _ _ r⟩
    cases hb : expandExpr any x idn ((b, .num ln) :: e) ((.num ln, .var (.loc ln a)) :: st) (ln + 1) with
    | none => rw [hb] at ho; cases ho
    | some b =>
      rw [hb] at ho
      cases ho
      obtain ⟨b', hb', hbb⟩ := expandExpr_sim ha (hg.bind ⟨_, _, r, rfl, rfl⟩ ln) hx (hs.cons ln (.var hv)) hb
      rw [hb']
      exact ⟨_, rfl, .letcc hv hbb⟩
  | _ => cases ho

theorem storeVals_rel {Ri Rs : IdRel} {ie ie' : Env} (hl : Link N sh gl Ri ie ie') : ∀ {bs bs' : List (Sx × Sx)}, DsRel Ri Rs bs bs' →
    InEnv bs ie → ∀ {vs vs' : List Val}, List.Forall₂ (ValRel h N sh gl) vs vs' → ∀ {st st' : Store}, StoreRel h N sh gl st st' →
    StoreRel h N sh gl (storeVals ie bs vs st) (storeVals ie' bs' vs' st')
  | _, _, .nil, _, _, _, _, _, _, hs => by simpa only [storeVals] using hs
  | (s, x) :: bs, (s', x') :: bs', .cons h1 h2, hin, vs, vs', hv, st, st', hs => by
    obtain ⟨⟨a, b, c, a', b', c', q1, q2, q3⟩, q4⟩ := h1
    simp only at q1 q2
    subst q1 q2
    cases hv with
    | nil => simpa only [storeVals] using hs
    | cons hv hvs =>
      simp only [storeVals]
      have hk := hl.look _ _ q3
      simp only at hk
      rw [← hk]
      have hin0 := hin _ List.mem_cons_self
      simp only [sidId] at hin0
      obtain ⟨l, hl1⟩ := Option.isSome_iff_exists.mp hin0
      obtain ⟨n, hn⟩ := hl.vals _ (assv_mem_pair hl1)
      simp only at hn
      have : lookupSid b c ie = .num n := by simp [lookupSid, hl1, hn]
      rw [this]
      exact storeVals_rel hl h2 (fun d hd => hin d (List.mem_cons_of_mem _ hd)) hvs (hs.cons n hv)

theorem synBindLoop_sim (ha : AnySim h N sh gl any any') {A : Ans → Ans → Prop} (hA : OutA h N A) {Ri : IdRel} {ie ie' : Env}
    (hg : Good N sh gl R e e' idn) (hl : Link N sh gl Ri ie ie') {all all' : List (Sx × Sx)} (hall : DsRel Ri R all all') (hin : InEnv all ie)
    {k k' : Store → Nat → Option Ans} (hk : ∀ st st' ln, StoreRel h N sh gl st st' → Q A (k st ln) (k' st' ln)) :
    ∀ {bs bs' : List (Sx × Sx)}, DsRel Ri R bs bs' → ∀ {vs vs' : List Val}, List.Forall₂ (ValRel h N sh gl) vs vs' →
    ∀ {st st' : Store} (ln : Nat), StoreRel h N sh gl st st' →
    Q A (synBindLoop any all idn e ie k bs vs st ln) (synBindLoop any' all' (idn + sh) e' ie' k' bs' vs' st' ln)
  | _, _, .nil, vs, vs', hv, st, st', ln, hs => by
    simp only [synBindLoop]
    exact hk _ _ _ (storeVals_rel hl hall hin (List.rel_reverse hv) hs)
  | (_, x) :: bs, (_, x') :: bs', .cons h1 h2, vs, vs', hv, st, st', ln, hs => by
    simp only [synBindLoop]
    refine expandVal_sim ha hA hg h1.2 hs ?_
    intro v v' st st' ln hv' hs'
    exact synBindLoop_sim ha hA hg hl hall hin hk h2 (.cons hv' hv) ln hs'

theorem makeBegin_rel {os os' : List Out} (ho : List.Forall₂ (OutRel h N) os os') : OutRel h N (makeBegin os) (makeBegin os') := by
  cases ho with
  | nil => exact .form _ .nil
  | cons a b =>
    cases b with
    | nil => exact a
    | cons b c => exact .form _ (OutsRel.of (.cons a (.cons b c)))

theorem lookup2_rel (hl : Link N sh gl R e e') {st st' : Store} (hs : StoreRel h N sh gl st st') {a b c a' b' c'} (r : R (a, b, c) (a', b', c')) :
    Option.Rel (ValRel h N sh gl) (lookup2 (.sid a b c) e st) (lookup2 (.sid a' b' c') e' st') := by
  simp only [lookup2]
  have := hl.look _ _ r
  simp only at this
  rw [← this]
  exact hs.lookup _ (hl.lookOk r)

theorem expandVds_sim (ha : AnySim h N sh gl any any') {st st' : Store} {ln : Nat} (hg : Good N sh gl R e e' idn)
    (hs : StoreRel h N sh gl st st') : ∀ {ds ds' : List (Sx × Sx)}, DsRel R R ds ds' → ∀ {r : List Var × List Out},
    expandVds any ds idn e st ln = some r → ∃ r', expandVds any' ds' (idn + sh) e' st' ln = some r' ∧
      List.Forall₂ (VarRel N) r.1 r'.1 ∧ List.Forall₂ (OutRel h N) r.2 r'.2
  | _, _, .nil, r, hr => by cases hr; exact ⟨([], []), rfl, .nil, .nil⟩
  | (s, x) :: ds, (s', x') :: ds', .cons h1 h2, r, hr => by
    obtain ⟨⟨a, b, c, a', b', c', q1, q2, q3⟩, q4⟩ := h1
    simp only at q1 q2 q4
    subst q1 q2
    simp only [expandVds] at hr ⊢
    split at hr
    · rename_i v o r0 e1 e2 e3
      cases hr
      obtain ⟨o', h5, h6⟩ := expandExpr_sim ha hg q4 hs e2
      obtain ⟨r', h7, h8, h9⟩ := expandVds_sim ha hg hs h2 e3
      have hl := lookup2_rel hg.toLink hs q3
      rw [e1] at hl
      cases hl2 : lookup2 (.sid a' b' c') e' st' with
      | none => rw [hl2] at hl; cases hl
      | some v' =>
        rw [hl2] at hl
        cases hl with
        | some hv =>
          cases hv with
          | var hv =>
            rw [h5, h7]
            exact ⟨_, rfl, .cons hv h8, .cons h6 h9⟩
    · cases hr

theorem makeLetrec_rel {r r' : List Var × List Out} {o o' : Out} (h1 : List.Forall₂ (VarRel N) r.1 r'.1)
    (h2 : List.Forall₂ (OutRel h N) r.2 r'.2) (ho : OutRel h N o o') : OutRel h N (makeLetrec r o) (makeLetrec r' o') := by
  obtain ⟨vs, es⟩ := r
  obtain ⟨vs', es'⟩ := r'
  simp only [makeLetrec] at h1 h2 ⊢
  cases h1 with
  | nil => exact ho
  | cons a b => exact .letrec (.cons a b) (OutsRel.of h2) ho

end
end Verif.Expand

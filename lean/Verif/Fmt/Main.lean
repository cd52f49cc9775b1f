import Verif.Fmt.Sim
/-
The main induction on templates.
-/
namespace Verif.Fmt
variable {L R : Text} {total : Nat}

/-- can the text end with an identifier? -/
def endE : Bool → List Item → Bool
  | e, [] => e
  | _, .one s :: l => endE s.edge l
  | e, .loop b :: l => endE (e && endEdge false b) l

theorem endE_map (e : Bool) (b : List Simple) : endE e (b.map .one) = endEdge e b := by
  induction b generalizing e with
  | nil => rfl
  | cons s b ih => simp [endE, endEdge, ih]

theorem unparse_map (b : List Simple) : unparse (b.map .one) = b.flatMap Simple.text := by
  induction b with
  | nil => rfl
  | cons s b ih => simp [unparse, ih]

theorem render_map (b : List Simple) (as : List Text) : render L R total (b.map .one) as = renders L R total b as := by
  induction b generalizing as with
  | nil => rfl
  | cons s b ih => simp only [List.map_cons, render, renders, ih]

theorem Seq.wf {e : Bool} {p : Option Simple} {b : List Simple} (h : Seq e p b) : Wf e p (b.map .one) := by
  induction b generalizing e p with
  | nil => trivial
  | cons s b ih => exact ⟨h.1, h.2.1, by rw [unparse_map]; exact h.2.2.1, ih h.2.2.2⟩

/-- `z` is what follows: nothing or a directive. -/
def Next (z : List Char) : Prop := z = [] ∨ ∃ r, z = '$' :: r

/-- the last part. -/
def lastPart : Option Simple → List Item → Option Simple
  | p, [] => p
  | _, .one s :: l => lastPart (some s) l
  | _, .loop _ :: l => lastPart none l

/-- no part is `$return`. -/
def NoRet (l : List Item) : Prop := ∀ i ∈ l, ∀ ws, i ≠ .one (.ret ws)

/-- `z` may follow the template. -/
def Nx (p : Option Simple) (l : List Item) (z : List Char) : Prop := Next z ∨ (NoRet l ∧ ∀ q, lastPart p l = some q → ∀ c r, z = c :: r → follow q c)

theorem Nx.tail {p : Option Simple} {s : Simple} {l : List Item} {z : List Char} (h : Nx p (.one s :: l) z) : Nx (some s) l z := by
  rcases h with h | ⟨h1, h2⟩
  · exact .inl h
  · exact .inr ⟨fun i hi => h1 i (List.mem_cons_of_mem _ hi), h2⟩
theorem Nx.tail' {p : Option Simple} {b : List Simple} {l : List Item} {z : List Char} (h : Nx p (.loop b :: l) z) : Nx none l z := by
  rcases h with h | ⟨h1, h2⟩
  · exact .inl h
  · exact .inr ⟨fun i hi => h1 i (List.mem_cons_of_mem _ hi), h2⟩

theorem follow_dollar (q : Simple) : follow q '$' := by
  cases q with
  | ret ws => exact ⟨by decide, fun _ => by decide⟩
  | _ => simp only [follow] <;> decide

theorem text_dollar {s : Simple} (h : ∀ c, s ≠ .lit c) : ∃ r, s.text = '$' :: r := by
  cases s <;> simp [Simple.text] at *

theorem wf_follow {e : Bool} {q : Simple} {l : List Item} {z : List Char} (h : Wf e (some q) l) (hz : Nx (some q) l z) : Follow q (unparse l ++ z) := by
  intro c r e1
  cases l with
  | nil =>
    rcases hz with (rfl | ⟨r', rfl⟩) | ⟨_, hz⟩
    · simp [unparse] at e1
    · simp only [unparse, List.nil_append, List.cons.injEq] at e1; rw [← e1.1]; exact follow_dollar q
    · exact hz q rfl c r e1
  | cons i l =>
    cases i with
    | loop b => simp only [unparse, List.cons_append, List.cons.injEq] at e1; rw [← e1.1]; exact follow_dollar q
    | one s =>
      by_cases hs : ∃ d, s = .lit d
      · obtain ⟨d, rfl⟩ := hs
        simp only [unparse, Simple.text, List.cons_append, List.cons.injEq] at e1
        rw [← e1.1]
        exact h.1 q d rfl rfl
      · obtain ⟨r', hr'⟩ := text_dollar (fun d hd => hs ⟨d, hd⟩)
        simp only [unparse, hr', List.cons_append, List.cons.injEq] at e1
        rw [← e1.1]; exact follow_dollar q

/-- text without `$` at the start of a template consists of characters. -/
theorem drop_lits {cs w2 z : List Char} (hcs : ∀ c ∈ cs, c ≠ '$') (hz : Next z) : ∀ {e : Bool} {p : Option Simple} {l : List Item}, Wf e p l →
    unparse l ++ z = cs ++ w2 → ∃ l2, l = cs.map (fun c => .one (.lit c)) ++ l2 ∧ unparse l2 ++ z = w2 := by
  induction cs with
  | nil => intro e p l _ h; exact ⟨l, by simp, by simpa using h⟩
  | cons c cs ih =>
    intro e p l hwf h
    have hc := hcs c List.mem_cons_self
    cases l with
    | nil =>
      exfalso
      rcases hz with rfl | ⟨r', rfl⟩
      · simp [unparse] at h
      · simp only [unparse, List.nil_append, List.cons_append, List.cons.injEq] at h; exact hc h.1.symm
    | cons i l =>
      cases i with
      | loop b => exfalso; simp only [unparse, List.cons_append, List.cons.injEq] at h; exact hc h.1.symm
      | one s =>
        by_cases hs : ∃ d, s = .lit d
        · obtain ⟨d, rfl⟩ := hs
          simp only [unparse, Simple.text, List.cons_append, List.cons.injEq, List.nil_append] at h
          obtain ⟨rfl, h⟩ := h
          obtain ⟨l2, h1, h2⟩ := ih (fun c hc => hcs c (List.mem_cons_of_mem _ hc)) hwf.2.2.2 h
          exact ⟨l2, by rw [h1]; rfl, h2⟩
        · obtain ⟨r', hr'⟩ := text_dollar (fun d hd => hs ⟨d, hd⟩)
          exfalso
          simp only [unparse, hr', List.cons_append, List.cons.injEq] at h; exact hc h.1.symm

theorem wf_drop {cs : List Char} {l2 : List Item} {c : Char} : ∀ {e : Bool} {p : Option Simple}, Wf e p ((cs ++ [c]).map (fun c => .one (.lit c)) ++ l2) →
    Wf (!identChar c) (some (.lit c)) l2 := by
  induction cs with
  | nil => intro e p h; exact h.2.2.2
  | cons d cs ih => intro e p h; exact ih h.2.2.2

theorem render_lits (cs : List Char) (l2 : List Item) (as : List Text) :
    render L R total (cs.map (fun c => .one (.lit c)) ++ l2) as = (render L R total l2 as).map (fun r => (cs ++ r.1, r.2)) := by
  induction cs with
  | nil => simp
  | cons c cs ih =>
    simp only [List.map_cons, List.cons_append, render, Simple.render, Option.bind_eq_bind, Option.bind_some, ih]
    cases render L R total l2 as <;> simp

theorem endE_lits (cs : List Char) (c : Char) (l2 : List Item) (e : Bool) :
    endE e ((cs ++ [c]).map (fun c => .one (.lit c)) ++ l2) = endE (!identChar c) l2 := by
  induction cs generalizing e with
  | nil => rfl
  | cons d cs ih => exact ih _

theorem ident_ne_dollar {T : List Char} (h : ∀ c ∈ T, identChar c = true) : ∀ c ∈ T, c ≠ '$' := by
  rintro c hc rfl; exact absurd (h _ hc) (by decide)

theorem level_ne {lv : List Char} (h : Level lv) : ∀ c ∈ lv, c ≠ '$' := by
  rcases h with rfl | ⟨ds, h, rfl⟩
  · simp
  · rintro c hc rfl
    rcases List.mem_append.mp hc with hc | hc
    · exact absurd (h _ hc) (by decide)
    · revert hc; decide

/-- number of arguments used by a list of parts. -/
theorem renders_some (b : List Simple) (as : List Text) (h : (b.map Simple.nargs).sum ≤ as.length) : ∃ t as', renders L R total b as = some (t, as') := by
  induction b generalizing as with
  | nil => exact ⟨[], as, rfl⟩
  | cons s b ih =>
    simp only [List.map_cons, List.sum_cons] at h
    have : ∃ t as', s.render L R total as = some (t, as') ∧ as'.length + s.nargs = as.length := by
      cases s <;> cases as <;> simp [Simple.render, Simple.nargs] at *
    obtain ⟨t, as1, h1, h2⟩ := this
    obtain ⟨u, as2, h3⟩ := ih as1 (by omega)
    exact ⟨t ++ u, as2, by simp [renders, h1, h3]⟩

theorem render_args (s : Simple) (as as' : List Text) (t : List Char) (h : s.render L R total as = some (t, as')) :
    as'.length + s.nargs = as.length ∧ ∀ a ∈ as', a ∈ as := by
  cases s <;> cases as <;> simp [Simple.render, Simple.nargs] at * <;> (obtain ⟨_, rfl⟩ := h) <;> simp
  all_goals (intro a ha; exact .inr ha)

theorem renders_args (b : List Simple) : ∀ (as as' : List Text) (t : List Char), renders L R total b as = some (t, as') →
    as'.length + (b.map Simple.nargs).sum = as.length ∧ ∀ a ∈ as', a ∈ as := by
  induction b with
  | nil => intro as as' t h; simp only [renders, Option.some.injEq, Prod.mk.injEq] at h; obtain ⟨_, rfl⟩ := h; simp
  | cons s b ih =>
    intro as as' t h
    simp only [renders, Option.bind_eq_bind] at h
    obtain ⟨⟨t1, as1⟩, h1, h⟩ := Option.bind_eq_some_iff.mp h
    obtain ⟨⟨t2, as2⟩, h2, h⟩ := Option.bind_eq_some_iff.mp h
    simp only [Option.some.injEq, Prod.mk.injEq] at h
    obtain ⟨_, rfl⟩ := h
    obtain ⟨a1, a2⟩ := render_args _ _ _ _ h1
    obtain ⟨a3, a4⟩ := ih _ _ _ h2
    simp only [List.map_cons, List.sum_cons]
    have a1' : as1.length + s.nargs = as.length := a1
    have a3' : as2.length + (b.map Simple.nargs).sum = as1.length := a3
    exact ⟨by omega, fun a ha => a2 a (a4 a ha)⟩

/-- size of a template. -/
def size : List Item → Nat
  | [] => 0
  | .one _ :: l => size l + 1
  | .loop b :: l => b.length + size l + 1

theorem size_map (b : List Simple) : size (b.map .one) = b.length := by
  induction b with
  | nil => rfl
  | cons s b ih => simp [size, ih]

theorem size_append (a b : List Item) : size (a ++ b) = size a + size b := by
  induction a with
  | nil => simp [size]
  | cons i a ih => cases i <;> simp [size, ih] <;> omega

/-- What is shown for a template. -/
def Good (L R : Text) (total : Nat) (items : List Item) : Prop :=
  ∀ (s e : Bool) (p : Option Simple) (args args' cur base : List Text) (t z : List Char), Wf e p items → render L R total items args = some (t, args') →
    (∀ a ∈ args, ArgOk a) → Bot s cur base → (e = true → Edge identChar s (fl cur)) → Nx p items z →
    ∃ cur', (∀ res, Ends L R total z args' (cur' ++ base) res → Ends L R total (unparse items ++ z) args (cur ++ base) res) ∧
      Steps alnum s (fl cur ++ t) (fl cur') ∧ Bot s cur' base ∧ (endE e items = true → Edge identChar s (fl cur'))

theorem edge_last {s : Bool} {c : Char} (q : List Char) (h : identChar c = false) : Edge identChar s (q ++ [c]) := .inr ⟨q, c, rfl, h⟩

/-- one step for a part, and the rest. -/
theorem good_one {s0 : Simple} {l : List Item} (ih : Good L R total l) {s : Bool} {args args1 args' cur cur1 base : List Text} {t1 t z : List Char}
    (hw : Wf s0.edge (some s0) l) (hr : render L R total l args1 = some (t, args')) (ha : ∀ a ∈ args1, ArgOk a) (hb : Bot s cur1 base)
    (he : s0.edge = true → Edge identChar s (fl cur1)) (hz : Nx (some s0) l z)
    (hstep : ∀ res, Ends L R total (unparse l ++ z) args1 (cur1 ++ base) res → Ends L R total (s0.text ++ (unparse l ++ z)) args (cur ++ base) res)
    (hst : Steps alnum s (fl cur ++ t1) (fl cur1)) :
    ∃ cur', (∀ res, Ends L R total z args' (cur' ++ base) res → Ends L R total (s0.text ++ unparse l ++ z) args (cur ++ base) res) ∧
      Steps alnum s (fl cur ++ (t1 ++ t)) (fl cur') ∧ Bot s cur' base ∧ (endE s0.edge l = true → Edge identChar s (fl cur')) := by
  obtain ⟨cur', h1, h2, h3, h4⟩ := ih s s0.edge (some s0) args1 args' cur1 base t z hw hr ha hb he hz
  refine ⟨cur', fun res h => ?_, ?_, h3, h4⟩
  · rw [List.append_assoc]; exact hstep res (h1 res h)
  · rw [← List.append_assoc]; exact (hst.append t).trans h2

theorem good_loop {b : List Simple} {l : List Item} (hbody : ∀ c b', b = .lit c :: b' → Good L R total (b'.map .one)) (ih : Good L R total l) :
    Good L R total (.loop b :: l) := by
  intro s e p args args' cur base t z hwf hr ha hb he hz
  obtain ⟨hB, hW⟩ := hwf
  obtain ⟨c, b', hbb, hc⟩ := hB.first
  have hgood := hbody c b' hbb
  set w := unparse l ++ z with hw
  have hcd : c ≠ '$' := by have := hB.seq; rw [hbb] at this; exact this.2.1
  -- one round
  have round : ∀ as tb as', renders L R total b as = some (tb, as') → (∀ a ∈ as, ArgOk a) →
      ∃ curb, Ends L R total (b.flatMap Simple.text ++ ('$' :: '}' :: w)) as [] ⟨w, as', curb.reverse⟩ ∧ Steps alnum false tb (fl curb) ∧
        (endEdge false b = true → Edge identChar false (fl curb)) := by
    intro as tb as' hrb hok
    have hseq := hB.seq
    rw [hbb] at hseq hrb
    simp only [renders, Simple.render, Option.bind_eq_bind, Option.bind_some] at hrb
    obtain ⟨⟨u, as2⟩, h2, h3⟩ := Option.bind_eq_some_iff.mp hrb
    simp only [Option.some.injEq, Prod.mk.injEq] at h3
    obtain ⟨rfl, rfl⟩ := h3
    obtain ⟨curb, g1, g2, g3, g4⟩ := hgood false (!identChar c) (some (.lit c)) as as2 [.ch c] [] u ('$' :: '}' :: w) hseq.2.2.2.wf
      (by rw [render_map]; exact h2) hok (.inr (.inr ⟨rfl, [], c, rfl, hc⟩)) (fun _ => .inr ⟨[], c, by simp [fl, flats, Text.flat], hc⟩) (.inl (.inr ⟨_, rfl⟩))
    refine ⟨curb, ?_, ?_, ?_⟩
    · rw [hbb]
      simp only [List.flatMap_cons, Simple.text, List.cons_append, List.nil_append]
      refine Ends.of (fun n => loop_lit n c _ _ _ hcd) ?_
      have := g1 _ (ends_close w as2 (curb ++ []))
      rw [unparse_map] at this
      simpa using this
    · simpa [fl, flats, Text.flat] using g2
    · rw [hbb]
      intro h
      exact g4 (by rw [endE_map]; exact h)
  -- all rounds
  have rounds : ∀ (n : Nat) (as : List Text) (tb : List Char) (as' : List Text) (cur : List Text), repeats L R total b n as = some (tb, as') →
      (∀ a ∈ as, ArgOk a) → Bot s cur base → ((e && endEdge false b) = true → Edge identChar s (fl cur)) →
      ∃ cur1, (∀ res, Ends L R total w as' (cur1 ++ base) res → Ends L R total ('$' :: '{' :: (b.flatMap Simple.text ++ ('$' :: '}' :: w))) as (cur ++ base) res) ∧
        Steps alnum s (fl cur ++ tb) (fl cur1) ∧ Bot s cur1 base ∧ ((e && endEdge false b) = true → Edge identChar s (fl cur1)) ∧ ∀ a ∈ as', ArgOk a := by
    intro n
    induction n with
    | zero =>
      intro as tb as' cur hrep hok hb he
      cases as with
      | cons a as => simp [repeats] at hrep
      | nil =>
        simp only [repeats, Option.some.injEq, Prod.mk.injEq] at hrep
        obtain ⟨rfl, rfl⟩ := hrep
        obtain ⟨tq, aq, hq⟩ := renders_some (L := L) (R := R) (total := total) b (List.replicate 10 (.sym ['?'])) (by simpa using hB.args.2)
        obtain ⟨curb, g1, _, _⟩ := round _ _ _ hq (by
          intro a ha'; rw [List.mem_replicate] at ha'; rw [ha'.2]; intro _ _ h; simp at h)
        exact ⟨cur, fun res h => ends_open_nil g1 h, by rw [List.append_nil]; exact .refl _, hb, he, by simp⟩
    | succ n ihn =>
      intro as tb as' cur hrep hok hb he
      cases as with
      | nil =>
        simp only [repeats, Option.some.injEq, Prod.mk.injEq] at hrep
        obtain ⟨rfl, rfl⟩ := hrep
        obtain ⟨tq, aq, hq⟩ := renders_some (L := L) (R := R) (total := total) b (List.replicate 10 (.sym ['?'])) (by simpa using hB.args.2)
        obtain ⟨curb, g1, _, _⟩ := round _ _ _ hq (by
          intro a ha'; rw [List.mem_replicate] at ha'; rw [ha'.2]; intro _ _ h; simp at h)
        exact ⟨cur, fun res h => ends_open_nil g1 h, by rw [List.append_nil]; exact .refl _, hb, he, by simp⟩
      | cons a as =>
        simp only [repeats, Option.bind_eq_bind] at hrep
        obtain ⟨⟨t1, as1⟩, h1, hrep⟩ := Option.bind_eq_some_iff.mp hrep
        obtain ⟨⟨t2, as2⟩, h2, hrep⟩ := Option.bind_eq_some_iff.mp hrep
        simp only [Option.some.injEq, Prod.mk.injEq] at hrep
        obtain ⟨rfl, rfl⟩ := hrep
        obtain ⟨hl, hmem⟩ := renders_args b _ _ _ h1
        obtain ⟨curb, g1, g2, g3⟩ := round _ _ _ h1 hok
        have hfl : fl (Text.lst curb.reverse :: cur) = fl cur ++ fl curb := by rw [fl_cons]; rfl
        obtain ⟨cur1, k1, k2, k3, k4, k5⟩ := ihn as1 t2 as2 (.lst curb.reverse :: cur) h2 (fun a ha' => hok a (hmem a ha')) (hb.cons _) (by
          intro hE
          rw [hfl]
          rcases g3 (by simp only [Bool.and_eq_true] at hE; exact hE.2) with ⟨_, h⟩ | ⟨q, d, hq, hd⟩
          · simp at h
          · exact .inr ⟨fl cur ++ q, d, by rw [hq]; simp, hd⟩)
        refine ⟨cur1, fun res h => ?_, ?_, k3, k4, k5⟩
        · refine ends_open_cons g1 ?_ (k1 res h)
          have := hB.args.1
          simp only at hl ⊢
          omega
        · rw [hfl] at k2
          refine Steps.trans ?_ k2
          rw [← List.append_assoc]
          exact (g2.prepend s (fl cur)).append t2
  simp only [render, Option.bind_eq_bind] at hr
  obtain ⟨⟨t1, as1⟩, h1, hr⟩ := Option.bind_eq_some_iff.mp hr
  obtain ⟨⟨t2, as2⟩, h2, hr⟩ := Option.bind_eq_some_iff.mp hr
  simp only [Option.some.injEq, Prod.mk.injEq] at hr
  obtain ⟨rfl, rfl⟩ := hr
  obtain ⟨cur1, k1, k2, k3, k4, k5⟩ := rounds args.length args t1 as1 cur h1 ha hb (fun h => he (by simp only [Bool.and_eq_true] at h; exact h.1))
  obtain ⟨cur', m1, m2, m3, m4⟩ := ih s _ none as1 as2 cur1 base t2 z hW h2 k5 k3 k4 hz.tail'
  refine ⟨cur', fun res h => ?_, ?_, m3, m4⟩
  · have := k1 res (m1 res h)
    simpa [unparse, hw] using this
  · rw [← List.append_assoc]; exact (k2.append t2).trans m2

theorem good_ret {ws : List Char} {l : List Item} (ih : ∀ l', size l' ≤ size l → Good L R total l') : Good L R total (.one (.ret ws) :: l) := by
  intro s e p args args' cur base t z hwf hr ha hb he hz
  obtain ⟨_, hv, hret, hW⟩ := hwf
  obtain ⟨heq, hvoid⟩ := hret ws rfl
  have hedge := he heq
  simp only [render, Simple.render, Option.bind_eq_bind, Option.bind_some] at hr
  obtain ⟨⟨t2, as2⟩, h2, hr⟩ := Option.bind_eq_some_iff.mp hr
  simp only [Option.some.injEq, Prod.mk.injEq] at hr
  obtain ⟨rfl, rfl⟩ := hr
  have hfol := wf_follow hW hz.tail
  have hz : Next z := by
    rcases hz with h | ⟨h, _⟩
    · exact h
    · exact absurd rfl (h _ List.mem_cons_self ws)
  have hvoid' : ∀ T, primexpCtype (unparse l ++ z) = some T → ¬ "_void".toList <:+ T := by
    intro T hT
    obtain ⟨⟨r, e1⟩, hTi⟩ := (primexp_iff _ _).mp hT
    apply hvoid
    obtain ⟨l2, e2, e3⟩ := drop_lits (cs := T ++ ['(']) (w2 := r) (by
      intro c hc; rcases List.mem_append.mp hc with hc | hc
      · exact ident_ne_dollar hTi c hc
      · simp only [List.mem_singleton] at hc; rw [hc]; decide) hz hW (by rw [e1]; simp)
    refine (primexp_iff _ _).mpr ⟨⟨unparse l2, ?_⟩, hTi⟩
    have hlits : ∀ (cs : List Char) (l2 : List Item), unparse (cs.map (fun c => .one (.lit c)) ++ l2) = cs ++ unparse l2 := by
      intro cs l2
      induction cs with
      | nil => rfl
      | cons c cs ih => simp [unparse, Simple.text, ih]
    rw [e2, hlits]; simp
  have step : ∀ res, Ends L R total (putReturn R (unparse l ++ z) (cur ++ base)).1 args (putReturn R (unparse l ++ z) (cur ++ base)).2 res →
      Ends L R total (unparse (.one (.ret ws) :: l) ++ z) args (cur ++ base) res := by
    intro res h
    simp only [unparse]
    rw [List.append_assoc]
    exact Ends.of (fun n => loop_ret n ws _ _ _ hfol hv) h
  rcases putReturn_spec base (R := R) hedge hvoid' with hp | ⟨T, lv, w2, pre, v, e1, hTi, hl, hp, hst⟩
  · rw [hp] at step
    obtain ⟨cur', h1, h3, h4, h5⟩ := ih l le_rfl s (Simple.ret ws).edge (some (.ret ws)) args as2 (R :: cur) base t2 z hW h2 ha (hb.cons _) (by simp [Simple.edge]) (.inl hz)
    refine ⟨cur', fun res h => step res (h1 res h), ?_, h4, h5⟩
    rw [fl_cons, List.append_assoc] at h3
    exact h3
  · rw [hp] at step
    have hsplit : ∃ cs c, T ++ '(' :: lv = cs ++ [c] ∧ identChar c = false := by
      rcases hl with rfl | ⟨ds, _, rfl⟩
      · exact ⟨T, '(', by simp, by decide⟩
      · exact ⟨T ++ '(' :: (ds ++ [',']), ' ', by simp, by decide⟩
    obtain ⟨cs, c, hcs, hc⟩ := hsplit
    obtain ⟨l2, e2, e3⟩ := drop_lits (cs := cs ++ [c]) (w2 := w2) (by
      rw [← hcs]
      intro c hc; rcases List.mem_append.mp hc with hc | hc
      · exact ident_ne_dollar hTi c hc
      · rcases List.mem_cons.mp hc with hc | hc
        · rw [hc]; decide
        · exact level_ne hl c hc) hz hW (by rw [e1, ← hcs]; simp)
    rw [e2] at hW h2
    rw [render_lits] at h2
    obtain ⟨⟨t3, as3⟩, h3, h4⟩ := Option.map_eq_some_iff.mp h2
    simp only [Prod.mk.injEq] at h4
    obtain ⟨rfl, rfl⟩ := h4
    have hsize : size l2 ≤ size l := by rw [e2, size_append]; omega
    have hpar : Edge identChar s (fl (par v :: pre :: cur)) := by
      rw [fl_cons]
      cases v
      · exact .inr ⟨_, '(', rfl, by decide⟩
      · exact .inr ⟨fl (pre :: cur) ++ "(void)".toList, '(', by simp [par, Text.flat], by decide⟩
    obtain ⟨cur', k1, k2, k3, k4⟩ := ih l2 hsize s (!identChar c) (some (.lit c)) args as3 (par v :: pre :: cur) base t3 z (wf_drop hW) h3 ha
      ((hb.cons _).cons _) (fun _ => hpar) (.inl hz)
    refine ⟨cur', fun res h => step res ?_, ?_, k3, ?_⟩
    · have := k1 res h
      rw [e3] at this
      exact this
    · refine .step ?_ k2
      rw [← hcs]
      simpa using hst t3
    · intro h
      apply k4
      rw [endE, e2, endE_lits] at h
      exact h

theorem good_all (items : List Item) : Good L R total items := by
  have main : ∀ n items, size items ≤ n → Good L R total items := by
    intro n
    induction n with
    | zero =>
      intro items hn
      cases items with
      | nil =>
        intro s e p args args' cur base t z hwf hr ha hb he hz
        simp only [render, Option.some.injEq, Prod.mk.injEq] at hr
        obtain ⟨rfl, rfl⟩ := hr
        exact ⟨cur, fun res h => h, by rw [List.append_nil]; exact .refl _, hb, he⟩
      | cons i l => cases i <;> simp [size] at hn
    | succ n ih =>
      intro items hn
      cases items with
      | nil => exact ih [] (by simp [size])
      | cons i l =>
        cases i with
        | loop b =>
          simp only [size] at hn
          refine good_loop ?_ (ih l (by omega))
          rintro c b' rfl
          apply ih
          rw [size_map]
          simp at hn; omega
        | one s0 =>
          simp only [size] at hn
          by_cases hret : ∃ ws, s0 = .ret ws
          · obtain ⟨ws, rfl⟩ := hret
            exact good_ret (fun l' hl' => ih l' (by omega))
          intro s e p args args' cur base t z hwf hr ha hb he hz
          obtain ⟨_, hv, _, hW⟩ := hwf
          simp only [render, Option.bind_eq_bind] at hr
          obtain ⟨⟨t1, as1⟩, h1, hr⟩ := Option.bind_eq_some_iff.mp hr
          obtain ⟨⟨t2, as2⟩, h2, hr⟩ := Option.bind_eq_some_iff.mp hr
          simp only [Option.some.injEq, Prod.mk.injEq] at hr
          obtain ⟨rfl, rfl⟩ := hr
          obtain ⟨_, hmem⟩ := render_args _ _ _ _ h1
          have ha1 : ∀ a ∈ as1, ArgOk a := fun a h => ha a (hmem a h)
          have hz := hz.tail
          have hfol := wf_follow hW hz
          simp only [endE, unparse]
          cases s0 with
          | ret ws => exact absurd ⟨ws, rfl⟩ hret
          | lit c =>
            simp only [Simple.render, Option.some.injEq, Prod.mk.injEq] at h1
            obtain ⟨rfl, rfl⟩ := h1
            refine good_one (ih l (by omega)) (cur1 := .ch c :: cur) hW h2 ha1 (hb.cons _) ?_ hz ?_ ?_
            · intro h; rw [fl_cons]; exact edge_last _ (by simpa [Simple.edge] using h)
            · intro res h; exact Ends.of (fun n => loop_lit n c _ _ _ hv) h
            · rw [fl_cons]; exact .refl _
          | arg =>
            cases args with
            | nil => simp [Simple.render] at h1
            | cons a args =>
              simp only [Simple.render, Option.some.injEq, Prod.mk.injEq] at h1
              obtain ⟨rfl, rfl⟩ := h1
              obtain ⟨cur1, e1, e2, e3⟩ := putArg_spec hb (ha a List.mem_cons_self)
              refine good_one (ih l (by omega)) (cur1 := cur1) hW h2 ha1 e3 (by simp [Simple.edge]) hz ?_ e2
              intro res h
              rw [← e1] at h
              exact Ends.of (fun n => loop_arg n _ _ _ _ hfol) h
          | plain =>
            cases args with
            | nil => simp [Simple.render] at h1
            | cons a args =>
              simp only [Simple.render, Option.some.injEq, Prod.mk.injEq] at h1
              obtain ⟨rfl, rfl⟩ := h1
              refine good_one (ih l (by omega)) (cur1 := a :: cur) hW h2 ha1 (hb.cons _) (by simp [Simple.edge]) hz ?_ (by rw [fl_cons]; exact .refl _)
              intro res h
              exact Ends.of (fun n => loop_plain n _ _ _ _ hfol) h
          | argc =>
            simp only [Simple.render, Option.some.injEq, Prod.mk.injEq] at h1
            obtain ⟨rfl, rfl⟩ := h1
            refine good_one (ih l (by omega)) (cur1 := .num total :: cur) hW h2 ha1 (hb.cons _) (by simp [Simple.edge]) hz ?_ (by rw [fl_cons]; exact .refl _)
            intro res h
            exact Ends.of (fun n => loop_argc n _ _ _ hfol) h
          | argNo =>
            simp only [Simple.render, Option.some.injEq, Prod.mk.injEq] at h1
            obtain ⟨rfl, rfl⟩ := h1
            refine good_one (ih l (by omega)) (cur1 := .num _ :: cur) hW h2 ha1 (hb.cons _) (by simp [Simple.edge]) hz ?_ (by rw [fl_cons]; exact .refl _)
            intro res h
            exact Ends.of (fun n => loop_argNo n _ _ _ hfol) h
          | prev =>
            simp only [Simple.render, Option.some.injEq, Prod.mk.injEq] at h1
            obtain ⟨rfl, rfl⟩ := h1
            refine good_one (ih l (by omega)) (cur1 := .num _ :: cur) hW h2 ha1 (hb.cons _) (by simp [Simple.edge]) hz ?_ (by rw [fl_cons]; exact .refl _)
            intro res h
            exact Ends.of (fun n => loop_prev n _ _ _ hfol) h
          | next =>
            simp only [Simple.render, Option.some.injEq, Prod.mk.injEq] at h1
            obtain ⟨rfl, rfl⟩ := h1
            refine good_one (ih l (by omega)) (cur1 := .num _ :: cur) hW h2 ha1 (hb.cons _) (by simp [Simple.edge]) hz ?_ (by rw [fl_cons]; exact .refl _)
            intro res h
            exact Ends.of (fun n => loop_next n _ _ _ hfol) h
          | live =>
            simp only [Simple.render, Option.some.injEq, Prod.mk.injEq] at h1
            obtain ⟨rfl, rfl⟩ := h1
            refine good_one (ih l (by omega)) (cur1 := L :: cur) hW h2 ha1 (hb.cons _) (by simp [Simple.edge]) hz ?_ (by rw [fl_cons]; exact .refl _)
            intro res h
            exact Ends.of (fun n => loop_live n _ _ _ hfol) h
          | dollar =>
            simp only [Simple.render, Option.some.injEq, Prod.mk.injEq] at h1
            obtain ⟨rfl, rfl⟩ := h1
            refine good_one (ih l (by omega)) (cur1 := .str ['$'] :: cur) hW h2 ha1 (hb.cons _) (by simp [Simple.edge]) hz ?_ (by rw [fl_cons]; exact .refl _)
            intro res h
            exact Ends.of (fun n => loop_dollar n _ _ _) h
  exact main _ items le_rfl

end Verif.Fmt

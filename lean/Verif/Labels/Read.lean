import Verif.Labels.Imms
/-
The reader makes the objects of the tree whose text it is given.
-/
namespace Verif.Labels

/-- items preceded by spaces -/
def spacedTail : List (List Char) → List Char
  | [] => []
  | x :: r => ' ' :: x ++ spacedTail r

theorem spaced_cons : ∀ (r : List (List Char)) (x : List Char), spaced (x :: r) = x ++ spacedTail r := by
  intro r
  induction r with
  | nil => intro x; simp [spaced, spacedTail]
  | cons y r ih => intro x; rw [spaced, ih y]; simp [spacedTail]

theorem labelDigits_ok {t : Char} (ht : isdigit t = false) (r : List Char) : ∀ (ds l : List Char), (∀ c ∈ ds, isdigit c = true) →
    labelDigits (ds ++ t :: r) l = some (l.reverse ++ ds, t, r) := by
  intro ds
  induction ds with
  | nil => intro l _; simp [labelDigits, ht]
  | cons c ds ih =>
    intro l h
    rw [List.cons_append, labelDigits, if_pos (h c (by simp)), ih _ fun d hd => h d (by simp [hd])]
    simp

theorem digit_hash {c : Char} (h : c ∈ "0123456789".toList) : (ci c 't' || ci c 'f') = false ∧
    (ci c 'b' || ci c 'o' || ci c 'd' || ci c 'x' || ci c 'i' || ci c 'e') = false ∧ c ≠ '&' ∧ c ≠ ';' ∧ c ≠ '|' ∧ c ≠ '(' ∧ c ≠ 'u' ∧
    c ≠ '\\' ∧ isdigit c = true := by
  have : ∀ c ∈ "0123456789".toList, (ci c 't' || ci c 'f') = false ∧
    (ci c 'b' || ci c 'o' || ci c 'd' || ci c 'x' || ci c 'i' || ci c 'e') = false ∧ c ≠ '&' ∧ c ≠ ';' ∧ c ≠ '|' ∧ c ≠ '(' ∧ c ≠ 'u' ∧
    c ≠ '\\' ∧ isdigit c = true := by decide +kernel
  exact this c h

/-- what sub-read does at a label or a reference -/
theorem read_label (fl : Flo) (k : Nat) (hk : k ≤ 536870911) {t : Char} (ht : isdigit t = false) (r : List Char) (n : Nat) (h : List Cell)
    (sh : List (Int × V)) : subRead fl false (n + 2) ⟨'#' :: decNat k ++ t :: r, h, sh⟩ =
      if t = '#' then (assq k sh).map fun _ => (.val (.proc k), ⟨r, h, sh⟩)
      else if t = '=' then
        if (assq k sh).isSome then none else
        match careful (subRead fl false n ⟨r, h, (k, .imm (.bool false)) :: sh⟩) with
        | some (.proc _, _) => none
        | some (v, s) => some (.val v, { s with shared := setLoc k v s.shared })
        | none => none
      else none := by
  obtain ⟨c, s, e⟩ := decNat_cons k
  have hd := fun c hc => digit_hash ((decNat_digits k).2 c hc)
  obtain ⟨h1, h2, h3, h4, h5, h6, h7, h8, h9⟩ := hd c (by rw [e]; simp)
  have hl : labelDigits (c :: (s ++ t :: r)) [] = some (decNat k, t, r) := by
    have := labelDigits_ok ht r (decNat k) [] fun c hc => (hd c hc).2.2.2.2.2.2.2.2
    rw [e] at this ⊢
    simpa using this
  rw [List.cons_append, e, List.cons_append, subRead_hash, subReadHash]
  simp only [h1, h2, Bool.false_eq_true, if_false, if_neg h3, if_neg h4, if_neg h5, if_neg h6, if_neg h7, if_neg h8, h9, if_true, hl,
    number_nat fl k hk]
  rfl

theorem read_bytes (fl : Flo) (rest : List Char) (h : List Cell) (sh : List (Int × V)) : ∀ (b : List Nat), (∀ k ∈ b, k < 256) →
    ∀ (first : Bool) (n : Nat), 2 * b.length + 2 ≤ n →
    subReadList fl false n .closeParen false first ⟨spacedTail (b.map fun k : Nat => dec k) ++ ')' :: rest, h, sh⟩ =
      some (b.map fun k : Nat => .imm (.fix k), .imm .null, ⟨rest, h, sh⟩) := by
  intro b
  induction b with
  | nil =>
    intro _ first n hn
    obtain ⟨n, rfl⟩ : ∃ m, n = m + 2 := ⟨n - 2, by simp at hn; omega⟩
    simp only [List.map_nil, spacedTail, List.nil_append]
    rw [subReadList, subRead_close]
    rfl
  | cons k b ih =>
    intro hb first n hn
    simp only [List.length_cons] at hn
    obtain ⟨n, rfl⟩ : ∃ m, n = m + 3 := ⟨n - 3, by omega⟩
    have hk := hb k (by simp)
    simp only [List.map_cons, spacedTail, List.cons_append, List.append_assoc]
    rw [subReadList, subRead_space]
    have hdel : Del (spacedTail (b.map fun k : Nat => dec k) ++ ')' :: rest) := by
      cases b with
      | nil => exact Del.close _
      | cons => exact Del.space _
    rw [read_dec fl false k (by omega) hdel]
    simp only
    rw [ih (fun k hk => hb k (by simp [hk])) false (n + 2) (by omega)]
    rfl

theorem bytesOf_ok : ∀ (b : List Nat), (∀ k ∈ b, k < 256) → bytesOf (b.map fun k : Nat => .imm (.fix k)) = some b := by
  intro b
  induction b with
  | nil => intro _; rfl
  | cons k b ih =>
    intro h
    have := h k (by simp)
    simp only [List.map_cons, bytesOf, ih fun k hk => h k (by simp [hk])]
    rw [if_neg (by omega)]
    simp

theorem tail_del (num : Nat → Nat) (d : D) (rest : List Char) : Del (tailText num d ++ ')' :: rest) := by
  unfold tailText
  split
  · exact Del.space _
  · exact Del.close _
  · exact Del.space _

theorem items_del (num : Nat → Nat) (ds : DS) (rest : List Char) : Del (spacedTail (renders num ds) ++ ')' :: rest) := by
  cases ds with
  | nil => rw [renders]; exact Del.close _
  | cons d ds => rw [renders]; exact Del.space _

theorem subRead_dot (fl : Flo) (m : Bool) (n : Nat) (r : List Char) (h : List Cell) (sh : List (Int × V)) :
    subRead fl m (n + 1) ⟨'.' :: ' ' :: r, h, sh⟩ = some (.dot, ⟨' ' :: r, h, sh⟩) := by
  rw [subRead_symbolic fl m (by decide), ← List.nil_append (' ' :: r), numberOrSymbol_ok fl (Del.space r) (by decide)]
  rfl

theorem tailText_other (num : Nat → Nat) {d : D} (h1 : ∀ a b, d ≠ .pair a b) (h2 : d ≠ .imm .null) :
    tailText num d = " . ".toList ++ render num d := by
  rw [tailText]
  · intro a b e; exact h1 a b e
  · intro e; exact h2 e

theorem pos_sz (d : D) : 6 ≤ d.sz := by cases d <;> simp [D.sz] <;> omega

/-- a tail written with a dot -/
theorem dotted (fl : Flo) {x rest : List Char} {h h' : List Cell} {sh sh' : List (Int × V)} {v : V} {n : Nat}
    (e : ∀ m, n ≤ m → subRead fl false m ⟨x ++ ')' :: rest, h, sh⟩ = some (.val v, ⟨')' :: rest, h', sh'⟩)) :
    subReadList fl false (n + 3) .closeParen true false ⟨" . ".toList ++ x ++ ')' :: rest, h, sh⟩ = some ([], v, ⟨rest, h', sh'⟩) := by
  show subReadList fl false (n + 3) .closeParen true false ⟨' ' :: '.' :: ' ' :: (x ++ ')' :: rest), h, sh⟩ = _
  rw [subReadList, subRead_space, subRead_dot]
  simp only
  rw [subRead_space, e (n + 1) (by omega)]
  simp only [careful]
  rw [subRead_close]
  rfl

mutual
theorem read_tree (fl : Flo) (num : Nat → Nat) : ∀ (d : D) (h h' : List Cell) (sh sh' : List (Int × V)) (v : V) (rest : List Char) (n : Nat),
    d.Ok num → build num d h sh = some (v, h', sh') → Del rest → d.sz ≤ n →
    subRead fl false n ⟨render num d ++ rest, h, sh⟩ = some (.val v, ⟨rest, h', sh'⟩)
  | .imm i, h, h', sh, sh', v, rest, n, hok, hb, hr, hn => by
    simp only [D.sz] at hn
    obtain ⟨n, rfl⟩ : ∃ m, n = m + 3 := ⟨n - 3, by omega⟩
    simp only [build, Option.some.injEq, Prod.mk.injEq] at hb
    obtain ⟨rfl, rfl, rfl⟩ := hb
    rw [render]
    exact read_imm fl false hok hr n h sh
  | .str s, h, h', sh, sh', v, rest, n, hok, hb, hr, hn => by
    simp only [D.sz] at hn
    obtain ⟨n, rfl⟩ : ∃ m, n = m + 1 := ⟨n - 1, by omega⟩
    simp only [build, Option.some.injEq, Prod.mk.injEq] at hb
    obtain ⟨rfl, rfl, rfl⟩ := hb
    rw [render, List.append_assoc]
    exact read_str fl false s rest n h sh
  | .bytes b, h, h', sh, sh', v, rest, n, hok, hb, hr, hn => by
    simp only [D.sz] at hn
    obtain ⟨n, rfl⟩ : ∃ m, n = m + 2 := ⟨n - 2, by omega⟩
    simp only [build, Option.some.injEq, Prod.mk.injEq] at hb
    obtain ⟨rfl, rfl, rfl⟩ := hb
    have hlist : ∀ m, 2 * b.length + 4 ≤ m →
        subReadList fl false m .closeParen false false ⟨spaced (b.map fun k : Nat => dec k) ++ ')' :: rest, h, sh⟩ =
        some (b.map fun k : Nat => .imm (.fix k), .imm .null, ⟨rest, h, sh⟩) := by
      intro m hm
      cases b with
      | nil =>
        exact read_bytes fl rest h sh [] hok false m (by simp at hm ⊢; omega)
      | cons k b =>
        simp only [List.length_cons] at hm
        obtain ⟨m, rfl⟩ : ∃ j, m = j + 2 := ⟨m - 2, by omega⟩
        have hk := hok k (by simp)
        rw [List.map_cons, spaced_cons, List.append_assoc, subReadList]
        have hdel : Del (spacedTail (b.map fun k : Nat => dec k) ++ ')' :: rest) := by
          cases b with
          | nil => exact Del.close _
          | cons => exact Del.space _
        rw [read_dec fl false k (by omega) hdel]
        simp only
        rw [read_bytes fl rest h sh b (fun k hk => hok k (by simp [hk])) false (m + 1) (by omega)]
        rfl
    rw [render]
    show subRead fl false (n + 2) ⟨'#' :: 'u' :: '8' :: '(' :: (spaced (b.map fun k : Nat => dec k) ++ [')']) ++ rest, h, sh⟩ = _
    rw [List.cons_append, subRead_hash]
    simp only [List.cons_append, List.append_assoc]
    rw [subReadHash]
    show (do
      let p ← subReadList fl false n .closeParen false false ⟨spaced (b.map fun k : Nat => dec k) ++ ')' :: rest, h, sh⟩
      let b ← bytesOf p.1
      some (Tok.val (p.2.2.alloc (.bytes b)).1, (p.2.2.alloc (.bytes b)).2)) = _
    rw [hlist n (by omega)]
    simp only [Option.bind_eq_bind, Option.bind_some, bytesOf_ok b hok]
    rfl
  | .pair a d, h, h', sh, sh', v, rest, n, hok, hb, hr, hn => by
    simp only [D.sz] at hn
    obtain ⟨n, rfl⟩ : ∃ m, n = m + 2 := ⟨n - 2, by omega⟩
    obtain ⟨hoa, hod⟩ := hok
    rw [build] at hb
    cases ea : build num a h sh with
    | none => simp [ea] at hb
    | some p =>
      obtain ⟨va, ha, sa⟩ := p
      simp only [ea] at hb
      cases ed : build num d ha sa with
      | none => simp [ed] at hb
      | some p =>
        obtain ⟨vd, hd, sd⟩ := p
        simp only [ed, Option.some.injEq, Prod.mk.injEq] at hb
        obtain ⟨rfl, rfl, rfl⟩ := hb
        obtain ⟨vs, t, h1, e1, e2⟩ := read_tail fl num d ha hd sa sd vd rest n hod ed (by have := pos_sz a; omega)
        rw [render]
        simp only [List.cons_append, List.append_assoc, List.nil_append]
        rw [subRead_open, subReadList]
        have := read_tree fl num a h ha sh sa va (tailText num d ++ ')' :: rest) n hoa ea (tail_del num d rest) (by omega)
        show Option.map _ (match subRead fl false n ⟨render num a ++ (tailText num d ++ ')' :: rest), h, sh⟩ with
          | none => none
          | some (tok, s) => _) = _
        rw [this]
        simp only [e1, Option.map_some, St.consAll, e2]
        rfl
  | .vec ds, h, h', sh, sh', v, rest, n, hok, hb, hr, hn => by
    simp only [D.sz] at hn
    obtain ⟨n, rfl⟩ : ∃ m, n = m + 2 := ⟨n - 2, by omega⟩
    rw [build] at hb
    cases ed : builds num ds h sh with
    | none => simp [ed] at hb
    | some p =>
      obtain ⟨vs, hd, sd⟩ := p
      simp only [ed, Option.some.injEq, Prod.mk.injEq] at hb
      obtain ⟨rfl, rfl, rfl⟩ := hb
      have hlist : subReadList fl false n .closeParen false true ⟨spaced (renders num ds) ++ ')' :: rest, h, sh⟩ =
          some (vs, .imm .null, ⟨rest, hd, sd⟩) := by
        cases ds with
        | nil =>
          have := read_items fl num .nil h hd sh sd vs rest true n hok ed (by omega)
          rw [renders] at this ⊢
          exact this
        | cons d ds =>
          simp only [DS.sz] at hn
          obtain ⟨n, rfl⟩ : ∃ m, n = m + 1 := ⟨n - 1, by omega⟩
          rw [builds] at ed
          cases e1 : build num d h sh with
          | none => simp [e1] at ed
          | some p =>
            obtain ⟨v1, h1, s1⟩ := p
            simp only [e1] at ed
            cases e2 : builds num ds h1 s1 with
            | none => simp [e2] at ed
            | some p =>
              obtain ⟨vs2, h2, s2⟩ := p
              simp only [e2, Option.some.injEq, Prod.mk.injEq] at ed
              obtain ⟨rfl, rfl, rfl⟩ := ed
              rw [renders, spaced_cons, List.append_assoc, subReadList,
                read_tree fl num d h h1 sh s1 v1 _ n hok.1 e1 (items_del num ds rest) (by omega)]
              simp only
              rw [read_items fl num ds h1 h2 s1 s2 vs2 rest false n hok.2 e2 (by omega)]
              rfl
      rw [render]
      show subRead fl false (n + 2) ⟨'#' :: '(' :: (spaced (renders num ds) ++ [')']) ++ rest, h, sh⟩ = _
      rw [List.cons_append, subRead_hash]
      simp only [List.cons_append, List.append_assoc]
      rw [subReadHash]
      show Option.map _ (subReadList fl false n .closeParen false true ⟨spaced (renders num ds) ++ ([')'] ++ rest), h, sh⟩) = _
      rw [show [')'] ++ rest = ')' :: rest from rfl, hlist]
      rfl
  | .box a, h, h', sh, sh', v, rest, n, hok, hb, hr, hn => by
    simp only [D.sz] at hn
    obtain ⟨n, rfl⟩ : ∃ m, n = m + 2 := ⟨n - 2, by omega⟩
    rw [build] at hb
    cases ea : build num a h sh with
    | none => simp [ea] at hb
    | some p =>
      obtain ⟨va, ha, sa⟩ := p
      simp only [ea, Option.some.injEq, Prod.mk.injEq] at hb
      obtain ⟨rfl, rfl, rfl⟩ := hb
      rw [render]
      show subRead fl false (n + 2) ⟨'#' :: '&' :: render num a ++ rest, h, sh⟩ = _
      rw [List.cons_append, subRead_hash, List.cons_append, subReadHash]
      show Option.map _ (careful (subRead fl false n ⟨render num a ++ rest, h, sh⟩)) = _
      rw [read_tree fl num a h ha sh sa va rest n hok ea hr (by omega)]
      rfl
  | .lab o d, h, h', sh, sh', v, rest, n, hok, hb, hr, hn => by
    simp only [D.sz] at hn
    obtain ⟨n, rfl⟩ : ∃ m, n = m + 2 := ⟨n - 2, by omega⟩
    rw [build] at hb
    split at hb
    · simp at hb
    · next hno =>
      rw [render, List.append_assoc, List.cons_append, dec_nat]
      show subRead fl false (n + 2) ⟨'#' :: decNat (num o) ++ '=' :: (render num d ++ rest), h, sh⟩ = _
      rw [read_label fl (num o) hok.1 (by decide)]
      rw [if_neg (by decide), if_pos rfl, if_neg hno]
      cases ed : build num d h ((num o, .imm (.bool false)) :: sh) with
      | none => simp [ed] at hb
      | some p =>
        obtain ⟨vd, hd, sd⟩ := p
        rw [read_tree fl num d h hd _ sd vd rest n hok.2 ed hr (by omega)]
        simp only [careful]
        rw [ed] at hb
        cases vd <;> first | (simp only [reduceCtorEq] at hb; done) |
          (simp only [Option.some.injEq, Prod.mk.injEq] at hb; obtain ⟨rfl, rfl, rfl⟩ := hb; rfl)
  | .ref o, h, h', sh, sh', v, rest, n, hok, hb, hr, hn => by
    simp only [D.sz] at hn
    obtain ⟨n, rfl⟩ : ∃ m, n = m + 2 := ⟨n - 2, by omega⟩
    rw [build] at hb
    split at hb
    · next hs =>
      simp only [Option.some.injEq, Prod.mk.injEq] at hb
      obtain ⟨rfl, rfl, rfl⟩ := hb
      rw [render, List.append_assoc, dec_nat]
      show subRead fl false (n + 2) ⟨'#' :: decNat (num o) ++ '#' :: rest, h, sh⟩ = _
      rw [read_label fl (num o) hok (by decide), if_pos rfl]
      obtain ⟨w, hw⟩ := Option.isSome_iff_exists.1 hs
      rw [hw]
      rfl
    · simp at hb
theorem read_tail (fl : Flo) (num : Nat → Nat) : ∀ (d : D) (h h' : List Cell) (sh sh' : List (Int × V)) (v : V) (rest : List Char) (n : Nat),
    d.Ok num → build num d h sh = some (v, h', sh') → d.sz + 4 ≤ n →
    ∃ vs t h1, subReadList fl false n .closeParen true false ⟨tailText num d ++ ')' :: rest, h, sh⟩ = some (vs, t, ⟨rest, h1, sh'⟩) ∧
      St.consAll ⟨rest, h1, sh'⟩ vs t = (v, ⟨rest, h', sh'⟩)
  | .pair a d, h, h', sh, sh', v, rest, n, hok, hb, hn => by
    simp only [D.sz] at hn
    obtain ⟨n, rfl⟩ : ∃ m, n = m + 2 := ⟨n - 2, by omega⟩
    obtain ⟨hoa, hod⟩ := hok
    rw [build] at hb
    cases ea : build num a h sh with
    | none => simp [ea] at hb
    | some p =>
      obtain ⟨va, ha, sa⟩ := p
      simp only [ea] at hb
      cases ed : build num d ha sa with
      | none => simp [ed] at hb
      | some p =>
        obtain ⟨vd, hd, sd⟩ := p
        simp only [ed, Option.some.injEq, Prod.mk.injEq] at hb
        obtain ⟨rfl, rfl, rfl⟩ := hb
        have := pos_sz a
        obtain ⟨vs, t, h1, e1, e2⟩ := read_tail fl num d ha hd sa sd vd rest (n + 1) hod ed (by omega)
        refine ⟨va :: vs, t, h1, ?_, ?_⟩
        · rw [tailText, List.cons_append, List.cons_append, List.append_assoc, subReadList, subRead_space,
            read_tree fl num a h ha sh sa va _ n hoa ea (tail_del num d rest) (by omega)]
          simp only [e1]
          rfl
        · rw [St.consAll, e2]
          rfl
  | .imm i, h, h', sh, sh', v, rest, n, hok, hb, hn => by
    simp only [D.sz] at hn
    have hr := fun m (hm : 6 ≤ m) => read_tree fl num (.imm i) h h' sh sh' v (')' :: rest) m hok hb (Del.close rest) (by simpa [D.sz] using hm)
    by_cases hi : i = .null
    · subst hi
      simp only [build, Option.some.injEq, Prod.mk.injEq] at hb
      obtain ⟨rfl, rfl, rfl⟩ := hb
      obtain ⟨n, rfl⟩ : ∃ m, n = m + 2 := ⟨n - 2, by omega⟩
      refine ⟨[], .imm .null, h, ?_, rfl⟩
      rw [tailText, List.nil_append, subReadList, subRead_close]
      rfl
    · obtain ⟨n, rfl⟩ : ∃ m, n = m + 3 := ⟨n - 3, by omega⟩
      refine ⟨[], v, h', ?_, rfl⟩
      have ht : tailText num (.imm i) = " . ".toList ++ render num (.imm i) := by
        exact tailText_other num (by simp) (by simpa using hi)
      rw [ht]
      exact dotted fl fun m hm => hr m (by omega)
  | .str s, h, h', sh, sh', v, rest, n, hok, hb, hn => by
    obtain ⟨n, rfl⟩ : ∃ m, n = m + 3 := ⟨n - 3, by omega⟩
    refine ⟨[], v, h', ?_, rfl⟩
    rw [tailText_other num (by simp) (by simp)]
    exact dotted fl fun m hm => read_tree fl num (.str s) h h' sh sh' v (')' :: rest) m hok hb (Del.close rest) (by omega)
  | .bytes s, h, h', sh, sh', v, rest, n, hok, hb, hn => by
    obtain ⟨n, rfl⟩ : ∃ m, n = m + 3 := ⟨n - 3, by omega⟩
    refine ⟨[], v, h', ?_, rfl⟩
    rw [tailText_other num (by simp) (by simp)]
    exact dotted fl fun m hm => read_tree fl num (.bytes s) h h' sh sh' v (')' :: rest) m hok hb (Del.close rest) (by omega)
  | .vec s, h, h', sh, sh', v, rest, n, hok, hb, hn => by
    obtain ⟨n, rfl⟩ : ∃ m, n = m + 3 := ⟨n - 3, by omega⟩
    refine ⟨[], v, h', ?_, rfl⟩
    rw [tailText_other num (by simp) (by simp)]
    exact dotted fl fun m hm => read_tree fl num (.vec s) h h' sh sh' v (')' :: rest) m hok hb (Del.close rest) (by omega)
  | .box s, h, h', sh, sh', v, rest, n, hok, hb, hn => by
    obtain ⟨n, rfl⟩ : ∃ m, n = m + 3 := ⟨n - 3, by omega⟩
    refine ⟨[], v, h', ?_, rfl⟩
    rw [tailText_other num (by simp) (by simp)]
    exact dotted fl fun m hm => read_tree fl num (.box s) h h' sh sh' v (')' :: rest) m hok hb (Del.close rest) (by omega)
  | .lab o s, h, h', sh, sh', v, rest, n, hok, hb, hn => by
    obtain ⟨n, rfl⟩ : ∃ m, n = m + 3 := ⟨n - 3, by omega⟩
    refine ⟨[], v, h', ?_, rfl⟩
    rw [tailText_other num (by simp) (by simp)]
    exact dotted fl fun m hm => read_tree fl num (.lab o s) h h' sh sh' v (')' :: rest) m hok hb (Del.close rest) (by omega)
  | .ref s, h, h', sh, sh', v, rest, n, hok, hb, hn => by
    obtain ⟨n, rfl⟩ : ∃ m, n = m + 3 := ⟨n - 3, by omega⟩
    refine ⟨[], v, h', ?_, rfl⟩
    rw [tailText_other num (by simp) (by simp)]
    exact dotted fl fun m hm => read_tree fl num (.ref s) h h' sh sh' v (')' :: rest) m hok hb (Del.close rest) (by omega)
theorem read_items (fl : Flo) (num : Nat → Nat) : ∀ (ds : DS) (h h' : List Cell) (sh sh' : List (Int × V)) (vs : List V) (rest : List Char)
    (first : Bool) (n : Nat), ds.Ok num → builds num ds h sh = some (vs, h', sh') → ds.sz ≤ n →
    subReadList fl false n .closeParen false first ⟨spacedTail (renders num ds) ++ ')' :: rest, h, sh⟩ =
      some (vs, .imm .null, ⟨rest, h', sh'⟩)
  | .nil, h, h', sh, sh', vs, rest, first, n, hok, hb, hn => by
    simp only [DS.sz] at hn
    obtain ⟨n, rfl⟩ : ∃ m, n = m + 2 := ⟨n - 2, by omega⟩
    simp only [builds, Option.some.injEq, Prod.mk.injEq] at hb
    obtain ⟨rfl, rfl, rfl⟩ := hb
    rw [renders, spacedTail, List.nil_append, subReadList, subRead_close]
    rfl
  | .cons d ds, h, h', sh, sh', vs, rest, first, n, hok, hb, hn => by
    simp only [DS.sz] at hn
    obtain ⟨n, rfl⟩ : ∃ m, n = m + 2 := ⟨n - 2, by omega⟩
    rw [builds] at hb
    cases e1 : build num d h sh with
    | none => simp [e1] at hb
    | some p =>
      obtain ⟨v1, h1, s1⟩ := p
      simp only [e1] at hb
      cases e2 : builds num ds h1 s1 with
      | none => simp [e2] at hb
      | some p =>
        obtain ⟨vs2, h2, s2⟩ := p
        simp only [e2, Option.some.injEq, Prod.mk.injEq] at hb
        obtain ⟨rfl, rfl, rfl⟩ := hb
        rw [renders, spacedTail, List.cons_append, List.cons_append, List.append_assoc, subReadList, subRead_space,
          read_tree fl num d h h1 sh s1 v1 _ n hok.1 e1 (items_del num ds rest) (by omega)]
        simp only
        rw [read_items fl num ds h1 h2 s1 s2 vs2 rest false (n + 1) hok.2 e2 (by omega)]
        rfl
end

end Verif.Labels

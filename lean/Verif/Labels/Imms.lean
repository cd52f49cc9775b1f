import Verif.Labels.Atoms
/-
Reading immediate data and strings back.
-/
namespace Verif.Labels

theorem not_odd {c : Char} {r : List Char} (h1 : c ≠ '+') (h2 : c ≠ '-') : ¬ Odd (c :: r) := by
  rintro ⟨c', r', e, hc, _⟩
  rw [← (List.cons.inj e).1] at hc
  rcases hc with hc | hc
  · exact h1 hc
  · exact h2 hc

theorem read_name (fl : Flo) (m : Bool) {c : Char} {x rest : List Char} (h1 : c ≠ '+') (h2 : c ≠ '-') (hx : cleansymname (c :: x) = true)
    (hr : Del rest) (n : Nat) (h : List Cell) (sh : List (Int × V)) :
    careful (subRead fl m (n + 1) ⟨c :: (x ++ rest), h, sh⟩) = some (.imm (.sym (c :: x)), ⟨rest, h, sh⟩) := by
  have := read_clean fl m hx (not_odd h1 h2) hr n h sh
  rw [List.cons_append] at this
  rw [this]
  rfl

theorem read_bool (fl : Flo) (m : Bool) (b : Bool) {rest : List Char} (hr : Del rest) (n : Nat) (h : List Cell) (sh : List (Int × V)) :
    subRead fl m (n + 3) ⟨immText (.bool b) ++ rest, h, sh⟩ = some (.val (.imm (.bool b)), ⟨rest, h, sh⟩) := by
  cases b
  · show subRead fl m (n + 3) ⟨'#' :: 'f' :: rest, h, sh⟩ = _
    rw [subRead_hash, subReadHash]
    have := read_name fl m (c := 'f') (x := []) (by decide) (by decide) (by decide) hr n h sh
    rw [List.nil_append] at this
    simp only [this]
    rfl
  · show subRead fl m (n + 3) ⟨'#' :: 't' :: rest, h, sh⟩ = _
    rw [subRead_hash, subReadHash]
    have := read_name fl m (c := 't') (x := []) (by decide) (by decide) (by decide) hr n h sh
    rw [List.nil_append] at this
    simp only [this]
    rfl

theorem read_char_name (fl : Flo) (m : Bool) {c : Char} {x rest : List Char} {d : Char} (h1 : isalpha c = true) (h0 : c ≠ 'x')
    (hx : cleansymname (c :: x) = true)
    (hn : (c :: x).length ≠ 1) (hd : charName (c :: x) = some d) (hr : Del rest) (n : Nat) (h : List Cell) (sh : List (Int × V)) :
    subRead fl m (n + 3) ⟨'#' :: '\\' :: c :: (x ++ rest), h, sh⟩ = some (.val (.imm (.chr d)), ⟨rest, h, sh⟩) := by
  rw [subRead_hash, subReadHash]
  have e := read_name fl m (c := c) (x := x) (by rintro rfl; exact absurd h1 (by decide)) (by rintro rfl; exact absurd h1 (by decide)) hx hr n h sh
  have k1 : (ci '\\' 't' || ci '\\' 'f') = false := by decide
  have k2 : (ci '\\' 'b' || ci '\\' 'o' || ci '\\' 'd' || ci '\\' 'x' || ci '\\' 'i' || ci '\\' 'e') = false := by decide
  simp only [k1, k2, Bool.false_eq_true, if_false, if_neg h0, h1, if_true, e, if_neg hn, hd]
  rfl

theorem alpha_facts {c : Char} (h : isalpha c = true) : c ∈ inits := by
  simp only [isalpha, Bool.or_eq_true, Bool.and_eq_true, decide_eq_true_eq, Char.le_def, UInt32.le_iff_toNat_le] at h
  have hc : c = Char.ofNat c.toNat := (Char.ofNat_toNat c).symm
  have h' : (97 ≤ c.toNat ∧ c.toNat ≤ 122) ∨ (65 ≤ c.toNat ∧ c.toNat ≤ 90) := h
  rw [hc]
  generalize c.toNat = k at h'
  have h1 : ∀ k < 123, 97 ≤ k → Char.ofNat k ∈ inits := by decide +kernel
  have h2 : ∀ k < 91, 65 ≤ k → Char.ofNat k ∈ inits := by decide +kernel
  rcases h' with ⟨a, b⟩ | ⟨a, b⟩
  · exact h1 k (by omega) a
  · exact h2 k (by omega) a

theorem inits_subss {c : Char} (h : c ∈ inits) : c ∈ subss := by
  have : ∀ c ∈ inits, c ∈ subss := by decide +kernel
  exact this c h

theorem read_char (fl : Flo) (m : Bool) (c : Char) {rest : List Char} (hr : Del rest) (n : Nat) (h : List Cell) (sh : List (Int × V)) :
    subRead fl m (n + 3) ⟨immText (.chr c) ++ rest, h, sh⟩ = some (.val (.imm (.chr c)), ⟨rest, h, sh⟩) := by
  have hof : ∀ k, c.toNat = k → c = Char.ofNat k := by rintro k rfl; exact (Char.ofNat_toNat c).symm
  show subRead fl m (n + 3) ⟨charText c ++ rest, h, sh⟩ = _
  unfold charText
  split
  · next e =>
    rw [hof _ e]
    exact read_char_name fl m (c := 'n') (x := "ull".toList) (by decide) (by decide) (by decide) (by decide) (by decide) hr n h sh
  split
  · next e =>
    rw [hof _ e]
    exact read_char_name fl m (c := 'a') (x := "larm".toList) (by decide) (by decide) (by decide) (by decide) (by decide) hr n h sh
  split
  · next e =>
    rw [hof _ e]
    exact read_char_name fl m (c := 'b') (x := "ackspace".toList) (by decide) (by decide) (by decide) (by decide) (by decide) hr n h sh
  split
  · next e =>
    rw [hof _ e]
    exact read_char_name fl m (c := 'd') (x := "elete".toList) (by decide) (by decide) (by decide) (by decide) (by decide) hr n h sh
  split
  · next e =>
    rw [hof _ e]
    exact read_char_name fl m (c := 'e') (x := "scape".toList) (by decide) (by decide) (by decide) (by decide) (by decide) hr n h sh
  split
  · next e =>
    rw [e]
    exact read_char_name fl m (c := 't') (x := "ab".toList) (by decide) (by decide) (by decide) (by decide) (by decide) hr n h sh
  split
  · next e =>
    rw [e]
    exact read_char_name fl m (c := 'n') (x := "ewline".toList) (by decide) (by decide) (by decide) (by decide) (by decide) hr n h sh
  split
  · next e =>
    rw [e]
    exact read_char_name fl m (c := 'r') (x := "eturn".toList) (by decide) (by decide) (by decide) (by decide) (by decide) hr n h sh
  split
  · next e =>
    rw [e]
    exact read_char_name fl m (c := 's') (x := "pace".toList) (by decide) (by decide) (by decide) (by decide) (by decide) hr n h sh
  · show subRead fl m (n + 3) ⟨'#' :: '\\' :: c :: rest, h, sh⟩ = _
    rw [subRead_hash, subReadHash]
    have k1 : (ci '\\' 't' || ci '\\' 'f') = false := by decide
    have k2 : (ci '\\' 'b' || ci '\\' 'o' || ci '\\' 'd' || ci '\\' 'x' || ci '\\' 'i' || ci '\\' 'e') = false := by decide
    simp only [k1, k2, Bool.false_eq_true, if_false, if_true]
    by_cases hx : c = 'x'
    · subst hx
      obtain ⟨e, r', rfl, he⟩ := hr
      simp only [if_true, he]
      rfl
    · rw [if_neg hx]
      by_cases ha : isalpha c = true
      · have hi := alpha_facts ha
        have hcl : cleansymname [c] = true := by simp [cleansymname, hi, inits_subss hi]
        obtain ⟨_, h1, h2, _⟩ := inits_facts hi
        have e := read_name fl m (c := c) (x := []) h1 h2 hcl hr n h sh
        rw [List.nil_append] at e
        simp only [ha, if_true, e]
        rfl
      · simp only [ha]
        rfl

theorem subRead_open (fl : Flo) (m : Bool) (n : Nat) (r : List Char) (h : List Cell) (sh : List (Int × V)) :
    subRead fl m (n + 1) ⟨'(' :: r, h, sh⟩ = (subReadList fl m n .closeParen true true ⟨r, h, sh⟩).map fun p =>
        let q := p.2.2.consAll p.1 p.2.1; (.val q.1, q.2) := by
  rw [subRead]
  show (if Num.isspace '(' = true then _ else _) = _
  rw [if_neg (by decide), if_pos rfl]

theorem read_imm (fl : Flo) (m : Bool) {i : Imm} (hi : ImmOk i) {rest : List Char} (hr : Del rest) (n : Nat) (h : List Cell)
    (sh : List (Int × V)) : subRead fl m (n + 3) ⟨immText i ++ rest, h, sh⟩ = some (.val (.imm i), ⟨rest, h, sh⟩) := by
  cases i with
  | bool b => exact read_bool fl m b hr n h sh
  | fix x => exact read_dec fl m x hi hr (n + 2) h sh
  | chr c => exact read_char fl m c hr n h sh
  | sym s =>
    show subRead fl m (n + 3) ⟨(if cleansymname s then s else '|' :: esc '|' s ++ ['|']) ++ rest, h, sh⟩ = _
    by_cases hc : cleansymname s = true
    · rw [if_pos hc]
      exact read_clean fl m hc hi.2 hr (n + 2) h sh
    · rw [if_neg hc, List.cons_append, List.cons_append, List.append_assoc]
      have hlen : s.length ≤ (esc '|' s).length := by
        clear hc hi hr
        induction s with
        | nil => simp
        | cons c s ih => unfold esc; split <;> simp <;> omega
      have e := quoted_ok (q := '|') (.inr rfl) rest s ((esc '|' s ++ '|' :: rest).length + 1) [] (by simp; omega)
      have k : symbolic '|' = false := by decide
      rw [subRead]
      show (if Num.isspace '|' = true then _ else _) = _
      rw [if_neg (by decide), if_neg (by decide), if_neg (by decide), if_neg (by decide), if_neg (by decide), if_neg (by decide),
        if_neg (by decide), if_neg (by decide), if_neg (by decide), if_neg (by decide), if_neg (by decide), if_pos rfl]
      show Option.map _ (quoted '|' ((esc '|' s ++ '|' :: rest).length + 1) (esc '|' s ++ '|' :: rest) []) = _
      rw [e]
      rfl
  | null =>
    show subRead fl m (n + 3) ⟨'(' :: ')' :: rest, h, sh⟩ = _
    rw [subRead_open, subReadList, subRead_close]
    rfl

theorem read_str (fl : Flo) (m : Bool) (s : List Char) (rest : List Char) (n : Nat) (h : List Cell)
    (sh : List (Int × V)) : subRead fl m (n + 1) ⟨'"' :: esc '"' s ++ '"' :: rest, h, sh⟩ =
      some (.val (.ptr h.length), ⟨rest, h ++ [.str s], sh⟩) := by
  have hlen : s.length ≤ (esc '"' s).length := by
    induction s with
    | nil => simp
    | cons c s ih => unfold esc; split <;> simp <;> omega
  have e := quoted_ok (q := '"') (.inl rfl) rest s ((esc '"' s ++ '"' :: rest).length + 1) [] (by simp; omega)
  rw [List.cons_append, subRead]
  show (if Num.isspace '"' = true then _ else _) = _
  rw [if_neg (by decide), if_neg (by decide), if_neg (by decide), if_neg (by decide), if_neg (by decide), if_neg (by decide),
    if_neg (by decide), if_neg (by decide), if_neg (by decide), if_neg (by decide), if_pos rfl]
  show Option.map _ (quoted '"' ((esc '"' s ++ '"' :: rest).length + 1) (esc '"' s ++ '"' :: rest) []) = _
  rw [e]
  rfl

end Verif.Labels

import Verif.Names.Model
import Verif.Num.Props
/-
Property theorems C30, C38, C39.
-/
namespace Verif.Names
open Verif.Num

/-- A byte string. -/
def Bytes (s : List Char) : Prop := ∀ c ∈ s, c.toNat < 256

/-! ### decimal strings -/

theorem numberToString_spec (n r : Nat) (hr : 2 ≤ r ∧ r ≤ 36) (hn : n < r ^ 33) :
    numberToString n r ≠ [] ∧ (∀ c ∈ numberToString n r, isDig r c = true) ∧ value r (numberToString n r) = n := by
  obtain ⟨ds, e, hne, _, hall, hval, _⟩ := digitsLoop_spec r hr.1 hr.2 34 n []
    (lt_of_lt_of_le hn (Nat.pow_le_pow_right (by omega) (by omega))) (by omega)
  have : numberToString n r = ds := by
    simp only [numberToString, fixnumToString, Int.natAbs_natCast, e, List.append_nil]
    rw [if_neg (by omega)]; rfl
  rw [this]
  exact ⟨hne, fun c hc => (hall c hc).1, hval⟩

theorem isDig10_iff (c : Char) (h : isDig 10 c = true) : c ≠ '_' ∧ '0' ≤ c ∧ c ≤ '9' := by
  unfold isDig digVal at h
  by_cases h0 : '0' ≤ c ∧ c ≤ '9'
  · exact ⟨by rintro rfl; revert h0; decide, h0⟩
  · rw [if_neg h0] at h
    split at h
    · rename_i d hd
      split at hd
      · simp at hd h; omega
      · split at hd
        · simp at hd h; omega
        · simp at hd
    · simp at h

theorem decimal_noUnderscore {n : Nat} (hn : n < 10 ^ 33) : ∀ c ∈ numberToString n 10, c ≠ '_' :=
  fun c hc => (isDig10_iff c ((numberToString_spec n 10 (by omega) hn).2.1 c hc)).1

theorem decimal_inj {m n : Nat} (hm : m < 10 ^ 33) (hn : n < 10 ^ 33)
    (h : numberToString m 10 = numberToString n 10) : m = n := by
  have a := (numberToString_spec m 10 (by omega) hm).2.2
  have b := (numberToString_spec n 10 (by omega) hn).2.2
  rw [← a, ← b, h]

/-! ### mangled characters -/

/-- upper-case hexadecimal digit and its value -/
def hexv (c : Char) : Option Nat :=
  if '0' ≤ c ∧ c ≤ '9' then some (c.toNat - 48)
  else if 'A' ≤ c ∧ c ≤ 'F' then some (c.toNat - 55) else none

/-- inverse of `mangleChar` -/
def decode1 (l : List Char) : Option Char :=
  match l with
  | [x] => if charAlphabetic x || charNumeric x then some x else none
  | ['_', a, b] => match hexv a, hexv b with
    | some x, some y => some (Char.ofNat (16 * x + y))
    | _, _ => none
  | _ => none

theorem mangle_table : ∀ n, n < 256 → decode1 (mangleChar (Char.ofNat n)) = some (Char.ofNat n) := by
  decide +kernel

theorem mangleChar_decode (c : Char) (h : c.toNat < 256) : decode1 (mangleChar c) = some c := by
  have := mangle_table c.toNat h
  rwa [Char.ofNat_toNat] at this

/-- shape of a mangled character -/
theorem mangle_cases (c : Char) (h : c.toNat < 256) :
    (mangleChar c = [c] ∧ (charAlphabetic c || charNumeric c) = true) ∨
    (∃ a b x y, mangleChar c = ['_', a, b] ∧ hexv a = some x ∧ hexv b = some y ∧ c = Char.ofNat (16 * x + y)) := by
  have hd := mangleChar_decode c h
  by_cases ha : (charAlphabetic c || charNumeric c) = true
  · left; exact ⟨by simp [mangleChar, ha], ha⟩
  · right
    have hm : ∃ t, mangleChar c = '_' :: t := by
      unfold mangleChar; rw [if_neg ha]; exact ⟨_, rfl⟩
    obtain ⟨t, ht⟩ := hm
    rw [ht] at hd ⊢
    unfold decode1 at hd
    split at hd
    · rename_i x hx
      simp only [List.cons.injEq] at hx
      obtain ⟨rfl, _⟩ := hx
      have : (charAlphabetic '_' || charNumeric '_') = false := by decide
      rw [this] at hd; simp at hd
    · rename_i a b hx
      simp only [List.cons.injEq, true_and] at hx
      subst hx
      split at hd
      · rename_i x y hx hy
        simp at hd
        exact ⟨a, b, x, y, rfl, hx, hy, hd.symm⟩
      · simp at hd
    · simp at hd

theorem alnum_ne {c : Char} (h : (charAlphabetic c || charNumeric c) = true) : c ≠ '_' := by
  rintro rfl; revert h; decide

theorem hexv_ne {c : Char} {x : Nat} (h : hexv c = some x) : c ≠ 'v' := by
  rintro rfl; revert h; simp [hexv]

/-- suffix allowed after a mangled name -/
def Suffix (X : List Char) : Prop := X = [] ∨ ∃ d, X = '_' :: 'v' :: d

theorem unique_decode : ∀ (a b X Y : List Char), Bytes a → Bytes b → Suffix X → Suffix Y →
    a.flatMap mangleChar ++ X = b.flatMap mangleChar ++ Y → a = b ∧ X = Y := by
  intro a
  induction a with
  | nil =>
    intro b X Y _ hb hX hY h
    cases b with
    | nil => exact ⟨rfl, by simpa using h⟩
    | cons c cs =>
      exfalso
      simp only [List.flatMap_nil, List.nil_append, List.flatMap_cons, List.append_assoc] at h
      rcases mangle_cases c (hb c (by simp)) with ⟨e, ha⟩ | ⟨p, q, x, y, e, hp, _, _⟩
      · rw [e] at h
        rcases hX with rfl | ⟨d, rfl⟩
        · simp at h
        · simp at h; exact alnum_ne ha h.1.symm
      · rw [e] at h
        rcases hX with rfl | ⟨d, rfl⟩
        · simp at h
        · simp at h; exact hexv_ne hp h.1.symm
  | cons c cs ih =>
    intro b X Y ha hb hX hY h
    have hcs : Bytes cs := fun x hx => ha x (by simp [hx])
    cases b with
    | nil =>
      exfalso
      simp only [List.flatMap_nil, List.nil_append, List.flatMap_cons, List.append_assoc] at h
      rcases mangle_cases c (ha c (by simp)) with ⟨e, hal⟩ | ⟨p, q, x, y, e, hp, _, _⟩
      · rw [e] at h
        rcases hY with rfl | ⟨d, rfl⟩
        · simp at h
        · simp at h; exact alnum_ne hal h.1
      · rw [e] at h
        rcases hY with rfl | ⟨d, rfl⟩
        · simp at h
        · simp at h; exact hexv_ne hp h.1
    | cons c' cs' =>
      have hcs' : Bytes cs' := fun x hx => hb x (by simp [hx])
      simp only [List.flatMap_cons, List.append_assoc] at h
      rcases mangle_cases c (ha c (by simp)) with ⟨e, hal⟩ | ⟨p, q, x, y, e, hp, hq, hc⟩ <;>
      rcases mangle_cases c' (hb c' (by simp)) with ⟨e', hal'⟩ | ⟨p', q', x', y', e', hp', hq', hc'⟩
      · rw [e, e'] at h
        simp at h
        obtain ⟨rfl, h⟩ := h
        obtain ⟨h1, h2⟩ := ih cs' X Y hcs hcs' hX hY h
        exact ⟨by rw [h1], h2⟩
      · rw [e, e'] at h
        simp at h; exact absurd h.1 (alnum_ne hal)
      · rw [e, e'] at h
        simp at h; exact absurd h.1.symm (alnum_ne hal')
      · rw [e, e'] at h
        simp at h
        obtain ⟨rfl, rfl, h⟩ := h
        rw [hp] at hp'; rw [hq] at hq'
        simp at hp' hq'
        subst hp' hq'
        obtain ⟨h1, h2⟩ := ih cs' X Y hcs hcs' hX hY h
        exact ⟨by rw [h1, hc, hc'], h2⟩

/-! ## C38 -/

/-- characters allowed in a C identifier -/
def identChar (c : Char) : Bool := ('a' ≤ c ∧ c ≤ 'z') ∨ ('A' ≤ c ∧ c ≤ 'Z') ∨ ('0' ≤ c ∧ c ≤ '9') ∨ c = '_'

theorem hexv_ident {c : Char} {x : Nat} (h : hexv c = some x) : identChar c = true := by
  unfold hexv at h
  by_cases h0 : '0' ≤ c ∧ c ≤ '9'
  · simp [identChar, h0]
  · rw [if_neg h0] at h
    split at h
    · rename_i h1
      have : c ≤ 'Z' := Char.le_trans h1.2 (by decide)
      simp [identChar, h1, this]
    · simp at h

/-- Mangled names consist of identifier characters only (given an identifier prefix). -/
theorem c38_valid (s pfx : List Char) (hs : Bytes s) (hp : ∀ c ∈ pfx, identChar c = true) :
    ∀ c ∈ cMangle s pfx, identChar c = true := by
  intro c hc
  rw [cMangle, List.mem_append] at hc
  rcases hc with hc | hc
  · exact hp c hc
  · rw [List.mem_flatMap] at hc
    obtain ⟨a, ha, hc⟩ := hc
    rcases mangle_cases a (hs a ha) with ⟨e, hal⟩ | ⟨p, q, x, y, e, hp, hq, _⟩
    · rw [e] at hc; simp at hc; subst hc
      simp only [charAlphabetic, charNumeric, Bool.or_eq_true, decide_eq_true_eq] at hal
      simp only [identChar, decide_eq_true_eq]; tauto
    · rw [e] at hc; simp at hc
      rcases hc with rfl | rfl | rfl
      · decide
      · exact hexv_ident hp
      · exact hexv_ident hq

/-- Distinct Scheme names give distinct C names (any fixed prefix). -/
theorem c38_injective (a b pfx : List Char) (ha : Bytes a) (hb : Bytes b)
    (h : cMangle a pfx = cMangle b pfx) : a = b := by
  have h' : a.flatMap mangleChar ++ [] = b.flatMap mangleChar ++ [] := by
    simpa [cMangle] using h
  exact (unique_decode a b [] [] ha hb (Or.inl rfl) (Or.inl rfl) h').1

/-- Global names: valid C identifiers starting with a letter, one per Scheme name. -/
theorem c38_globals (a b : Id) (ha : Bytes a.name) (hb : Bytes b.name) :
    (gvarCName a = gvarCName b ↔ a.name = b.name) ∧ (gvarCName a).head? = some 'c' ∧
    (∀ c ∈ gvarCName a, identChar c = true) := by
  refine ⟨⟨c38_injective _ _ _ ha hb, fun h => by simp [gvarCName, h]⟩, rfl, ?_⟩
  exact c38_valid _ _ ha (by decide)

example : Bytes "string->symbol!".toList := by unfold Bytes; decide
example : gvarCName ⟨"list->a_b".toList, 0⟩ = "cx_list_2D_3Ea_5Fb".toList := by decide +kernel

/-- Local names with distinct stamps are distinct, whatever the source names, and never equal a global name. -/
theorem c38_locals (a b : Id) (hta : a.ts < 10 ^ 33) (htb : b.ts < 10 ^ 33) (hne : a.ts ≠ b.ts) :
    cvarCName a ≠ cvarCName b ∧ cvarCName a ≠ gvarCName b := by
  constructor
  · intro h
    unfold cvarCName cMangle at h
    simp only [List.cons_append, List.cons.injEq, true_and, List.append_assoc] at h
    have key : ∀ (d e x y : List Char), (∀ c ∈ d, c ≠ '_') → (∀ c ∈ e, c ≠ '_') →
        d ++ '_' :: x = e ++ '_' :: y → d = e := by
      intro d
      induction d with
      | nil =>
        intro e x y _ he h
        cases e with
        | nil => rfl
        | cons c cs => simp at h; exact absurd h.1.symm (he c (by simp))
      | cons c cs ih =>
        intro e x y hd he h
        cases e with
        | nil => simp at h; exact absurd h.1 (hd c (by simp))
        | cons c' cs' =>
          simp at h
          rw [h.1, ih cs' x y (fun c hc => hd c (by simp [hc])) (fun c hc => he c (by simp [hc])) h.2]
    apply hne
    exact decimal_inj hta htb (key _ _ _ _ (decimal_noUnderscore hta) (decimal_noUnderscore htb) h)
  · intro h
    have := congrArg List.head? h
    simp [cvarCName, gvarCName, cMangle] at this

example : (⟨"x".toList, 17⟩ : Id).ts < 10 ^ 33 ∧ (17:Nat) ≠ 18 := by decide

/-! ## C39 -/

/-- the base label of an identifier -/
theorem label_form (al : List (Id × List Char)) (id : Id) :
    ∃ X, idToLabel al id = "s_".toList ++ ((cUndecorate id.name).flatMap mangleChar ++ X) ∧
      ((X = [] ∧ ∀ p ∈ al, p.2 ≠ "s_".toList ++ (cUndecorate id.name).flatMap mangleChar) ∨
        X = '_' :: 'v' :: numberToString id.ts 10) := by
  unfold idToLabel cMangle
  by_cases h : (al.any fun p => ("s_".toList ++ (cUndecorate id.name).flatMap mangleChar) == p.2) = true
  · refine ⟨'_' :: 'v' :: numberToString id.ts 10, ?_, Or.inr rfl⟩
    simp only [h, if_true, List.append_assoc]
    rfl
  · refine ⟨[], by simp only [h]; simp, Or.inl ⟨rfl, ?_⟩⟩
    intro p hp he
    apply h
    rw [List.any_eq_true]
    exact ⟨p, hp, by simp [he]⟩

theorem undecorate_bytes {s : List Char} (h : Bytes s) : Bytes (cUndecorate s) := by
  intro c hc
  unfold cUndecorate at hc
  split at hc
  · rename_i t
    unfold beforeUnderscore at hc
    split at hc
    · simp only [Option.getD_some] at hc
      exact h c (by simp [List.takeWhile_subset _ hc])
    · simp only [Option.getD_none] at hc
      exact h c (by simp [hc])
  · exact h c hc

/-- invariant of the label table -/
def LInv (al : List (Id × List Char)) : Prop :=
  (al.map (·.2)).Nodup ∧ ∀ p ∈ al, Bytes p.1.name ∧ p.1.ts < 10 ^ 33 ∧
    ∃ X, p.2 = "s_".toList ++ ((cUndecorate p.1.name).flatMap mangleChar ++ X) ∧
      (X = [] ∨ X = '_' :: 'v' :: numberToString p.1.ts 10)

theorem assignLoop_inv : ∀ (ids : List Id) (al : List (Id × List Char)), LInv al →
    (∀ id ∈ ids, Bytes id.name ∧ id.ts < 10 ^ 33) → (ids.map (·.ts)).Nodup →
    (∀ id ∈ ids, ∀ p ∈ al, id.ts ≠ p.1.ts) → LInv (assignLoop ids al) := by
  intro ids
  induction ids with
  | nil => intro al h _ _ _; exact h
  | cons id ids ih =>
    intro al hal hb hnd hdis
    simp only [List.map_cons, List.nodup_cons] at hnd
    rw [assignLoop]
    apply ih
    · obtain ⟨X, hX, hX'⟩ := label_form al id
      have hid := hb id (by simp)
      refine ⟨?_, ?_⟩
      · simp only [List.map_cons, List.nodup_cons]
        refine ⟨?_, hal.1⟩
        intro hmem
        rw [List.mem_map] at hmem
        obtain ⟨p, hp, hpe⟩ := hmem
        obtain ⟨hpb, hpt, Y, hY, hY'⟩ := hal.2 p hp
        rw [hX, hY] at hpe
        have hpe' := List.append_cancel_left hpe
        obtain ⟨h1, h2⟩ := unique_decode _ _ Y X (undecorate_bytes hpb) (undecorate_bytes hid.1)
          (by rcases hY' with h | h; exact Or.inl h; exact Or.inr ⟨_, h⟩)
          (by rcases hX' with h | h; exact Or.inl h.1; exact Or.inr ⟨_, h⟩) hpe'
        rcases hX' with ⟨hx0, hno⟩ | hx
        · apply hno p hp
          rw [hY, h1, h2, hx0]; simp
        · rcases hY' with hy | hy
          · rw [hx, hy] at h2; simp at h2
          · rw [hx, hy] at h2
            simp at h2
            exact hdis id (by simp) p hp (decimal_inj hid.2 hpt h2.symm)
      · intro p hp
        simp only [List.mem_cons] at hp
        rcases hp with rfl | hp
        · exact ⟨hid.1, hid.2, X, hX, by rcases hX' with h | h; exact Or.inl h.1; exact Or.inr h⟩
        · exact hal.2 p hp
    · exact fun i hi => hb i (by simp [hi])
    · exact hnd.2
    · intro i hi p hp
      simp only [List.mem_cons] at hp
      rcases hp with rfl | hp
      · intro he; exact hnd.1 (he ▸ List.mem_map.2 ⟨i, hi, rfl⟩)
      · exact hdis i (by simp [hi]) p hp

theorem assignLoop_ids (ids : List Id) : ∀ al, ((assignLoop ids al).map (·.1)) = ids.reverse ++ al.map (·.1) := by
  induction ids with
  | nil => intro al; rfl
  | cons id ids ih => intro al; rw [assignLoop, ih]; simp

/-- All labels assigned in one C function are different, and every identifier gets one, for every list of
identifiers with distinct time stamps, however they are named. -/
theorem c39_labels_unique (ids : List Id) (hb : ∀ id ∈ ids, Bytes id.name ∧ id.ts < 10 ^ 33)
    (hts : (ids.map (·.ts)).Nodup) :
    ((assignLabels ids).map (·.2)).Nodup ∧ (assignLabels ids).map (·.1) = ids := by
  have := assignLoop_inv ids [] ⟨by simp, by simp⟩ hb hts (by simp)
  refine ⟨?_, ?_⟩
  · rw [assignLabels, List.map_reverse, List.Nodup, List.pairwise_reverse]
    exact this.1.imp (fun h => Ne.symm h)
  · rw [assignLabels, List.map_reverse, assignLoop_ids]; simp

example : let ids : List Id := [⟨"_loop_3".toList, 1⟩, ⟨"_loop_7".toList, 2⟩, ⟨"loop".toList, 9⟩]
    (∀ id ∈ ids, Bytes id.name ∧ id.ts < 10 ^ 33) ∧ (ids.map (·.ts)).Nodup := by
  unfold Bytes; decide

/-! ## C30 -/

theorem last_split : ∀ (d e x y : List Char), (∀ c ∈ d, c ≠ '_') → (∀ c ∈ e, c ≠ '_') →
    x ++ '_' :: d = y ++ '_' :: e → d = e := by
  intro d e x y hd he h
  have h' := congrArg List.reverse h
  simp only [List.reverse_append, List.reverse_cons, List.append_assoc, List.singleton_append] at h'
  have key : ∀ (d e x y : List Char), (∀ c ∈ d, c ≠ '_') → (∀ c ∈ e, c ≠ '_') →
      d ++ '_' :: x = e ++ '_' :: y → d = e := by
    intro d
    induction d with
    | nil =>
      intro e x y _ he h
      cases e with
      | nil => rfl
      | cons c cs => simp at h; exact absurd h.1.symm (he c (by simp))
    | cons c cs ih =>
      intro e x y hd he h
      cases e with
      | nil => simp at h; exact absurd h.1 (hd c (by simp))
      | cons c' cs' =>
        simp at h
        rw [h.1, ih cs' x y (fun c hc => hd c (by simp [hc])) (fun c hc => he c (by simp [hc])) h.2]
  have := key d.reverse e.reverse _ _ (by simpa using hd) (by simpa using he) h'
  exact List.reverse_inj.1 this

theorem symlocToVar_inj {s t : List Char} (h : symlocToVar s = symlocToVar t) : s = t := by
  unfold symlocToVar at h
  have hres : ∀ s ∈ reserved, s.head? ≠ some '_' := by decide
  have h0 : ∀ u v : List Char, u.head? ≠ some '_' → u ≠ '_' :: v := by
    rintro u v hu rfl; exact hu rfl
  by_cases a1 : s ∈ reserved <;> by_cases a2 : s.head? = some '_' <;>
    by_cases b1 : t ∈ reserved <;> by_cases b2 : t.head? = some '_' <;>
    simp only [a1, a2, b1, b2, if_true, if_false] at h <;>
    first
      | exact (List.append_inj' (List.cons.inj h).2 rfl).1
      | exact h
      | exact absurd h (h0 _ _ a2)
      | exact absurd h.symm (h0 _ _ b2)

theorem sym_ne_int (s name : List Char) (n : Nat) (hn : n < 10 ^ 33) : symlocToVar s ≠ intlocToVar n name := by
  intro h
  have hd := (numberToString_spec n 10 (by omega) hn)
  have hl : ∀ (t : List Char), '_' :: t ++ ['_'] ≠ intlocToVar n name := by
    intro t h
    have := congrArg List.getLast? h
    unfold intlocToVar at this
    rw [List.getLast?_append] at this
    have h2 : ('_' :: numberToString n 10).getLast? = (numberToString n 10).getLast? := by
      cases hh : numberToString n 10 with
      | nil => exact absurd hh hd.1
      | cons a as => simp
    rw [List.getLast?_append, h2] at this
    cases hg : (numberToString n 10).getLast? with
    | none => rw [List.getLast?_eq_none_iff] at hg; exact hd.1 hg
    | some c =>
      rw [hg] at this
      simp at this
      have hc : c ∈ numberToString n 10 := List.mem_of_getLast? hg
      exact decimal_noUnderscore hn c hc this.symm
  unfold symlocToVar at h
  split at h
  · exact hl s h
  · split at h
    · exact hl s h
    · rename_i h2
      apply h2; rw [h]; rfl

/-- Two locations (bindings or globals) never share an output variable name, whatever the source names of
the identifiers are. -/
theorem c30_no_capture (l l' : Loc) (name name' : List Char)
    (hl : ∀ n, l = .int n → n < 10 ^ 33) (hl' : ∀ n, l' = .int n → n < 10 ^ 33)
    (h : locToVar l name = locToVar l' name') : l = l' := by
  cases l with
  | sym s =>
    cases l' with
    | sym t => rw [symlocToVar_inj h]
    | int n => exact absurd h (sym_ne_int s name' n (hl' n rfl))
  | int m =>
    cases l' with
    | sym t => exact absurd h.symm (sym_ne_int t name m (hl m rfl))
    | int n =>
      have hm := hl m rfl
      have hn := hl' n rfl
      simp only [locToVar, intlocToVar, List.cons_append, List.cons.injEq, true_and] at h
      have := last_split _ _ _ _ (decimal_noUnderscore hm) (decimal_noUnderscore hn) h
      rw [decimal_inj hm hn this]

/-- No variable name the expander emits is one of the core-form keywords of its output language. -/
theorem c30_not_reserved (l : Loc) (name : List Char) : locToVar l name ∉ reserved := by
  have hres : ∀ s ∈ reserved, s.head? ≠ some '_' := by decide
  intro h
  cases l with
  | sym s =>
    simp only [locToVar, symlocToVar] at h
    split at h
    · exact hres _ h rfl
    · split at h
      · exact hres _ h rfl
      · contradiction
  | int n => exact hres _ h rfl

/-- Globals that need no renaming keep their own name. -/
theorem c30_globals_kept (s : List Char) (h : s ∉ reserved) (hu : s.head? ≠ some '_') (name : List Char) :
    locToVar (.sym s) name = s := by
  simp [locToVar, symlocToVar, h, hu]

example : locToVar (.int 12) "x_1".toList = "_x_1_12".toList ∧ locToVar (.sym "_x_1_12".toList) [] = "__x_1_12_".toList := by
  decide +kernel
example : "car".toList ∉ reserved ∧ "car".toList.head? ≠ some '_' := by decide

end Verif.Names

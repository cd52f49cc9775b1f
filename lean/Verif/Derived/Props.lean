import Verif.Derived.Main
/-
C68: derived forms mean what R7RS says, after expansion.
-/
namespace Verif.Derived
variable {W : Type}

/-- `n` steps. -/
def iter {σ : Type} (f : σ → Option σ) : Nat → σ → Option σ
  | 0, s => some s
  | n + 1, s => (f s).bind (iter f n)

/-- the run from `s` ends after some steps, in a state with this result (`none`: an error). -/
def Ends {σ ρ : Type} (f : σ → Option σ) (res : σ → Option ρ) (s : σ) (r : Option ρ) : Prop :=
  ∃ n s', iter f n s = some s' ∧ f s' = none ∧ res s' = r

/-- the run from `s` comes to a state with the world `w`. -/
def Sees {σ : Type} (f : σ → Option σ) (world : σ → W) (s : σ) (w : W) : Prop := ∃ n s', iter f n s = some s' ∧ world s' = w

theorem iter_add {σ : Type} (f : σ → Option σ) (n : Nat) : ∀ (m : Nat) (s : σ), iter f (n + m) s = (iter f n s).bind (iter f m) := by
  induction n with
  | zero => intro m s; simp [iter]
  | succ n ih =>
    intro m s
    rw [show n + 1 + m = (n + m) + 1 by omega, iter, iter]
    cases f s with
    | none => rfl
    | some s' => exact ih m s'

theorem iter_stop {σ : Type} {f : σ → Option σ} {n : Nat} {s s' : σ} (h : iter f n s = some s') (h2 : f s' = none) (m : Nat) (hm : n < m) : iter f m s = none := by
  obtain ⟨k, rfl⟩ : ∃ k, m = n + (k + 1) := ⟨m - n - 1, by omega⟩
  rw [iter_add, h]
  simp [iter, h2]

theorem Tr.iter {pr : Prims W} {P : W → Prop} {c d : CS W} (h : Tr pr P c d) : ∃ n, iter (stepC pr) n c = some d := by
  induction h with
  | refl c => exact ⟨0, rfl⟩
  | step h1 _ _ ih =>
    obtain ⟨n, hn⟩ := ih
    exact ⟨n + 1, by rw [Derived.iter, h1]; exact hn⟩

/-- the worlds on the way. -/
theorem Tr.worlds {pr : Prims W} {P : W → Prop} {c d : CS W} (h : Tr pr P c d) : ∃ n, Derived.iter (stepC pr) n c = some d ∧ ∀ m c', m ≤ n → Derived.iter (stepC pr) m c = some c' → P c'.world ∨ c'.world = c.world := by
  induction h with
  | refl c =>
    refine ⟨0, rfl, ?_⟩
    intro m c' hm h
    obtain rfl : m = 0 := by omega
    injection h with h
    exact .inr (by rw [h])
  | step h1 h2 _ ih =>
    obtain ⟨n, hn, h3⟩ := ih
    refine ⟨n + 1, by rw [Derived.iter, h1]; exact hn, ?_⟩
    intro m c' hm h
    cases m with
    | zero => injection h with h; exact .inr (by rw [h])
    | succ m =>
      rw [Derived.iter, h1] at h
      rcases h3 m c' (by omega) h with h4 | h4
      · exact .inl h4
      · rw [h4]; exact .inl h2

/-- one step of the specification, with the steps of the machine. -/
theorem steps {pr : Prims W} {s s' : Spec.S W} {c : CS W} (h : R s c) (hs : Spec.step pr s = some s') :
    ∃ n d, iter (stepC pr) n c = some d ∧ R s' d ∧ (n = 0 → size s'.ctl < size s.ctl) ∧ ∀ m c', m ≤ n → iter (stepC pr) m c = some c' → c'.world = s.world ∨ c'.world = s'.world := by
  rcases sim (pr := pr) h with ⟨h1 | ⟨s2, h1, h2, h3, h4⟩, _⟩ | ⟨vs, _, _, h1, _⟩
  · rw [hs] at h1
    obtain ⟨d, e, h2, h3, h4, h5⟩ := h1
    obtain ⟨n, g1, g2⟩ := h4.worlds
    refine ⟨n + 1, e, by rw [iter, h2]; exact g1, h5, fun hn => absurd hn (by omega), ?_⟩
    intro m c' hm hc
    cases m with
    | zero => injection hc with hc; rw [← hc]; exact .inl h.base.world
    | succ m =>
      rw [iter, h2] at hc
      rcases g2 m c' (by omega) hc with h6 | h6
      · exact h6
      · rw [h6]; exact h3
  · rw [hs] at h1
    injection h1 with h1
    subst h1
    refine ⟨0, c, rfl, h2, fun _ => h3, ?_⟩
    intro m c' hm hc
    obtain rfl : m = 0 := by omega
    injection hc with hc
    rw [← hc]
    exact .inl h.base.world
  · rw [hs] at h1; cases h1

/-- a result of the machine. -/
def toC (r : List V × W) : List CV × W := (r.1.map .v, r.2)

/-- the specification is at its end. -/
theorem stops {pr : Prims W} {s : Spec.S W} {c : CS W} (h : R s c) (hs : Spec.step pr s = none) :
    ∃ n d, iter (stepC pr) n c = some d ∧ stepC pr d = none ∧ resultC d = (Spec.result s).map toC ∧ ∀ m c', m ≤ n → iter (stepC pr) m c = some c' → c'.world = s.world := by
  rcases sim (pr := pr) h with ⟨h1 | ⟨s2, h1, _⟩, h0⟩ | ⟨vs, _, _, _, h1, h2⟩
  · rw [hs] at h1
    obtain ⟨d, h2, h3, h4⟩ := h1
    obtain ⟨n, g1, g2⟩ := h2.worlds
    refine ⟨n, d, g1, h3, by rw [h4, h0]; rfl, ?_⟩
    intro m c' hm hc
    rcases g2 m c' hm hc with h6 | h6
    · exact h6
    · exact h6.trans h.base.world
  · rw [hs] at h1; cases h1
  · refine ⟨0, c, rfl, h1, h2, ?_⟩
    intro m c' hm hc
    obtain rfl : m = 0 := by omega
    injection hc with hc
    rw [← hc]
    exact h.base.world

theorem catch_up {pr : Prims W} (n : Nat) : ∀ {s s1 : Spec.S W} {c : CS W}, R s c → iter (Spec.step pr) n s = some s1 → ∃ m d, iter (stepC pr) m c = some d ∧ R s1 d := by
  induction n with
  | zero => intro s s1 c h h1; injection h1 with h1; subst h1; exact ⟨0, c, rfl, h⟩
  | succ n ih =>
    intro s s1 c h h1
    rw [iter] at h1
    cases hs : Spec.step pr s with
    | none => rw [hs] at h1; cases h1
    | some s' =>
      rw [hs] at h1
      obtain ⟨m, d, g1, g2, _⟩ := steps h hs
      obtain ⟨m', d', g3, g4⟩ := ih g2 h1
      exact ⟨m + m', d', by rw [iter_add, g1]; exact g3, g4⟩

/-- the other direction: states of the machine have states of the specification. -/
theorem back {pr : Prims W} (n : Nat) : ∀ {s : Spec.S W} {c d : CS W}, R s c → iter (stepC pr) n c = some d →
    (∃ m s', iter (Spec.step pr) m s = some s' ∧ s'.world = d.world) ∧
    (stepC pr d = none → ∃ m s', iter (Spec.step pr) m s = some s' ∧ Spec.step pr s' = none ∧ resultC d = (Spec.result s').map toC) := by
  induction n using Nat.strongRecOn with
  | ind n ih =>
    intro s
    generalize hz : size s.ctl = z
    induction z using Nat.strongRecOn generalizing s with
    | ind z ihz =>
      intro c d h hd
      cases hs : Spec.step pr s with
      | none =>
        obtain ⟨m, d', g1, g2, g3, g4⟩ := stops h hs
        by_cases hn : n ≤ m
        · refine ⟨⟨0, s, rfl, (g4 n d hn hd).symm⟩, fun hd2 => ⟨0, s, rfl, hs, ?_⟩⟩
          have : n = m := by
            by_contra hne
            rw [iter_stop hd hd2 m (by omega)] at g1
            cases g1
          subst this
          rw [hd] at g1
          injection g1 with g1
          rw [g1, g3]
        · rw [iter_stop g1 g2 n (by omega)] at hd
          cases hd
      | some s' =>
        obtain ⟨m, d', g1, g2, g3, g4⟩ := steps h hs
        have fin : ((∃ k s2, iter (Spec.step pr) k s' = some s2 ∧ s2.world = d.world) ∧
            (stepC pr d = none → ∃ k s2, iter (Spec.step pr) k s' = some s2 ∧ Spec.step pr s2 = none ∧ resultC d = (Spec.result s2).map toC)) →
            (∃ m s', iter (Spec.step pr) m s = some s' ∧ s'.world = d.world) ∧
            (stepC pr d = none → ∃ m s', iter (Spec.step pr) m s = some s' ∧ Spec.step pr s' = none ∧ resultC d = (Spec.result s').map toC) := by
          rintro ⟨⟨k, s2, a1, a2⟩, a3⟩
          refine ⟨⟨k + 1, s2, by rw [iter, hs]; exact a1, a2⟩, fun hd2 => ?_⟩
          obtain ⟨k, s2, a1, a2⟩ := a3 hd2
          exact ⟨k + 1, s2, by rw [iter, hs]; exact a1, a2⟩
        by_cases hn : m ≤ n
        · have hd' : iter (stepC pr) (n - m) d' = some d := by
            rw [show n = m + (n - m) by omega, iter_add, g1] at hd
            exact hd
          by_cases hm : m = 0
          · subst hm
            injection g1 with g1
            subst g1
            exact fin (ihz _ (by rw [← hz]; exact g3 rfl) rfl g2 hd)
          · exact fin (ih (n - m) (by omega) g2 hd')
        · refine ⟨?_, fun hd2 => ?_⟩
          · rcases g4 n d (by omega) hd with h6 | h6
            · exact ⟨0, s, rfl, h6.symm⟩
            · exact ⟨1, s', by rw [iter, hs]; rfl, h6.symm⟩
          · rw [iter_stop hd hd2 m (by omega)] at g1
            cases g1

theorem start_rel (w : W) (e : E) : R (Spec.start w e) (startC w (expand e)) :=
  ⟨.ev (fun _ => rfl), .nil, rfl, .nil, .nil, rfl⟩

/-- C68.  A program with the derived forms (let, named let, let*, letrec, letrec*, values, receive, let*-values, let-values, when, unless, and, or,
cond, case, do), call/cc and assignments ends after expansion by the macros of the library with the result it has by the specification, in which each
form has a meaning of its own; and with an error, or not at all, if the specification says so. -/
theorem c68_expansion (pr : Prims W) (w : W) (e : E) (r : Option (List CV × W)) :
    Ends (stepC pr) resultC (startC w (expand e)) r ↔ ∃ r', Ends (Spec.step pr) Spec.result (Spec.start w e) r' ∧ r = r'.map toC := by
  constructor
  · rintro ⟨n, d, h1, h2, rfl⟩
    obtain ⟨m, s', g1, g2, g3⟩ := (back n (start_rel w e) h1).2 h2
    exact ⟨_, ⟨m, s', g1, g2, rfl⟩, g3⟩
  · rintro ⟨r', ⟨n, s', h1, h2, rfl⟩, rfl⟩
    obtain ⟨m, d, g1, g2⟩ := catch_up n (start_rel w e) h1
    obtain ⟨m', d', g3, g4, g5, _⟩ := stops g2 h2
    exact ⟨m + m', d', by rw [iter_add, g1]; exact g3, g4, g5⟩

/-- C68, for programs that do not end too: the states of the world that are passed through are the same. -/
theorem c68_worlds (pr : Prims W) (w : W) (e : E) (u : W) :
    Sees (stepC pr) CS.world (startC w (expand e)) u ↔ Sees (Spec.step pr) Spec.S.world (Spec.start w e) u := by
  constructor
  · rintro ⟨n, d, h1, rfl⟩
    exact (back n (start_rel w e) h1).1
  · rintro ⟨n, s', h1, rfl⟩
    obtain ⟨m, d, g1, g2⟩ := catch_up n (start_rel w e) h1
    exact ⟨m, d, g1, g2.base.world⟩

/-! ### examples -/

section
private def nat (n : Nat) : E := .const (.atom (n + 10))
/-- 0 writes its argument, 1 adds 1, 2 is `eqv?`. -/
private def pr : Prims (List Nat) where
  prim p vs w :=
    match p, vs with
    | 0, [.atom n] => some (.void, w ++ [n - 10])
    | 1, [.atom n] => some (.atom (n + 1), w)
    | 2, [a, b] => some (if a = b then .t else .f, w)
    | _, _ => none
  eqv a b := a = b

/-- `(do ([i 0 (+ i 1)] [a 7]) [(eqv? i 3) a] (write i))`. -/
private def ex1 : E := .doo [0, 1] [nat 0, nat 7] (.step (.prim 1 [.var 0]) (.keep .nil)) (.prim 2 [.var 0, nat 3]) [.var 1] [.prim 0 [.var 0]]

example : Ends (Spec.step pr) Spec.result (Spec.start [] ex1) (some ([.atom 17], [0, 1, 2])) := ⟨60, _, rfl, rfl, rfl⟩

/-- `(let ([a 1] [b 2]) (let-values ([(a b) (values b a)] [(c) a]) (values a b c)))`. -/
private def ex2 : E := .lett [0, 1] [nat 1, nat 2] (.letv (.cons [0, 1] (.values [.var 1, .var 0]) (.cons [2] (.var 0) .nil)) (.values [.var 0, .var 1, .var 2]))

example : Ends (Spec.step pr) Spec.result (Spec.start [] ex2) (some ([.atom 12, .atom 11, .atom 11], [])) := ⟨21, _, rfl, rfl, rfl⟩

/-- `(let f ([i 0]) (case i [(2) => (lambda (x) (or #f (cond [(eqv? x 0) 5] [(+ x 1) => (lambda (y) (write y) y)])))] [else (f (+ i 1))]))`. -/
private def ex3 : E :=
  .named 0 [1] [nat 0] (.case (.var 1) (.arrow [.atom 12]
    (.lam [2] (.or [.const .f, .cond (.body (.prim 2 [.var 2, nat 0]) (nat 5) (.arrow (.prim 1 [.var 2]) (.lam [3] (.seq (.prim 0 [.var 3]) (.var 3))) .nil))]))
    (.els (.app [.var 0, .prim 1 [.var 1]]))))

example : Ends (Spec.step pr) Spec.result (Spec.start [] ex3) (some ([.atom 13], [3])) := ⟨52, _, rfl, rfl, rfl⟩

/-- `(letrec* ([k (call/cc (lambda (c) c))] [n (write 4)]) (when (eqv? n #f) 1) (unless (eqv? k 7) (k 7)))` writes twice. -/
private def ex4 : E :=
  .letrecS [0, 1] [.callcc (.lam [2] (.var 2)), .prim 0 [nat 4]] (.seq (.when (.prim 2 [.var 1, .const .f]) (nat 1)) (.unless (.prim 2 [.var 0, nat 7]) (.app [.var 0, nat 7])))

example : Ends (Spec.step pr) Spec.result (Spec.start [] ex4) (some ([.void], [4, 4])) := ⟨55, _, rfl, rfl, rfl⟩

/-- `(receive (a b) 1 a)` is an error. -/
private def ex5 : E := .receive [0, 1] (nat 1) (.var 0)

example : Ends (Spec.step pr) Spec.result (Spec.start [] ex5) none := ⟨2, _, rfl, rfl, rfl⟩

end

end Verif.Derived

import Verif.Globals.Main
/-
Assignments of other than private variables are kept (C65).
-/
namespace Verif.Globals
open Verif.Core Verif.Sets
variable {priv : Id → Bool}

/-- entries do not assign variables. -/
def Pure (l : List Entry) : Prop := ∀ n ∈ l, assigns n.exp = [] ∧ ∀ a, n.aexp = some a → a = voidExp

mutual
theorem gsub_count {l : List Entry} (hl : Pure l) {x : Id} : (e : Exp) → (∀ y d n a, (y, d) ∈ assigns e → assq y l = some n → n.aexp = some a → y ≠ x ∧ assigns d = []) →
    (assigns (gsub l e)).countP (fun d => d.1 = x) = (assigns e).countP (fun d => d.1 = x)
  | .var y, _ => by
    simp only [gsub]
    split
    · rename_i n hn; rw [(hl n (assq_mem hn)).1]; rfl
    · rfl
  | .set y e, h => by
    have ih := gsub_count hl e (fun z d n a hm => h z d n a (by simp [assigns, hm]))
    have key : (assigns (.set y (gsub l e))).countP (fun d => d.1 = x) = (assigns (.set y e)).countP (fun d => d.1 = x) := by
      simp only [assigns, List.countP_cons, ih]
    simp only [gsub]
    split
    · rename_i n hn
      split
      · rename_i a ha
        obtain ⟨h1, h2⟩ := h y e n a (by simp [assigns]) hn ha
        rw [(hl n (assq_mem hn)).2 a ha]
        simp [assigns, assignsAll, voidExp, h1, h2]
      · exact key
    · exact key
  | .ite a b c, h => by
    simp only [gsub, assigns, List.countP_append, gsub_count hl a (fun z d n v hm => h z d n v (by simp [assigns, hm])), gsub_count hl b (fun z d n v hm => h z d n v (by simp [assigns, hm])),
      gsub_count hl c (fun z d n v hm => h z d n v (by simp [assigns, hm]))]
  | .prim _ _ es, h => by
    simp only [gsub, assigns]; exact gsubs_count hl es (fun z d n v hm => h z d n v (by simpa [assigns] using hm))
  | .app f es, h => by
    rcases gsub_app l f es with ⟨b, rfl, rfl, h1⟩ | ⟨y, a, rfl, rfl, h1⟩ | ⟨h0, h1⟩
    · rw [h1, gsub_count hl b (fun z d n v hm => h z d n v (by simp [assigns, hm]))]
      simp [assigns, assignsAll]
    · rw [h1, gsub_count hl a (fun z d n v hm => h z d n v (by simp [assigns, assignsAll, hm]))]
      simp [assigns, assignsAll]
    · rw [h1]
      simp only [assigns, List.countP_append, gsub_count hl f (fun z d n v hm => h z d n v (by simp [assigns, hm])), gsubs_count hl es (fun z d n v hm => h z d n v (by simp [assigns, hm]))]
  | .lam _ b, h => by
    simp only [gsub, assigns]; exact gsub_count hl b (fun z d n v hm => h z d n v (by simpa [assigns] using hm))
  | .fix _ lams b, h => by
    simp only [gsub, assigns, List.countP_append, gsub_count hl b (fun z d n v hm => h z d n v (by simp [assigns, hm])), gsubs_count hl lams (fun z d n v hm => h z d n v (by simp [assigns, hm]))]
  | .letcc _ b, h => by
    simp only [gsub, assigns]; exact gsub_count hl b (fun z d n v hm => h z d n v (by simpa [assigns] using hm))
  | .withcc k e, h => by
    simp only [gsub, assigns, List.countP_append, gsub_count hl k (fun z d n v hm => h z d n v (by simp [assigns, hm])), gsub_count hl e (fun z d n v hm => h z d n v (by simp [assigns, hm]))]
theorem gsubs_count {l : List Entry} (hl : Pure l) {x : Id} : (es : List Exp) → (∀ y d n a, (y, d) ∈ assignsAll es → assq y l = some n → n.aexp = some a → y ≠ x ∧ assigns d = []) →
    (assignsAll (gsubs l es)).countP (fun d => d.1 = x) = (assignsAll es).countP (fun d => d.1 = x)
  | [], _ => rfl
  | e :: es, h => by
    simp only [gsubs, assignsAll, List.countP_append, gsub_count hl e (fun z d n v hm => h z d n v (by simp [assignsAll, hm])), gsubs_count hl es (fun z d n v hm => h z d n v (by simp [assignsAll, hm]))]
end

/-- no assignments. -/
theorem assigns_nil {e : Exp} (h : ∀ x, (assigns e).countP (fun d => d.1 = x) = 0) : assigns e = [] := by
  cases ha : assigns e with
  | nil => rfl
  | cons d l => have := h d.1; rw [ha] at this; simp at this

theorem gsub_nil {l : List Entry} (hl : Pure l) {e : Exp} (h : assigns e = []) : assigns (gsub l e) = [] :=
  assigns_nil (fun x => by rw [gsub_count hl e (fun y d n a hm => by rw [h] at hm; cases hm), h]; rfl)

/-- entries for definitions. -/
theorem finish_pure {l : List Entry} (hl : Pure l) (x : Id) (e : Exp) :
    assigns (finish priv x e l).exp = [] ∧ ∀ a, (finish priv x e l).aexp = some a → a = voidExp ∧ priv x = true ∧ simple e = true := by
  unfold finish
  split
  · rename_i h
    simp only [Bool.and_eq_true] at h
    refine ⟨gsub_nil hl (simple_assigns e h.1), fun a ha => ?_⟩
    simp only at ha
    split at ha
    · rename_i hp; cases ha; exact ⟨rfl, hp, h.1⟩
    · cases ha
  · exact ⟨rfl, fun a ha => by cases ha⟩

theorem finalize_pure {l : List Entry} (hl : Pure l) (x : Id) (d : Exp) :
    (finalize priv (x, d) l).id = x ∧ assigns (finalize priv (x, d) l).exp = [] ∧ ∀ a, (finalize priv (x, d) l).aexp = some a → a = voidExp ∧ priv x = true ∧ assigns d = [] := by
  have fid : ∀ e, (finish priv x e l).id = x := by intro e; unfold finish; split <;> rfl
  have plain : ∀ e, (finish priv x e l).id = x ∧ assigns (finish priv x e l).exp = [] ∧ ∀ a, (finish priv x e l).aexp = some a → a = voidExp ∧ priv x = true ∧ assigns e = [] := by
    intro e
    refine ⟨fid e, (finish_pure hl x e).1, fun a ha => ?_⟩
    obtain ⟨h1, h2, h3⟩ := (finish_pure hl x e).2 a ha
    exact ⟨h1, h2, simple_assigns e h3⟩
  unfold finalize
  split
  · rename_i g lam h heq
    simp only at heq
    split
    · rename_i hgh
      simp only
      split
      · exact ⟨rfl, rfl, fun a ha => by cases ha⟩
      · obtain ⟨h1, h2, h3⟩ := plain (gsub [⟨g, .var x, none⟩] lam)
        refine ⟨h1, h2, fun a ha => ?_⟩
        obtain ⟨e1, e2, e3⟩ := h3 a ha
        refine ⟨e1, e2, ?_⟩
        have hp : Pure [⟨g, .var x, none⟩] := fun n hn => by
          simp only [List.mem_singleton] at hn; subst hn
          exact ⟨rfl, fun a ha => by cases ha⟩
        have hlam : assigns lam = [] := assigns_nil (fun z => by
          rw [← gsub_count hp lam (fun y d n a _ hn ha => by
            have := assq_mem hn
            simp only [List.mem_singleton] at this; subst this; cases ha), e3]; rfl)
        rw [heq]
        simp [assigns, assignsAll, hlam]
    · exact plain d
  · exact plain d

theorem finals_pure : ∀ (k : Nat) (ds : List (Id × Exp)), ds.length = k →
    Pure (finals priv ds) ∧ ∀ n ∈ finals priv ds, ∃ d, (n.id, d) ∈ ds ∧ ∀ a, n.aexp = some a → priv n.id = true ∧ assigns d = [] := by
  intro k
  induction k with
  | zero =>
    intro ds hk
    have := List.eq_nil_of_length_eq_zero hk
    subst this
    exact ⟨fun n hn => by simp [finals, reduceLeft] at hn, fun n hn => by simp [finals, reduceLeft] at hn⟩
  | succ k ih =>
    intro ds hk
    obtain ⟨ds', ⟨x, d⟩, rfl⟩ : ∃ ds' d, ds = ds' ++ [d] := by
      rcases List.eq_nil_or_concat ds with h | ⟨ds', d, h⟩
      · rw [h] at hk; simp at hk
      · exact ⟨ds', d, by simpa using h⟩
    obtain ⟨h1, h2⟩ := ih ds' (by simpa using hk)
    obtain ⟨f1, f2, f3⟩ := finalize_pure (priv := priv) h1 x d
    rw [finals_snoc]
    refine ⟨fun n hn => ?_, fun n hn => ?_⟩
    · rcases List.mem_cons.mp hn with rfl | hn
      · exact ⟨f2, fun a ha => (f3 a ha).1⟩
      · exact h1 n hn
    · rcases List.mem_cons.mp hn with rfl | hn
      · exact ⟨d, by rw [f1]; simp, fun a ha => by rw [f1]; exact (f3 a ha).2⟩
      · obtain ⟨d', e1, e2⟩ := h2 n hn
        exact ⟨d', by simp [e1], e2⟩

/-- Assignments of other than private variables are kept. -/
theorem analyze_count {e : Exp} (ho : ∀ x, priv x = true → timesAssigned x e ≤ 1) {x : Id} (hx : priv x = false) :
    timesAssigned x (analyze priv e) = timesAssigned x e := by
  obtain ⟨h1, h2⟩ := finals_pure (priv := priv) _ (defs priv e) rfl
  refine gsub_count h1 e (fun y d n a hm hn ha => ?_)
  obtain ⟨d', e1, e2⟩ := h2 n (assq_mem hn)
  have hid := assq_id hn
  subst hid
  obtain ⟨e3, e4⟩ := e2 a ha
  refine ⟨fun he => (by rw [he, hx] at e3; simp at e3), ?_⟩
  have htop : (n.id, d') ∈ topDefs e := by rw [defs_eq] at e1; exact (List.mem_filter.mp e1).1
  rw [assigned_once (l := assigns e) (ho n.id e3) hm ((top_sub e).subset htop)]
  exact e4

end Verif.Globals

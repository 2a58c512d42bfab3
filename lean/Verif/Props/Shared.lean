import Verif.Shared.Sent
import Verif.Shared.Unordered
/-
C111: the fields of event contexts are read and written without data races, although every context is used by four goroutines of the library and any number of those of the application.
-/
namespace Verif.Props.Shared
open Verif.Shared

/-- **C111** (what is missing: see `C111_violated`). In every execution, of any number of workers, producer nodes and goroutines of the application: of two accesses to the same field of the same context, at least one of which is a
write, the earlier one happens before the later one, by channels alone - except for accesses of the commit loop to the producer of a context. -/
theorem C111_race_free_partial (pt : Nat → Nat) (poolSize : Nat) (s : St) (hs : Reach pt poolSize s) (i j : Nat) (a b : Op) (hij : i < j)
    (hi : s.tr[i]? = some a) (hj : s.tr[j]? = some b) (hc : Conflict a b) (ha : ¬ Text a) (hb : ¬ Text b) : Before s.tr i j := by
  cases a <;> cases b <;> simp only [Conflict] at hc
  rename_i g e f w g' e' f' w'
  obtain ⟨rfl, rfl, hw⟩ := hc
  refine (inv_reach hs).free i j g e f w g' w' hij hi hj hw ?_
  rintro rfl
  refine ⟨?_, ?_⟩
  · rintro rfl; exact ha ⟨_, _, rfl⟩
  · rintro rfl; exact hb ⟨_, _, rfl⟩

/-- **C111**. In executions in which no commit waits for too long there are no data races at all. -/
theorem C111_prompt_race_free (pt : Nat → Nat) (poolSize : Nat) (s : St) (hs : Prompt pt poolSize s) (i j : Nat) : ¬ RaceAt s.tr i j := by
  rintro ⟨a, b, hi, hj, hne, hc, h1, h2⟩
  have nt : ∀ {k : Nat} {o : Op}, s.tr[k]? = some o → ¬ Text o := fun h => hs.noText _ (List.mem_of_getElem? h)
  rcases Nat.lt_or_gt_of_ne hne with h | h
  · exact h1 (C111_race_free_partial pt poolSize s hs.reach i j a b h hi hj hc (nt hi) (nt hj))
  · refine h2 (C111_race_free_partial pt poolSize s hs.reach j i b a h hj hi ?_ (nt hj) (nt hi))
    cases a <;> cases b <;> simp only [Conflict] at hc ⊢
    exact ⟨hc.1.symm, hc.2.1.symm, hc.2.2.symm⟩

/-- **C111**. If there is a race, one of the two accesses is the reading of the producer by the commit loop for the text of its error, the other is a write of the producer. -/
theorem C111_only_the_text (pt : Nat → Nat) (poolSize : Nat) (s : St) (hs : Reach pt poolSize s) (i j : Nat) (hr : RaceAt s.tr i j) :
    ∃ e g, (s.tr[i]? = some (.acc .com e .producer false) ∧ s.tr[j]? = some (.acc g e .producer true)) ∨
      (s.tr[j]? = some (.acc .com e .producer false) ∧ s.tr[i]? = some (.acc g e .producer true)) := by
  have I := inv_reach hs
  have main : ∀ i j a b, i < j → s.tr[i]? = some a → s.tr[j]? = some b → Conflict a b → ¬ Before s.tr i j → ∃ e g,
      (s.tr[i]? = some (.acc .com e .producer false) ∧ s.tr[j]? = some (.acc g e .producer true)) ∨
      (s.tr[j]? = some (.acc .com e .producer false) ∧ s.tr[i]? = some (.acc g e .producer true)) := by
    intro i j a b hij hi hj hc h1
    by_cases ha : Text a
    · obtain ⟨e, w, rfl⟩ := ha
      cases b <;> simp only [Conflict] at hc
      rename_i g e' f' w'
      obtain ⟨rfl, rfl, hw⟩ := hc
      cases w with
      | true => exact absurd hi (I.comr _ _ _)
      | false =>
        have : w' = true := by simpa using hw
        subst this
        exact ⟨e, g, .inl ⟨hi, hj⟩⟩
    · by_cases hb : Text b
      · obtain ⟨e, w, rfl⟩ := hb
        cases a <;> simp only [Conflict] at hc
        rename_i g e' f' w'
        obtain ⟨rfl, rfl, hw⟩ := hc
        cases w with
        | true => exact absurd hj (I.comr _ _ _)
        | false =>
          have : w' = true := by simpa using hw
          subst this
          exact ⟨_, g, .inr ⟨hj, hi⟩⟩
      · exact absurd (C111_race_free_partial pt poolSize s hs i j a b hij hi hj hc ha hb) h1
  obtain ⟨a, b, hi, hj, hne, hc, h1, h2⟩ := hr
  rcases Nat.lt_or_gt_of_ne hne with h | h
  · exact main i j a b h hi hj hc h1
  · have hc' : Conflict b a := by
      cases a <;> cases b <;> simp only [Conflict] at hc ⊢
      exact ⟨hc.1.symm, hc.2.1.symm, hc.2.2.symm⟩
    obtain ⟨e, g, h⟩ := main j i b a h hj hi hc' h2
    exact ⟨e, g, h.symm⟩

/-- **C111**. The order is that of the channels and not more: in every execution, what is received has been sent before, and nothing is sent twice. -/
theorem C111_orderly (pt : Nat → Nat) (poolSize : Nat) (s : St) (hs : Reach pt poolSize s) : Orderly s.tr := orderly_reach hs

theorem reach_run {pt : Nat → Nat} {poolSize : Nat} {s s' : St} (hs : Reach pt poolSize s) : ∀ xs, run pt s xs = some s' → Reach pt poolSize s' := by
  intro xs
  induction xs generalizing s with
  | nil => intro h; cases h; exact hs
  | cons x xs ih =>
    intro h
    unfold run at h
    cases hx : step pt s x with
    | none => rw [hx] at h; cases h
    | some s1 => rw [hx] at h; exact ih (.step x hs hx) h

theorem prompt_run {pt : Nat → Nat} {poolSize : Nat} {s s' : St} (hs : Prompt pt poolSize s) : ∀ xs : List Act, xs.all (fun x => !x.late) = true → run pt s xs = some s' →
    Prompt pt poolSize s' := by
  intro xs
  induction xs generalizing s with
  | nil => intro _ h; cases h; exact hs
  | cons x xs ih =>
    intro hl h
    unfold run at h
    simp only [List.all_cons, Bool.and_eq_true, Bool.not_eq_true'] at hl
    cases hx : step pt s x with
    | none => rw [hx] at h; cases h
    | some s1 => rw [hx] at h; exact ih (.step x hs hl.1 hx) hl.2 h

/-- Two workers of two partitions, two producer nodes; the second context of worker 0 is in the chain after the first; the handler of the first gives it to a goroutine of the application. -/
def demo : List Act :=
  [.create 0, .push 0, .recv 0, .link 0 0, .give 0, .create 0, .create 1, .recv 1, .link 1 0, .push 1, .give 1, .recv 2, .link 2 0, .give 2, .push 2, .take 0, .assign 0, .use (.work 0) 0 .fixed,
    .flush 0, .pass (.work 0) (.app 7) 0, .use (.app 7) 0 .producer, .swapIn 1, .pass (.app 7) (.work 0) 0, .takeNode 0, .finish 0, .take 1, .assign 1, .finish 1, .visit 1, .visit 0, .take 2, .assign 2,
    .finish 2, .visit 2, .clear 0, .create 1, .recv 3, .link 3 1, .give 3, .flush 1, .swapIn 0]

/-- The hypotheses are met by long executions: `demo` has 95 operations, of which the write of a context by `pushRecords` and the read by the commit loop are ordered through two channels. -/
example : ∃ s, run id (St.init 2) demo = some s ∧ Prompt id 2 s ∧ s.tr.length = 95 ∧ (∃ i j : Nat, i < j ∧ s.tr[i]? = some (.acc (.push 0) 0 .prev true) ∧
    s.tr[j]? = some (.acc .com 0 .prev false)) := by
  have h : ∃ s, run id (St.init 2) demo = some s ∧ s.tr.length = 95 ∧ s.tr[1]? = some (.acc (.push 0) 0 .prev true) ∧ .acc .com 0 .prev false ∈ s.tr.drop 2 :=
    ⟨_, rfl, by decide +kernel, by decide +kernel, by decide +kernel⟩
  obtain ⟨s, h1, h2, h3, h4⟩ := h
  refine ⟨s, h1, prompt_run .init demo (by decide) h1, h2, ?_⟩
  obtain ⟨k, hk, hg⟩ := List.getElem_of_mem h4
  refine ⟨1, 2 + k, by omega, h3, ?_⟩
  rw [List.getElem_drop] at hg
  rw [List.getElem?_eq_getElem (by rw [List.length_drop] at hk; omega), hg]

/-- The worker has taken the context, its producer is in `producerChan`; the node is being committed. -/
def beforeRace : List Act := [.create 0, .recv 0, .link 0 0, .give 0, .flush 0, .push 0, .take 0, .takeNode 0]

/-- **C111 violated**: from a reachable state the commit loop can run into its time-out and the worker can take its producer, in either order; in both executions the reading of the producer for the text of the error
and the writing of the producer are a data race. -/
theorem C111_violated : ∃ s s1 s2, Reach id 2 s ∧ run id s [.timeout 0, .assign 0] = some s1 ∧ run id s [.assign 0, .timeout 0] = some s2 ∧
    (∃ i j, s1.tr[i]? = some (.acc .com 0 .producer false) ∧ s1.tr[j]? = some (.acc (.work 0) 0 .producer true) ∧ RaceAt s1.tr i j) ∧
    (∃ i j, s2.tr[i]? = some (.acc .com 0 .producer false) ∧ s2.tr[j]? = some (.acc (.work 0) 0 .producer true) ∧ RaceAt s2.tr i j) := by
  have h : ∃ s s1 s2, run id (St.init 2) beforeRace = some s ∧ run id s [.timeout 0, .assign 0] = some s1 ∧ run id s [.assign 0, .timeout 0] = some s2 ∧
      (s1.tr[15]? = some (.acc .com 0 .producer false) ∧ s1.tr[20]? = some (.acc (.work 0) 0 .producer true) ∧ closed s1.tr [15, 16, 17] = true) ∧
      s2.tr[19]? = some (.acc .com 0 .producer false) ∧ s2.tr[16]? = some (.acc (.work 0) 0 .producer true) ∧ closed s2.tr [16, 17] = true :=
    ⟨_, _, _, rfl, rfl, rfl, ⟨by decide +kernel, by decide +kernel, by decide +kernel⟩, by decide +kernel, by decide +kernel, by decide +kernel⟩
  obtain ⟨s, s1, s2, h0, h1, h2, ⟨a1, a2, a3⟩, b1, b2, b3⟩ := h
  refine ⟨s, s1, s2, reach_run .init _ h0, h1, h2, ⟨15, 20, a1, a2, _, _, a1, a2, by omega, ⟨rfl, rfl, .inr rfl⟩, not_before _ a3 (by simp) (by simp), fun h => ?_⟩,
    19, 16, b1, b2, _, _, b1, b2, by omega, ⟨rfl, rfl, .inr rfl⟩, fun h => ?_, not_before _ b3 (by simp) (by simp)⟩
  · have := h.lt; omega
  · have := h.lt; omega

end Verif.Props.Shared

import Verif.Keyed.Steps
/-
Proofs for C112: how far the store is.
-/
namespace Verif.Keyed
open Verif.Scheduler (Job sub scheds upd)
open Verif.Exact

set_option linter.unusedSectionVars false

variable {K σ X : Type} [DecidableEq K] {c : Cfg K σ X} {w w' : W K σ} {sel : K → Bool}

/-- The events before some place that are of a key, if these are the first of the key. -/
theorem cut_at {k : K} : ∀ {l a : List (Job K)}, a <+: fk k l → ∃ n, n ≤ l.length ∧ a = fk k (l.take n) := by
  intro l
  induction l with
  | nil => intro a h; exact ⟨0, by simp, by simpa [fk] using h⟩
  | cons y l ih =>
    intro a h
    rw [fk_cons] at h
    by_cases hk : y.key = k
    · rw [if_pos hk] at h
      cases a with
      | nil => exact ⟨0, by simp, by simp [fk]⟩
      | cons z a =>
        rw [List.singleton_append, List.cons_prefix_cons] at h
        obtain ⟨rfl, h⟩ := h
        obtain ⟨n, hn, e⟩ := ih h
        exact ⟨n + 1, by simpa using hn, by rw [List.take_succ_cons, fk_cons, if_pos hk, e]; rfl⟩
    · rw [if_neg hk, List.nil_append] at h
      obtain ⟨n, hn, e⟩ := ih h
      exact ⟨n + 1, by simpa using hn, by rw [List.take_succ_cons, fk_cons, if_neg hk, e]; rfl⟩

theorem Inv.st_at (I : Inv c sel w) {p : Nat} {k : K} {n : Nat} (hn : n ≤ (w.ev p).length) (h : fk k ((w.prod p).map Prod.fst) = fk k ((w.ev p).take n)) :
    w.st p k = stateAt c p k (w.base p + n) := by
  rw [I.st, stateAt_eq, stateAt_eq]
  have := I.outs_seg p k 0 n (by omega)
  rw [Nat.zero_add, Nat.add_zero, List.drop_zero] at this
  rw [this, List.foldl_append, I.flat p (pk k (w.prod p)) (fun e he => (List.mem_filter.mp he).1), pk_fst, h]

theorem work_prod {w : W K σ} {y : Job K} {x : X} {q : Nat} {z : Job K} (h : z ∈ (w.prod q).map Prod.fst) : z ∈ ((work c w y x).prod q).map Prod.fst := by
  show z ∈ (upd w.prod y.caller _ q).map Prod.fst
  by_cases hq : q = y.caller
  · subst hq; rw [upd_self, List.map_append]; exact List.mem_append_left _ h
  · rw [upd_other _ _ hq]; exact h

/-- What is committed was completed. -/
theorem done_reach (hu : ∀ k x, c.async k x = sel k) (h : Reach c Open w) : ∀ p, ∀ y ∈ (w.ev p).take (w.com p), y ∈ (w.prod p).map Prod.fst := by
  induction h with
  | init => intro p y hy; simp [init, boot] at hy
  | @step w w' x hr ho hx ih =>
    have I := inv_reach hu hr
    cases x with
    | arrive p =>
      simp only [step] at hx
      split at hx
      · split at hx
        · cases hx
          intro q y hy
          have hy' : y ∈ (upd w.ev p _ q).take (w.com q) := hy
          refine ih q y ?_
          by_cases hq : q = p
          · subst hq; rw [upd_self, List.take_append_of_le_length (I.com q)] at hy'; exact hy'
          · rw [upd_other _ _ hq] at hy'; exact hy'
        · cases hx
      · cases hx
    | handle p =>
      simp only [step] at hx
      split at hx
      · split at hx
        · split at hx
          · split at hx
            · rename_i hc; rw [ho] at hc; cases hc
            · simp only [Option.map_eq_some_iff] at hx
              obtain ⟨sch, -, rfl⟩ := hx
              exact ih
          · cases hx
            intro q y hy
            exact work_prod (ih q y hy)
        · cases hx
      · cases hx
    | job p =>
      simp only [step] at hx
      split at hx
      · split at hx
        · cases hx
          intro q y hy
          exact work_prod (ih q y hy)
        · cases hx
      · cases hx
    | inner l =>
      have : w'.ev = w.ev ∧ w'.com = w.com ∧ w'.prod = w.prod := by
        cases l with
        | call x => simp [step] at hx
        | complete t =>
          simp only [step] at hx
          split at hx
          · split at hx
            · simp only [Option.map_eq_some_iff] at hx
              obtain ⟨sch, -, rfl⟩ := hx
              exact ⟨rfl, rfl, rfl⟩
            · cases hx
          · cases hx
        | _ =>
          simp only [step, Option.map_eq_some_iff] at hx
          obtain ⟨sch, -, rfl⟩ := hx
          exact ⟨rfl, rfl, rfl⟩
      rw [this.1, this.2.1, this.2.2]; exact ih
    | commit p m =>
      simp only [step] at hx
      split at hx
      · rename_i hc
        cases hx
        intro q y hy
        have hy' : y ∈ (w.ev q).take (upd w.com p (w.com p + m) q) := hy
        show y ∈ (w.prod q).map Prod.fst
        by_cases hq : q = p
        · subst hq
          rw [upd_self, List.take_add] at hy'
          rcases List.mem_append.mp hy' with h | h
          · exact ih _ _ h
          · exact hc.2 y h
        · rw [upd_other _ _ hq] at hy'; exact ih _ _ hy'
      · cases hx
    | crash => cases hx; intro p y hy; simp [boot] at hy

theorem store_at (hu : ∀ k x, c.async k x = sel k) (h : Reach c Open w) (p : Nat) (k : K) : ∃ o, w.wm p ≤ o ∧ o ≤ w.base p + (w.ev p).length ∧ w.st p k = stateAt c p k o := by
  have I := inv_reach hu h
  obtain ⟨n, hn, e⟩ := cut_at (I.pre p k)
  by_cases hc : w.com p ≤ n
  · exact ⟨w.base p + n, by unfold W.wm; omega, by omega, I.st_at hn e⟩
  · refine ⟨w.base p + w.com p, Nat.le_refl _, by have := I.com p; omega, I.st_at (I.com p) ?_⟩
    -- the committed events of the key are among the first `n`
    have h1 : fk k ((w.ev p).take n) <+: fk k ((w.ev p).take (w.com p)) := by
      have : (w.ev p).take n <+: (w.ev p).take (w.com p) := List.take_prefix_take_left (by omega)
      obtain ⟨t, ht⟩ := this
      rw [← ht, fk_append]; exact List.prefix_append _ _
    have h2 : ∀ y ∈ fk k ((w.ev p).take (w.com p)), y ∈ fk k ((w.ev p).take n) := by
      intro y hy
      obtain ⟨hy1, hy2⟩ := List.mem_filter.mp hy
      rw [← e]
      exact List.mem_filter.mpr ⟨done_reach hu h p y hy1, hy2⟩
    obtain ⟨t, ht⟩ := h1
    have hn' : (fk k ((w.ev p).take (w.com p))).Nodup := ((I.nodup p).sublist (List.take_sublist _ _)).filter _
    rw [← ht, List.nodup_append] at hn'
    have : t = [] := by
      cases t with
      | nil => rfl
      | cons z t => exact absurd rfl (hn'.2.2 z (h2 z (by rw [← ht]; simp)) z (by simp))
    rw [e, ← ht, this, List.append_nil]

/-- All completed: the store is that after all events. -/
theorem store_done (hu : ∀ k x, c.async k x = sel k) (h : Reach c Open w) (p : Nat) (k : K) (hd : ∀ y ∈ w.ev p, y.key = k → y ∈ (w.prod p).map Prod.fst) :
    w.st p k = stateAt c p k (w.base p + (w.ev p).length) := by
  have I := inv_reach hu h
  refine I.st_at (Nat.le_refl _) ?_
  rw [List.take_length]
  obtain ⟨t, ht⟩ := I.pre p k
  have hn : (fk k (w.ev p)).Nodup := (I.nodup p).filter _
  rw [← ht, List.nodup_append] at hn
  have : t = [] := by
    cases t with
    | nil => rfl
    | cons z t =>
      have hz : z ∈ fk k (w.ev p) := by rw [← ht]; simp
      obtain ⟨hz1, hz2⟩ := List.mem_filter.mp hz
      have hzk : z.key = k := by simpa using hz2
      exact absurd rfl (hn.2.2 z (List.mem_filter.mpr ⟨hd z hz1 hzk, hz2⟩) z (by simp))
  rw [← ht, this, List.append_nil]

open Classical in
theorem sel_of_uniform (h : Uniform c) : ∃ sel : K → Bool, ∀ k x, c.async k x = sel k := by
  refine ⟨fun k => decide (∃ x, c.async k x = true), fun k x => ?_⟩
  cases hx : c.async k x with
  | true => symm; simp only [decide_eq_true_eq]; exact ⟨x, hx⟩
  | false =>
    symm; simp only [decide_eq_false_iff_not]
    rintro ⟨x', hx'⟩
    rw [h k x' x, hx] at hx'; cases hx'

end Verif.Keyed

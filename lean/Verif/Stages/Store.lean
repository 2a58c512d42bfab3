import Verif.Stages.Steps
import Verif.Keyed.Store
/-
Proofs for C113: in which order a key goes through the places, and how far the store is.
-/
namespace Verif.Stages
open Verif.Scheduler (Job sub scheds starts upd)
open Verif.Backlog (comps)
open Verif.Exact
open Verif.Keyed (fk fk_append fk_one fk_cons pk pk_append pk_fst comps_starts sub_fk upd_self upd_other cut_at)

set_option linter.unusedSectionVars false

variable {K σ X : Type} [DecidableEq K] {c : Cfg K σ X} {w w' : W K σ} {a : K → Nat}

theorem offsets_succ {p : Nat} {k : K} {lo hi : Nat} (h : lo ≤ hi) {k' : K} {x : X} (hx : (c.src p)[hi]? = some (k', x)) :
    offsets c p k lo (hi + 1) = offsets c p k lo hi ++ if k' = k then [hi] else [] := by
  unfold offsets
  rw [List.range_succ, List.filter_append]
  congr 1
  by_cases hk : k' = k <;> simp [h, hx, hk]

/-- The events of a key are its records, from the start of the process on. -/
theorem Ord.offs (I : Ord c w) (p : Nat) (k : K) : ∀ n, n ≤ (w.ev p).length → (fk k ((w.ev p).take n)).map (fun y => w.off y.id) = offsets c p k (w.base p) (w.base p + n) := by
  intro n
  induction n with
  | zero =>
    intro _
    have : offsets c p k (w.base p) (w.base p) = [] := by
      unfold offsets
      rw [List.filter_eq_nil_iff]
      intro o ho
      rw [List.mem_range] at ho
      simp; omega
    rw [Nat.add_zero, this]; simp [fk]
  | succ n ih =>
    intro hn
    have hy : (w.ev p)[n]? = some ((w.ev p)[n]'(by omega)) := List.getElem?_eq_getElem _
    obtain ⟨-, -, ho, x, hx⟩ := I.evs p n _ hy
    rw [List.take_add_one, hy, fk_append, List.map_append, ih (by omega), ← Nat.add_assoc, offsets_succ (by omega) hx]
    congr 1
    show (fk k [_]).map _ = _
    rw [fk_one]
    by_cases hk : ((w.ev p)[n]'(by omega)).key = k
    · rw [if_pos hk, if_pos hk]; simp [ho]
    · rw [if_neg hk, if_neg hk]; rfl

theorem called_eq (w : W K σ) (p : Nat) (k : K) (i : Nat) : calledAt w p k i = (fk k (pl i (w.prod p))).map fun y => w.off y.id := by
  unfold calledAt fk pl
  rw [List.filter_map, List.map_map, List.filter_filter]
  congr 1
  apply List.filter_congr
  intro e _
  simp [Bool.and_comm]

theorem processed_eq (w : W K σ) (p : Nat) (k : K) (i : Nat) : processedBy w p k i = (sub p k (starts (w.sch i).log)).map fun y => w.off y.id := by
  unfold processedBy sub starts
  induction (w.sch i).log with
  | nil => rfl
  | cons e l ih =>
    cases e with
    | start y =>
      rw [List.filterMap_cons, List.filterMap_cons]
      by_cases h : y.caller = p ∧ y.key = k
      · simp only [h, and_self, if_true, List.filter_cons, decide_true, List.map_cons]
        rw [ih]
      · simp only [h, if_false, List.filter_cons, decide_false, Bool.false_eq_true]
        exact ih
    | sched y => rw [List.filterMap_cons, List.filterMap_cons]; exact ih
    | comp y => rw [List.filterMap_cons, List.filterMap_cons]; exact ih

theorem Ord.called (I : Ord c w) (p : Nat) (k : K) {i : Nat} (hi : i ≤ c.n k) : calledAt w p k i = (A c w p k i).map fun y => w.off y.id := by
  rw [called_eq, I.pl p k i hi]

/-- The handler sees the records of a key in order, starting where the process started. -/
theorem Ord.first (I : Ord c w) (p : Nat) (k : K) : calledAt w p k 0 <+: offsets c p k (w.base p) (w.base p + (w.ev p).length) := by
  rw [I.called p k (Nat.zero_le _), ← I.offs p k _ (Nat.le_refl _), List.take_length]
  exact (I.place_pre p k (Nat.zero_le _)).map _

/-- Each processor takes them in the order in which they were scheduled. -/
theorem Ord.processed (I : Ord c w) (p : Nat) (k : K) {i : Nat} (hi : i < c.n k) : processedBy w p k i <+: calledAt w p k i := by
  rw [I.called p k (Nat.le_of_lt hi), processed_eq]
  refine List.IsPrefix.map _ ?_
  have := Scheduler.C17_fifo (I.sr i) p k
  unfold A
  rw [if_pos hi]
  exact this

/-- Each finalizer gets them in the order in which they were processed. -/
theorem Ord.finalized (I : Ord c w) (p : Nat) (k : K) {i : Nat} (hi : i < c.n k) : calledAt w p k (i + 1) <+: processedBy w p k i := by
  rw [I.called p k hi, processed_eq]
  refine List.IsPrefix.map _ (List.IsPrefix.trans ?_ (comps_starts (I.sr i) p k))
  rw [← I.qs p k i hi]; exact List.prefix_append _ _

theorem Inv.st_at (I : Inv c a w) {p : Nat} {k : K} {n : Nat} (hn : n ≤ (w.ev p).length) (h : A c w p k (a k) = fk k ((w.ev p).take n)) :
    w.st p k = stateAt c p k (w.base p + n) := by
  rw [I.st, stateAt_eq, stateAt_eq]
  have := I.outs_seg p k 0 n (by omega)
  rw [Nat.zero_add, Nat.add_zero, List.drop_zero] at this
  rw [this, List.foldl_append, I.flat p (pk k (pp a (w.prod p))) (fun e he => (List.mem_filter.mp he).1), pk_fst, I.pr, h]

/-- What is completed stays completed, and what is committed was completed. -/
theorem pass_dn {i : Nat} {y : Job K} (h : pass c w i y = some w') : (∀ q, ∀ z ∈ w.dn q, z ∈ w'.dn q) ∧ w'.ev = w.ev ∧ w'.com = w.com := by
  have fin : ∀ q, ∀ z ∈ w.dn q, z ∈ (finish w y).dn q := by
    intro q z hz
    show z ∈ upd w.dn y.caller _ q
    by_cases hq : q = y.caller
    · subst hq; rw [upd_self]; exact List.mem_append_left _ hz
    · rw [upd_other _ _ hq]; exact hz
  unfold pass at h
  split at h
  · split at h
    · cases h; exact ⟨fin, rfl, rfl⟩
    · simp only [Option.map_eq_some_iff] at h
      obtain ⟨s, -, rfl⟩ := h
      exact ⟨fun _ _ h => h, rfl, rfl⟩
  · cases h; exact ⟨fin, rfl, rfl⟩

theorem done_reach (h : Reach c Open w) : ∀ p, w.com p ≤ (w.ev p).length ∧ ∀ y ∈ (w.ev p).take (w.com p), y ∈ w.dn p := by
  induction h with
  | init => intro p; exact ⟨by simp [init, boot], by intro y hy; simp [init, boot] at hy⟩
  | @step w w' x hr ho hx ih =>
    cases x with
    | arrive p =>
      simp only [step] at hx
      split at hx
      · split at hx
        · cases hx
          intro q
          obtain ⟨h1, h2⟩ := ih q
          show w.com q ≤ (upd w.ev p _ q).length ∧ ∀ y ∈ (upd w.ev p _ q).take (w.com q), y ∈ w.dn q
          by_cases hq : q = p
          · subst hq
            rw [upd_self, List.take_append_of_le_length h1]
            exact ⟨by simp; omega, h2⟩
          · rw [upd_other _ _ hq]; exact ⟨h1, h2⟩
        · cases hx
      · cases hx
    | handle p =>
      simp only [step] at hx
      split at hx
      · split at hx
        · obtain ⟨h1, h2, h3⟩ := pass_dn hx
          intro q
          rw [h2, h3]
          exact ⟨(ih q).1, fun y hy => h1 q y ((ih q).2 y hy)⟩
        · cases hx
      · cases hx
    | job p =>
      simp only [step] at hx
      split at hx
      · split at hx
        · obtain ⟨h1, h2, h3⟩ := pass_dn hx
          intro q
          rw [h2, h3]
          exact ⟨(ih q).1, fun y hy => h1 q y ((ih q).2 y hy)⟩
        · cases hx
      · cases hx
    | inner i l =>
      have : w'.ev = w.ev ∧ w'.com = w.com ∧ w'.dn = w.dn := by
        cases l with
        | call x => simp [step] at hx
        | complete t =>
          simp only [step] at hx
          split at hx
          · split at hx
            · simp only [Option.map_eq_some_iff] at hx
              obtain ⟨sch, -, rfl⟩ := hx
              exact ⟨rfl, rfl, rfl⟩
            · cases hx
          · cases hx
        | _ =>
          simp only [step, Option.map_eq_some_iff] at hx
          obtain ⟨sch, -, rfl⟩ := hx
          exact ⟨rfl, rfl, rfl⟩
      rw [this.1, this.2.1, this.2.2]; exact ih
    | commit p m =>
      simp only [step] at hx
      split at hx
      · rename_i hc
        cases hx
        intro q
        show upd w.com p (w.com p + m) q ≤ _ ∧ ∀ y ∈ (w.ev q).take (upd w.com p (w.com p + m) q), y ∈ w.dn q
        by_cases hq : q = p
        · subst hq
          rw [upd_self]
          refine ⟨hc.1, fun y hy => ?_⟩
          rw [List.take_add] at hy
          rcases List.mem_append.mp hy with h | h
          · exact (ih _).2 _ h
          · exact hc.2 y h
        · rw [upd_other _ _ hq]; exact ih q
      · cases hx
    | crash => cases hx; intro p; exact ⟨by simp [boot], by intro y hy; simp [boot] at hy⟩

theorem Ord.done_at (I : Ord c w) {p : Nat} {k : K} {i : Nat} (hi : i ≤ c.n k) {y : Job K} (hy : y ∈ w.dn p) (hk : y.key = k) : y ∈ A c w p k i := by
  obtain ⟨d, hd⟩ : ∃ d, c.n k = i + d := ⟨c.n k - i, by omega⟩
  refine (I.mono p k (i := i) d (by omega)).subset ?_
  rw [← hd]
  unfold A
  rw [if_neg (by omega)]
  exact List.mem_filter.mpr ⟨hy, by simp [hk]⟩

/-- Every place that an event of a key goes through has seen the first events of the key, at least the committed ones. -/
theorem Ord.cut (I : Ord c w) (h : Reach c Open w) (p : Nat) {k : K} {i : Nat} (hi : i ≤ c.n k) : ∃ n, w.com p ≤ n ∧ n ≤ (w.ev p).length ∧ A c w p k i = fk k ((w.ev p).take n) := by
  obtain ⟨hcom, hdn⟩ := done_reach h p
  obtain ⟨n, hn, e⟩ := cut_at (I.place_pre p k hi)
  by_cases hc : w.com p ≤ n
  · exact ⟨n, hc, hn, e⟩
  · refine ⟨w.com p, Nat.le_refl _, hcom, ?_⟩
    have h1 : fk k ((w.ev p).take n) <+: fk k ((w.ev p).take (w.com p)) := by
      have : (w.ev p).take n <+: (w.ev p).take (w.com p) := List.take_prefix_take_left (by omega)
      obtain ⟨t, ht⟩ := this
      rw [← ht, fk_append]; exact List.prefix_append _ _
    have h2 : ∀ y ∈ fk k ((w.ev p).take (w.com p)), y ∈ fk k ((w.ev p).take n) := by
      intro y hy
      obtain ⟨hy1, hy2⟩ := List.mem_filter.mp hy
      rw [← e]
      exact I.done_at hi (hdn y hy1) (by simpa using hy2)
    obtain ⟨t, ht⟩ := h1
    have hn' : (fk k ((w.ev p).take (w.com p))).Nodup := ((I.nodup p).sublist (List.take_sublist _ _)).filter _
    rw [← ht, List.nodup_append] at hn'
    have : t = [] := by
      cases t with
      | nil => rfl
      | cons z t => exact absurd rfl (hn'.2.2 z (h2 z (by rw [← ht]; simp)) z (by simp))
    rw [e, ← ht, this, List.append_nil]

theorem Ord.passed_all (I : Ord c w) (h : Reach c Open w) (p : Nat) (k : K) {i : Nat} (hi : i ≤ c.n k) : offsets c p k (w.base p) (w.wm p) <+: calledAt w p k i := by
  obtain ⟨n, h1, h2, e⟩ := I.cut h p hi
  unfold W.wm
  rw [I.called p k hi, e, ← I.offs p k _ (Nat.le_trans h1 h2)]
  refine List.IsPrefix.map _ ?_
  obtain ⟨t, ht⟩ : (w.ev p).take (w.com p) <+: (w.ev p).take n := List.take_prefix_take_left h1
  rw [← ht, fk_append]; exact List.prefix_append _ _

theorem store_at (ha : OnePlace c a) (h : Reach c Open w) (p : Nat) (k : K) : ∃ o, w.wm p ≤ o ∧ w.st p k = stateAt c p k o := by
  have I := inv_reach ha h
  obtain ⟨n, h1, h2, e⟩ := I.cut h p (ha k).1
  exact ⟨w.base p + n, by unfold W.wm; omega, I.st_at h2 e⟩

end Verif.Stages

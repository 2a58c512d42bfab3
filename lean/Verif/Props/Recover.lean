import Verif.Replica.Recover
import Verif.Props.Replica
/-
Property C110: no state of the group is beyond recovery. For every history of a group of any number of consumers with orderly hand-overs (C109), every pool size
and batch size, every application and source topic: what readers see is always the beginning of the result of one process that handles the records one
after the other, nothing of it is ever taken back, and the result can always be completed.
-/
namespace Verif.Replica
open Verif.Eos Verif.Effects Verif.Fleet

variable {σ X : Type} {c : Cfg} {a : Exact.App σ X} {src : Nat → List Nat} {val : Nat → Nat → X}

/-- **C110**, in part (recovery). Whatever has happened, for any partitions: if all consumers die now, then a new one can get them and handle their records such that
in the end readers see the whole result of the one process, and the new consumer has its store. Missing: the condition of orderly hand-overs in the past (see
`C110_violated`), asynchronous jobs and interjections (see C80), handlers that fail (C57, C74). -/
theorem C110_recovers_partial (hn : 0 < c.poolSize) (hp : 0 < c.pending) (hsrc : ∀ tp, (src tp).Pairwise (· < ·)) {w : W σ} (h : Calm c a src val w)
    (tps : List Nat) :
    ∃ w', Later c a src val w w' ∧ (∀ j, w'.g.alive j = true ↔ j = w.g.n) ∧
      ∀ tp ∈ tps, w'.vis tp = (Exact.handleAll a ((src tp).map (val tp))).2 ∧ w'.st w.g.n tp = (Exact.handleAll a ((src tp).map (val tp))).1 := by
  obtain ⟨w1, L1, R1, h1⟩ := takes_over hn hsrc h
  obtain ⟨w2, L2, R2, h2, -⟩ := rec_parts hn hp hsrc tps (L1.calm h) R1 (fun tp => .inl (h1 tp))
  have hc := (L1.trans L2).calm h
  refine ⟨w2, L1.trans L2, fun j => ⟨R2.only j, fun hj => by rw [hj]; exact R2.alive⟩, ?_⟩
  intro tp ht
  exact C109_complete_partial hn hsrc hc R2.alive (h2 tp ht) (clean_not_busy hn (cores hn (inv_calm hn hsrc hc).calm.reach _) R2.clean tp)

/-- What readers see only grows. -/
theorem vis_step {w w' : W σ} {x : Act} (hs : step c a src val w x = some w') (tp : Nat) : w.vis tp <+: w'.vis tp := by
  cases x with
  | start => simp only [step] at hs; obtain ⟨g', -, rfl⟩ := Option.map_eq_some_iff.1 hs; exact List.prefix_rfl
  | assign k tp' => simp only [step] at hs; obtain ⟨g', -, rfl⟩ := Option.map_eq_some_iff.1 hs; exact List.prefix_rfl
  | revoke k tp' => simp only [step] at hs; obtain ⟨g', -, rfl⟩ := Option.map_eq_some_iff.1 hs; exact List.prefix_rfl
  | feed k tp' id =>
    simp only [step] at hs
    split at hs
    · obtain ⟨g', -, rfl⟩ := Option.map_eq_some_iff.1 hs; exact List.prefix_append _ _
    · cases hs
  | begin k tp' =>
    simp only [step] at hs
    split at hs
    · split at hs
      · split at hs
        · cases hs; exact List.prefix_rfl
        · cases hs
      · cases hs
    · cases hs
  | emit k tp' =>
    simp only [step] at hs
    split at hs
    · obtain ⟨g', -, rfl⟩ := Option.map_eq_some_iff.1 hs; exact List.prefix_append _ _
    · cases hs
  | finish k tp' =>
    simp only [step] at hs
    split at hs
    · obtain ⟨g', -, rfl⟩ := Option.map_eq_some_iff.1 hs; exact List.prefix_append _ _
    · cases hs
  | pool k l =>
    simp only [step] at hs
    split at hs
    · obtain ⟨g', -, rfl⟩ := Option.map_eq_some_iff.1 hs; exact List.prefix_append _ _
    · cases hs
  | crash k => simp only [step] at hs; obtain ⟨g', -, rfl⟩ := Option.map_eq_some_iff.1 hs; exact List.prefix_rfl

theorem vis_run {xs : List Act} : ∀ {w w' : W σ}, run c a src val w xs = some w' → ∀ tp, w.vis tp <+: w'.vis tp := by
  induction xs with
  | nil => intro w w' hr tp; cases hr; exact List.prefix_rfl
  | cons x xs ih =>
    intro w w' hr tp
    simp only [run] at hr
    obtain ⟨w1, h1, h2⟩ := Option.bind_eq_some_iff.1 hr
    exact (vis_step h1 tp).trans (ih h2 tp)

/-- **C110**, in part (nothing is wrong, nothing is taken back). What readers see of a partition is the beginning of the result of the one process, and whatever
happens afterwards adds to it. Missing: as above. -/
theorem C110_grows_partial (hn : 0 < c.poolSize) (hsrc : ∀ tp, (src tp).Pairwise (· < ·)) {w w' : W σ} (h : Calm c a src val w) (h' : Later c a src val w w')
    (tp : Nat) : w.vis tp <+: w'.vis tp ∧ w'.vis tp <+: (Exact.handleAll a ((src tp).map (val tp))).2 := by
  constructor
  · clear h hn hsrc
    induction h' with
    | refl => exact List.prefix_rfl
    | step x _ _ hs ih => exact ih.trans (vis_step hs tp)
  · rw [C109_sequential_partial hn hsrc (h'.calm h) tp]
    have h4 := Exact.filter_split (k := fun x : Nat => x) (l := src tp) (by simpa using (hsrc tp).imp (fun h => Nat.le_of_lt h)) (w'.g.wm tp)
    rw [show (src tp).map (val tp) = (((src tp).filter fun o => decide (o < w'.g.wm tp)) ++ (src tp).filter fun o => decide (w'.g.wm tp ≤ o)).map (val tp) from
      congrArg _ h4, List.map_append, Exact.handleAll_eq, Exact.handleAll_eq, Exact.effects_append]
    exact List.prefix_append _ _

/-- The hypotheses: consumer 0 has committed 10, consumer 1 is in the middle of 12. Consumer 2 can take over and complete the result; it sees 12 again. -/
example : ∃ w w', Calm Fleet.demoCfg demoApp Fleet.demoSrc demoVal w ∧ w.vis 5 = [1, 7] ∧ w.cur 1 5 = some (⟨0, 5, some 12⟩, [7]) ∧
    Later Fleet.demoCfg demoApp Fleet.demoSrc demoVal w w' ∧ w'.vis 5 = [1, 7, 10, 7, 28, 7] ∧ w'.st 2 5 = 60 := by
  have hd : ∃ w, runB Fleet.demoCfg demoApp Fleet.demoSrc demoVal (W.init Fleet.demoCfg demoApp)
        ([.start, .start, .assign 0 5] ++ take 0 0 ++ commit 0 ++ [.revoke 0 5, .assign 1 5] ++ take 1 0) = some w ∧ w.vis 5 = [1, 7] ∧
      w.cur 1 5 = some (⟨0, 5, some 12⟩, [7]) ∧ w.g.n = 2 :=
    ⟨_, rfl, by decide +kernel, by decide +kernel, by decide +kernel⟩
  obtain ⟨w, h1, h2, h3, h4⟩ := hd
  have hc := runB_calm .init h1
  obtain ⟨w', L, -, h⟩ := C110_recovers_partial (by decide) (by decide) (by intro tp; unfold Fleet.demoSrc; split <;> decide) hc [5]
  obtain ⟨h5, h6⟩ := h 5 (by simp)
  rw [h4] at h6
  exact ⟨w, w', hc, h2, h3, L, h5, h6⟩

/-- **C110 is violated** without orderly hand-overs. After the run of `C109_violated` no continuation, of any kind, gives the result of the one process: readers
have seen the records for 10 twice. -/
theorem C110_violated : ∃ w : W Nat, run Fleet.demoCfg demoApp Fleet.demoSrc demoVal (W.init Fleet.demoCfg demoApp)
      ([.start, .start, .start, .assign 0 5] ++ take 0 0 ++ [.revoke 0 5, .assign 1 5] ++ take 1 0 ++ commit 0 ++ commit 1 ++ [.revoke 1 5]) = some w ∧
    ∀ xs w', run Fleet.demoCfg demoApp Fleet.demoSrc demoVal w xs = some w' →
      w'.vis 5 ≠ (Exact.handleAll demoApp ((Fleet.demoSrc 5).map (demoVal 5))).2 := by
  obtain ⟨w, -, h1, -, -, -, h2, -⟩ := C109_violated
  refine ⟨w, h1, ?_⟩
  intro xs w' hr he
  have h3 := vis_run hr 5
  rw [h2, he] at h3
  revert h3
  decide

end Verif.Replica

import Verif.Retry.Proofs
import Mathlib.Data.List.Nodup
/-
C116: the documented retrying of failed writes loses none and keeps their order.
-/
namespace Verif.Props.Retry
open Verif.Retry

/-- **C116**. In every execution, with any number of events and keys, any failures, and whatever is due at a call of the interjector: the write of every event that was handled is in the database once, or is one error record in the store,
or is under way in the batcher, and only one of these. -/
theorem C116_none_lost (key : Nat → Nat) (s : St) (hs : Reach key s) : Kept s := kept_reach hs

/-- **C116**. No write is made twice. -/
theorem C116_written_once (key : Nat → Nat) (s : St) (hs : Reach key s) : s.db.Nodup := by
  rw [List.nodup_iff_count]
  intro e
  have := kept_reach hs e
  split at this <;> omega

/-- **C116** (what is missing: writes that failed and were retried, see `C116_violated_order`). If the database gets a write after that of a later event of the same key, the write had failed before. -/
theorem C116_order_partial (key : Nat → Nat) (s : St) (hs : Reach key s) (i j a b : Nat) (hij : i < j) (hi : s.db[i]? = some a) (hj : s.db[j]? = some b) (hk : key a = key b) (hlt : b < a) : b ∈ s.failed :=
  (oi_reach hs).ord i j a b hij hi hj hk hlt

/-- **C116**. Without failures the writes of every key are in order. -/
theorem C116_order_without_failures (key : Nat → Nat) (s : St) (hs : Reach key s) (hf : s.failed = []) : InOrder key s := by
  intro i j a b hij hi hj hk
  rcases Nat.lt_trichotomy a b with h | h | h
  · exact h
  · subst h
    have hnd := C116_written_once key s hs
    obtain ⟨h1, e1⟩ := List.getElem?_eq_some_iff.mp hi
    obtain ⟨h2, e2⟩ := List.getElem?_eq_some_iff.mp hj
    have := (List.Nodup.getElem_inj_iff hnd (hi := h1) (hj := h2)).mp (by rw [e1, e2])
    omega
  · have := C116_order_partial key s hs i j a b hij hi hj hk h
    rw [hf] at this
    cases this

/-- **C116** (what is missing: see `C116_violated_once`). As long as the interjector has given nothing to the batcher, every write can still be made, whatever failed so far. -/
theorem C116_recovers_partial (key : Nat → Nat) (s : St) (hs : Reach key s) (h : s.retries = 0) : ∃ s', Later key s s' ∧ s'.n = s.n ∧ ∀ e, e < s.n → e ∈ s'.db := by
  refine recover hs ?_
  have := once hs
  cases ht : s.timer with
  | true => rfl
  | false => rw [ht, h] at this; simp at this

/-- **C116**. The interjector gives something to the batcher at most once, in every execution; and then no error record is ever taken out of the store again, and none of these writes is ever made. -/
theorem C116_once (key : Nat → Nat) (s : St) (hs : Reach key s) : s.retries ≤ 1 ∧ (s.retries = 1 → ∀ s', Later key s s' → ∀ e ∈ s.errs, e ∈ s'.errs ∧ e ∉ s'.db) := by
  have h := once hs
  refine ⟨by split at h <;> omega, ?_⟩
  intro h1 s' hl e he
  have ht : s.timer = false := by
    cases ht : s.timer with
    | false => rfl
    | true => rw [ht, h1] at h; simp at h
  have he' : e ∈ s'.errs := (stay hl ht).2.2.subset he
  refine ⟨he', fun hd => ?_⟩
  have hk := kept_reach (hl.reach hs) e
  have c1 := List.count_pos_iff.mpr he'
  have c2 := List.count_pos_iff.mpr hd
  split at hk <;> omega

/-- Reachable by a run. -/
theorem reach_run {key : Nat → Nat} {s : St} {xs : List Act} (h : run key St.init xs = some s) : Reach key s := Later.reach ⟨xs, h⟩ .init

/-- **C116 violated**: a write fails, is given to the batcher again by the interjector, and fails again; it is never tried again, whatever happens. So is every write that fails later. -/
theorem C116_violated_once (key : Nat → Nat) : ∃ s, Reach key s ∧ s.n = 2 ∧ ∀ s', Later key s s' → ∀ e, e < 2 → e ∈ s'.errs ∧ e ∉ s'.db := by
  have h : ∃ s, run key St.init [.handle, .exec 0 false, .call 0, .fire (fun _ => true), .exec 0 false, .call 1, .handle, .exec 0 false, .call 2] = some s ∧ s.n = 2 ∧ s.errs = [0, 1] ∧ s.retries = 1 := ⟨_, rfl, rfl, rfl, rfl⟩
  obtain ⟨s, h1, h2, h3, h4⟩ := h
  have hs := reach_run h1
  refine ⟨s, hs, h2, fun s' hl e he => (C116_once key s hs).2 h4 s' hl e ?_⟩
  rw [h3]
  match e, he with
  | 0, _ => simp
  | 1, _ => simp

/-- **C116 violated**: the write of an event fails, that of the next event of the same key is made, and then the first one is retried with success: the database has the older value in the end, and nothing is left to be done. -/
theorem C116_violated_order : ∃ s, Reach (fun _ => 0) s ∧ s.n = 2 ∧ Settled s ∧ s.db = [1, 0] ∧ ¬ InOrder (fun _ => 0) s := by
  have h : ∃ s, run (fun _ => 0) St.init [.handle, .handle, .exec 0 false, .exec 1 true, .call 0, .call 1, .fire (fun _ => true), .exec 0 true, .call 2] = some s ∧ s.n = 2 ∧ s.jobs = [] ∧ s.errs = [] ∧ s.db = [1, 0] :=
    ⟨_, rfl, rfl, rfl, rfl, rfl⟩
  obtain ⟨s, h1, h2, h3, h4, h5⟩ := h
  refine ⟨s, reach_run h1, h2, ⟨h3, h4⟩, h5, fun ho => ?_⟩
  have := ho 0 1 1 0 (by omega) (by rw [h5]; rfl) (by rw [h5]; rfl) rfl
  omega

/-- The hypotheses are met: three events of two keys; one fails, is retried while another one is under way, and everything is written; an earlier call of the interjector found nothing. -/
example : ∃ s, Reach (fun e => e % 2) s ∧ s.n = 3 ∧ s.failed = [0] ∧ s.db = [1, 0, 2] ∧ Settled s ∧ s.retries = 1 := by
  have h : ∃ s, run (fun e => e % 2) St.init [.fire (fun _ => true), .handle, .handle, .exec 1 true, .exec 0 false, .call 0, .fire (fun _ => true), .handle, .exec 1 true, .exec 2 true, .call 3, .call 2, .call 1] = some s ∧
      s.n = 3 ∧ s.failed = [0] ∧ s.db = [1, 0, 2] ∧ s.jobs = [] ∧ s.errs = [] ∧ s.retries = 1 := ⟨_, rfl, rfl, rfl, rfl, rfl, rfl, rfl⟩
  obtain ⟨s, h1, h2, h3, h4, h5, h6, h7⟩ := h
  exact ⟨s, reach_run h1, h2, h3, h4, ⟨h5, h6⟩, h7⟩

end Verif.Props.Retry

import Verif.Sync.Kill
import Verif.Sync.Late
import Verif.Sync.Progress
/-
Property C12 and the rest of C15 (`streams/state_store_consumer.go`).
-/
set_option linter.unusedSimpArgs false
namespace Verif.Sync
open Verif.Record

/-- Specification: the marker `m` is at the end of `before` in the log. -/
def MarkAt (log before : List KRecord) (m : Bytes) : Prop :=
  ∃ r after, log = before ++ r :: after ∧ isMarkerRecord r = true ∧ markOf r = m

/-- Specification: `s` has received exactly the changes in `before`, once each and in order, after `a0`. -/
def Exactly (s : SS) (a0 before : List KRecord) : Prop := s.applied = a0 ++ before.filter fun r => !isMarkerRecord r

/-- What the store contains when the synchronisation starts: nothing if it is new. -/
def start (s0 : SS) (fresh : Bool) : List KRecord := if fresh then [] else s0.applied

private theorem ended_all {s0 s : SS} {st : PState} {a0 : List KRecord} {ms : List Bytes} {d : List KRecord} (C : Core s0 s a0 ms d)
    (E : Ended s0 s st ms d) (i : Nat) (p : Pop) (h : s.pops[i]? = some p) : p.ended = true := by
  by_cases hi : i = s0.pops.length
  · obtain ⟨p', k1, k2⟩ := E.pop
    rw [hi, k1] at h
    cases h; exact k2
  · exact C.others i p hi h

/-- C12, partial: in a synchronisation that starts with the partition at rest, and with no other preparation nor cancellation
interfering, the store has at every moment received exactly the changes of an initial part of the change log.
Missing: this is false without the hypothesis `Clean`, see `C12_violated_stale` and `C12_violated_twice`. -/
theorem C12_prefix_partial {s0 s : SS} {st : PState} {fresh : Bool} (hst : st = .ready ∨ st = .prepping) (hc : Clean s0)
    (h : Sess s0 st fresh s) : ∃ d, d <+: s.log ∧ Exactly s (start s0 fresh) d := by
  obtain ⟨ms, d, C, _⟩ := inv_sess hst hc h
  exact ⟨d, C.pre, C.applied⟩

/-- C12, partial: activation without preparation. When the synchronisation for the mark `m` returns, the store has received
exactly the changes that precede the marker in the log; it is not changed any more afterwards.
Missing: see `C12_prefix_partial`. -/
theorem C12_activated_partial {s0 s : SS} {fresh : Bool} {m : Bytes} (hc : Clean s0) (h : Sess s0 .ready fresh s)
    (hm : m ∈ s.synced) (hn : m ∉ s0.synced) :
    ∃ before, MarkAt s.log before m ∧ ∀ s', Later s s' → Exactly s' (start s0 fresh) before ∧ MarkAt s'.log before m := by
  obtain ⟨ms, d, C, ph⟩ := inv_sess (.inl rfl) hc h
  rw [C.synced, List.mem_append] at hm
  have hmd : m ∈ found ms d := hm.resolve_left hn
  rcases ph with ⟨cur, q, R⟩ | E
  · rcases R.state with ⟨k, _⟩ | ⟨k, _, _⟩
    · rw [k] at hmd; cases hmd
    · cases k
  · obtain ⟨d', r, rfl, e2, e3⟩ := E.last
    have hl := E.len
    rw [found_append, found_single, if_pos ⟨e2, e3⟩, List.length_append] at hl
    have h0 : found ms d' = [] := List.length_eq_zero_iff.1 (by simpa [need] using hl)
    rw [found_append, found_single, if_pos ⟨e2, e3⟩, h0] at hmd
    have hmr : markOf r = m := by simpa [eq_comm] using hmd
    have hat : ∀ l : List KRecord, d' ++ [r] <+: l → MarkAt l d' m := by
      rintro l ⟨t, rfl⟩
      exact ⟨r, t, by simp, e2, hmr⟩
    refine ⟨d', hat _ C.pre, fun s' hl' => ⟨?_, hat _ (C.pre.trans (log_later hl'))⟩⟩
    unfold Exactly
    rw [(ended_later (ended_all C E) hl').1, C.applied, changes_append]
    simp [changes, e2, start]

/-- C12, partial: preparation followed by activation. When the synchronisation for the mark `m1` of the preparation and then the one
for the mark `m2` of the activation have returned, the store has received exactly the changes that precede the marker `m2` in the
log; it is not changed any more afterwards.
Missing: if the marker of the activation is before the one of the preparation, `C12_violated_order`. -/
theorem C12_prepared_partial {s0 s : SS} {fresh : Bool} {m1 m2 : Bytes} (hc : Clean s0) (h : Sess s0 .prepping fresh s)
    (hm : s.synced = s0.synced ++ [m1, m2]) :
    ∃ before, MarkAt s.log before m2 ∧ (∃ b1, b1 <+: before ∧ MarkAt before b1 m1) ∧
      ∀ s', Later s s' → Exactly s' (start s0 fresh) before ∧ MarkAt s'.log before m2 := by
  obtain ⟨ms, d, C, ph⟩ := inv_sess (.inr rfl) hc h
  have hmd : found ms d = [m1, m2] := by
    have := C.synced
    rw [hm] at this
    exact (List.append_cancel_left this).symm
  rcases ph with ⟨cur, q, R⟩ | E
  · rcases R.state with ⟨k, _⟩ | ⟨_, k, _⟩ <;> rw [hmd] at k <;> cases k
  · obtain ⟨d', r, rfl, e2, e3⟩ := E.last
    rw [found_append, found_single, if_pos ⟨e2, e3⟩] at hmd
    have hsp : found ms d' = [m1] ∧ [markOf r] = [m2] := by
      have : found ms d' ++ [markOf r] = [m1] ++ [m2] := hmd
      exact List.append_inj' this rfl
    have hmr : markOf r = m2 := by simpa using hsp.2
    have hat : ∀ l : List KRecord, d' ++ [r] <+: l → MarkAt l d' m2 := by
      rintro l ⟨t, rfl⟩
      exact ⟨r, t, by simp, e2, hmr⟩
    refine ⟨d', hat _ C.pre, ?_, fun s' hl' => ⟨?_, hat _ (C.pre.trans (log_later hl'))⟩⟩
    · have : m1 ∈ found ms d' := by rw [hsp.1]; simp
      obtain ⟨_, r1, k1, k2, k3⟩ := mem_found.1 this
      obtain ⟨x, y, hxy⟩ := List.append_of_mem k1
      exact ⟨x, ⟨r1 :: y, hxy.symm⟩, r1, y, hxy, k2, k3⟩
    · unfold Exactly
      rw [(ended_later (ended_all C E) hl').1, C.applied, changes_append]
      simp [changes, e2, start]

/-- C12, partial: the synchronisation of a prepared store. When the synchronisation for the first mark returns, the store has
received all changes that precede its marker.
Missing: see `C12_prefix_partial`. -/
theorem C12_first_partial {s0 s : SS} {st : PState} {fresh : Bool} {m : Bytes} (hst : st = .ready ∨ st = .prepping) (hc : Clean s0)
    (h : Sess s0 st fresh s) (hm : m ∈ s.synced) (hn : m ∉ s0.synced) :
    ∃ before d, MarkAt s.log before m ∧ before <+: d ∧ Exactly s (start s0 fresh) d := by
  obtain ⟨ms, d, C, _⟩ := inv_sess hst hc h
  rw [C.synced, List.mem_append] at hm
  obtain ⟨_, r, k1, k2, k3⟩ := mem_found.1 (hm.resolve_left hn)
  obtain ⟨x, y, rfl⟩ := List.append_of_mem k1
  obtain ⟨t, ht⟩ := C.pre
  exact ⟨x, x ++ r :: y, ⟨r, y ++ t, by rw [← ht]; simp, k2, k3⟩, List.prefix_append _ _, C.applied⟩

/-- C12, partial: a synchronisation always terminates. Every sequence of steps of `consume` and `populate` ends after at most `todo`
steps, and then either the synchronisation is complete or everything in the log has been handled and every waiter whose marker is
in the log has been told.
Missing: `C12_violated_blocked`, `C12_violated_lost` show waiters that wait for ever when preparations interfere. -/
theorem C12_completes_partial {s0 s : SS} {st : PState} {fresh : Bool} (hst : st = .ready ∨ st = .prepping) (hc : Clean s0)
    (h : Sess s0 st fresh s) :
    (∀ (l : Label) (s' : SS), internal l = true → step s l = some s' → todo s' < todo s) ∧
    ((∀ l, internal l = true → step s l = none) →
      (∀ p ∈ s.pops, p.ended = true) ∨
        (Exactly s (start s0 fresh) s.log ∧ ∀ m r, m ∈ s.marks → m ∉ s0.marks → r ∈ s.log → isMarkerRecord r = true → markOf r = m → m ∈ s.synced)) := by
  refine ⟨fun l s' hi hs => todo_dec hi hs, fun hq => ?_⟩
  obtain ⟨ms, d, C, ph⟩ := inv_sess hst hc h
  rcases ph with ⟨cur, q, R⟩ | E
  · right
    have hd := quiet_all R hq
    subst hd
    refine ⟨C.applied, fun m r h1 h2 h3 h4 h5 => ?_⟩
    rw [C.synced]
    rw [C.marks] at h1
    exact List.mem_append.2 (.inr (mem_found.2 ⟨(List.mem_append.1 h1).resolve_left h2, r, h3, h4, h5⟩))
  · refine .inl fun p hp => ?_
    obtain ⟨i, hi⟩ := List.mem_iff_getElem?.1 hp
    exact ended_all C E i p hi

/-! ### C15 — markers never reach a store -/

/-- C15. Whatever happens, no marker is ever applied to a store. -/
theorem C15_never_applied {log : List KRecord} {ls : List Label} {s : SS} (h : run (SS.init log) ls = some s) :
    ∀ r ∈ s.applied, ¬ ∃ v, r.headers = [⟨ascii "gkes__mark", v⟩] := by
  suffices H : ∀ ls s0, (∀ r ∈ s0.applied, isMarkerRecord r = false) → run s0 ls = some s → ∀ r ∈ s.applied, isMarkerRecord r = false by
    intro r hr ⟨v, hv⟩
    have h0 := H ls (SS.init log) (by intro r hr; cases hr) h r hr
    simp [isMarkerRecord, hv, markerKey] at h0
  clear h ls log
  intro ls
  induction ls with
  | nil => intro s0 h0 h; cases h; exact h0
  | cons l ls ih =>
    intro s0 h0 h
    simp only [run, Option.bind_eq_some_iff] at h
    obtain ⟨s1, hs, h⟩ := h
    refine ih s1 ?_ h
    cases l with
    | append => simp only [step] at hs; split at hs <;> cases hs; exact h0
    | produce => simp only [step] at hs; split at hs <;> cases hs; exact h0
    | sync => simp only [step] at hs; split at hs <;> cases hs; exact h0
    | poll => simp only [step] at hs; split at hs <;> cases hs; exact h0
    | prep st f =>
      simp only [step] at hs; cases hs
      cases f
      · exact h0
      · intro r hr; cases hr
    | cancel =>
      simp only [step] at hs; cases hs
      unfold cancel
      rw [(kill_fields _).2.2.2.2.2.2.2.1]
      exact h0
    | check =>
      simp only [step] at hs
      split at hs
      · split at hs <;> cases hs <;> exact h0
      · cases hs
    | eval => simp only [step] at hs; split at hs <;> cases hs; exact h0
    | send =>
      simp only [step] at hs
      split at hs
      · split at hs
        · split at hs
          · cases hs; exact h0
          · split at hs <;> cases hs; exact h0
        · cases hs
      · cases hs
    | next i =>
      simp only [step] at hs
      split at hs
      · split at hs <;> cases hs <;> exact h0
      · cases hs
    | record i =>
      simp only [step] at hs
      split at hs
      · rename_i ch r rest hp
        cases hs
        unfold handle
        split
        · show ∀ x ∈ (completion _ _).1.applied, _
          rw [(completion_frame _ _).2.2.2.2.2.2.2]
          exact h0
        · rename_i hr
          intro x hx
          rcases List.mem_append.1 hx with h | h
          · exact h0 x h
          · rw [List.mem_singleton.1 h]; simpa using hr
      · cases hs

/-- C15. Every record without the marker's header that a goroutine `populate` takes is applied to the store, next in order. -/
theorem C15_others_applied {s s' : SS} {i : Nat} {ch : Nat} {r : KRecord} {rest : List KRecord} (hp : s.pops[i]? = some ⟨ch, r :: rest, false⟩)
    (hr : ¬ ∃ v, r.headers = [⟨ascii "gkes__mark", v⟩]) (h : step s (.record i) = some s') : s'.applied = s.applied ++ [r] := by
  simp only [step, hp, Option.some.injEq] at h
  subst h
  unfold handle
  rw [if_neg]
  intro hm
  apply hr
  unfold isMarkerRecord at hm
  split at hm
  · rename_i hd he
    obtain ⟨k, v⟩ := hd
    simp [markerKey] at hm
    exact ⟨v, by rw [he, hm]⟩
  · cases hm

/-! ### Concrete runs -/

private def chg (n : Nat) : KRecord := { key := [BitVec.ofNat 8 n], value := some [] }
private def mk (m : Bytes) : KRecord := markerRecord ⟨0#32, []⟩ m
private def m1 : Bytes := [1#8]
private def m2 : Bytes := [2#8]
private def mx : Bytes := [3#8]
private theorem of_run {o : Option SS} (P : SS → Prop) [DecidablePred P] (h : (o.map fun s => decide (P s)) = some true) : ∃ s, o = some s ∧ P s := by
  cases o with
  | none => cases h
  | some s => exact ⟨s, rfl, by simpa using h⟩

/-- the fetch passes through `consume` -/
private def thru : List Label := [.check, .eval, .send]

/-- The hypotheses of `C12_activated_partial` are met by a run with two changes, a foreign marker, and changes after the marker. -/
example : ∃ s, run (SS.init [chg 1, mk mx, chg 2]) ([.prep .ready true, .sync m1, .poll 1, .produce m1, .append (chg 3)] ++ thru ++
      [.poll 5] ++ thru ++ [.next 0, .record 0, .record 0, .next 0, .record 0, .record 0]) = some s ∧ s.synced = [m1] ∧
      s.applied = [chg 1, chg 2] ∧ Clean (SS.init [chg 1, mk mx, chg 2]) := by
  obtain ⟨s, h1, h2, h3⟩ := of_run (fun s => s.synced = [m1] ∧ s.applied = [chg 1, chg 2]) (o := run (SS.init [chg 1, mk mx, chg 2]) ([.prep .ready true, .sync m1, .poll 1, .produce m1, .append (chg 3)] ++ thru ++
      [.poll 5] ++ thru ++ [.next 0, .record 0, .record 0, .next 0, .record 0, .record 0])) (by decide +kernel)
  refine ⟨s, h1, h2, h3, ?_⟩
  constructor <;> first | rfl | (intro p hp; cases hp)

/-- The hypothesis of `C12_prepared_partial` is met. -/
example : ∃ s, run (SS.init [chg 1]) ([.prep .prepping true, .sync m1, .produce m1, .poll 1] ++ thru ++ [.next 0, .record 0, .record 0] ++
      [.append (chg 2), .sync m2, .produce m2, .append (chg 3), .poll 5] ++ thru ++ [.next 0, .record 0, .record 0]) = some s ∧
      s.synced = [m1, m2] ∧ s.applied = [chg 1, chg 2] :=
  of_run (fun s => s.synced = [m1, m2] ∧ s.applied = [chg 1, chg 2]) (by decide +kernel)

/-- C12 is violated: if the marker of the activation reaches the log before the one of the preparation, then the synchronisation of
the activation returns and the goroutine still applies later changes, among them those of the new worker itself. -/
theorem C12_violated_order : ∃ s s', run (SS.init [chg 1])
      ([.prep .prepping true, .sync m1, .sync m2, .produce m2, .poll 1] ++ thru ++ [.next 0, .record 0, .record 0]) = some s ∧
    m2 ∈ s.synced ∧ s.applied = [chg 1] ∧
    run s ([.append (chg 2), .produce m1, .poll 1] ++ thru ++ [.next 0, .record 0]) = some s' ∧ s'.applied = [chg 1, chg 2] := by
  obtain ⟨s, h, h1, h2, h3⟩ := of_run (fun s => m2 ∈ s.synced ∧ s.applied = [chg 1] ∧
    ((run s ([.append (chg 2), .produce m1, .poll 1] ++ thru ++ [.next 0, .record 0])).map fun s' => decide (s'.applied = [chg 1, chg 2])) = some true)
    (o := run (SS.init [chg 1])
      ([.prep .prepping true, .sync m1, .sync m2, .produce m2, .poll 1] ++ thru ++ [.next 0, .record 0, .record 0])) (by decide +kernel)
  obtain ⟨s', h4, h5⟩ := of_run _ h3
  exact ⟨s, s', h, h1, h2, h4, h5⟩

/-- C12 is violated: `consume` holds a fetch of the previous synchronisation when a new one for a new store starts. The store gets
the stale records first, and then the log from its start: a change arrives out of order and twice. -/
theorem C12_violated_stale : ∃ s, run (SS.init [chg 1])
      ([.prep .ready true, .sync m1, .produce m1, .poll 1] ++ thru ++ [.next 0, .record 0, .append (chg 2), .poll 0, .record 0] ++
       [.prep .ready true, .sync m2, .produce m2] ++ thru ++ [.poll 9] ++ thru ++ [.next 1, .record 1, .next 1] ++ List.replicate 4 (.record 1)) = some s ∧
    m2 ∈ s.synced ∧ s.log = [chg 1, mk m1, chg 2, mk m2] ∧ s.applied = [chg 2, chg 1, chg 2] :=
  of_run (fun s => m2 ∈ s.synced ∧ s.log = [chg 1, mk m1, chg 2, mk m2] ∧ s.applied = [chg 2, chg 1, chg 2]) (by decide +kernel)

/-- C12 is violated: `ForgetPreparedTopicPartition` keeps the store, and the next synchronisation applies the log to it again. -/
theorem C12_violated_twice : ∃ s, run (SS.init [chg 1])
      ([.prep .prepping true, .sync m1, .produce m1, .poll 1] ++ thru ++ [.next 0, .record 0, .record 0, .cancel, .next 0] ++
       [.prep .ready false, .sync m2, .produce m2, .poll 9] ++ thru ++ [.next 1, .record 1, .record 1, .record 1]) = some s ∧
    m2 ∈ s.synced ∧ s.log = [chg 1, mk m1, mk m2] ∧ s.applied = [chg 1, chg 1] :=
  of_run (fun s => m2 ∈ s.synced ∧ s.log = [chg 1, mk m1, mk m2] ∧ s.applied = [chg 1, chg 1]) (by decide +kernel)

private theorem run_nil_send {b : List KRecord} : ∀ (ls : List Label) (s s' : SS), s.sending = some (b, none) → s.polled = none → s.passed = none →
    run s ls = some s' → s'.sending = some (b, none) ∧ s'.polled = none ∧ s'.passed = none ∧ s'.pos ≤ s.pos := by
  intro ls
  induction ls with
  | nil => intro s s' h1 h2 h3 h; cases h; exact ⟨h1, h2, h3, Nat.le_refl _⟩
  | cons l ls ih =>
    intro s s' h1 h2 h3 h
    simp only [run, Option.bind_eq_some_iff] at h
    obtain ⟨s1, hs, h⟩ := h
    suffices H : s1.sending = some (b, none) ∧ s1.polled = none ∧ s1.passed = none ∧ s1.pos ≤ s.pos by
      have := ih s1 s' H.1 H.2.1 H.2.2.1 h
      exact ⟨this.1, this.2.1, this.2.2.1, Nat.le_trans this.2.2.2 H.2.2.2⟩
    cases l with
    | append => simp only [step] at hs; split at hs <;> cases hs; exact ⟨h1, h2, h3, Nat.le_refl _⟩
    | produce => simp only [step] at hs; split at hs <;> cases hs; exact ⟨h1, h2, h3, Nat.le_refl _⟩
    | sync => simp only [step] at hs; split at hs <;> cases hs; exact ⟨h1, h2, h3, Nat.le_refl _⟩
    | poll =>
      simp only [step] at hs; split at hs
      · cases hs
      · rename_i hn; rw [h1] at hn; simp at hn
    | prep st f => simp only [step] at hs; cases hs; exact ⟨h1, h2, h3, Nat.zero_le _⟩
    | cancel =>
      simp only [step] at hs; cases hs
      obtain ⟨f1, f2, f3, f4, f5, f6, f7, f8, f9, f10, f11, f12, f13⟩ := kill_fields { s with state := .paused, held := true }
      exact ⟨f13.trans h1, f11.trans h2, f12.trans h3, Nat.le_of_eq f7⟩
    | check => simp only [step, h2] at hs; cases hs
    | eval => simp only [step, h3] at hs; cases hs
    | send => simp only [step, h1] at hs; cases hs
    | next i =>
      simp only [step] at hs
      split at hs
      · split at hs <;> cases hs <;> exact ⟨h1, h2, h3, Nat.le_refl _⟩
      · cases hs
    | record i =>
      simp only [step] at hs
      split at hs
      · rename_i ch r rest hp
        cases hs
        unfold handle
        split
        · obtain ⟨f1, f2, f3, f4, f5, f6, f7, f8⟩ := completion_frame s (markOf r)
          exact ⟨f5.trans h1, f3.trans h2, f4.trans h3, Nat.le_of_eq f2⟩
        · exact ⟨h1, h2, h3, Nat.le_refl _⟩
      · cases hs

/-- C12 is violated: `consume` may evaluate `ssp.buffer` after `kill` has set it to nil. It then sends to the nil channel for ever,
whatever happens later: it never polls again, so that no partition of this consumer is ever synchronised again. -/
theorem C12_violated_blocked : ∃ s, run (SS.init [])
      ([.prep .ready true, .sync m1, .produce m1, .poll 1] ++ thru ++ [.next 0, .append (mk mx), .poll 0, .check, .record 0, .eval]) = some s ∧
    s.synced = [m1] ∧
    ∀ ls s', run s ls = some s' → s'.sending = some ([mk mx], none) ∧ ∀ n, step s' (.poll n) = none := by
  obtain ⟨s, h0, h1, h2, h3, h4⟩ := of_run (fun s => s.synced = [m1] ∧ s.sending = some ([mk mx], none) ∧ s.polled = none ∧ s.passed = none)
    (o := run (SS.init [])
      ([.prep .ready true, .sync m1, .produce m1, .poll 1] ++ thru ++ [.next 0, .append (mk mx), .poll 0, .check, .record 0, .eval])) (by decide +kernel)
  refine ⟨s, h0, h1, fun ls s' h => ?_⟩
  have := run_nil_send ls _ s' h2 h3 h4 h
  refine ⟨this.1, fun n => ?_⟩
  simp only [step]
  rw [if_pos]
  rw [this.1]; simp

/-- C12 is violated: `consume` may send to the channel after `kill` has closed it: the process panics. -/
theorem C12_violated_panic : ∃ s, run (SS.init [])
      ([.prep .ready true, .sync m1, .produce m1, .poll 1] ++ thru ++ [.next 0, .append (mk mx), .poll 0, .check, .eval, .record 0]) = some s ∧
    s.panic = false ∧ ∃ s', step s .send = some s' ∧ s'.panic = true := by
  obtain ⟨s, h0, h1, h2⟩ := of_run (fun s => s.panic = false ∧ ((step s .send).map SS.panic) = some true)
    (o := run (SS.init [])
      ([.prep .ready true, .sync m1, .produce m1, .poll 1] ++ thru ++ [.next 0, .append (mk mx), .poll 0, .check, .eval, .record 0])) (by decide +kernel)
  obtain ⟨s', h3, h4⟩ := Option.map_eq_some_iff.1 h2
  exact ⟨s, h0, h1, s', h3, h4⟩

theorem setAt_closed {l : List Buf} {i : Nat} {c d : Buf} (hi : l[i]? = some c) (hd : c.closed = true → d.closed = true) (h : ∃ c ∈ l, c.closed = true) :
    ∃ c ∈ setAt l i d, c.closed = true := by
  obtain ⟨e, he, hc⟩ := h
  obtain ⟨j, hj⟩ := List.mem_iff_getElem?.1 he
  have hlt := (List.getElem?_eq_some_iff.1 hi).1
  by_cases hij : j = i
  · subst hij
    rw [hi] at hj
    injection hj with hj
    subst hj
    exact ⟨d, List.mem_iff_getElem?.2 ⟨j, by simp [setAt, hlt]⟩, hd hc⟩
  · exact ⟨e, List.mem_iff_getElem?.2 ⟨j, by simp [setAt, List.getElem?_set, Ne.symm hij, hj]⟩, hc⟩

theorem kill_closed (s : SS) : ((∃ c ∈ s.bufs, c.closed = true) → ∃ c ∈ (kill s).bufs, c.closed = true) ∧ (kill s).panic = s.panic := by
  unfold kill
  split
  · rename_i b _
    refine ⟨fun h => ?_, rfl⟩
    dsimp only
    split
    · rename_i c hc
      exact setAt_closed hc (fun _ => rfl) h
    · exact h
  · exact ⟨id, rfl⟩

theorem completion_closed (s : SS) (m : Bytes) :
    ((∃ c ∈ s.bufs, c.closed = true) → ∃ c ∈ (completion s m).1.bufs, c.closed = true) ∧ (completion s m).1.panic = s.panic := by
  unfold completion
  split
  · dsimp only
    split
    · exact ⟨id, rfl⟩
    · exact kill_closed { s with waiters := s.waiters.erase m, synced := s.synced ++ [m], state := .paused, held := true }
    · exact ⟨id, rfl⟩
  · exact ⟨id, rfl⟩

/-- Channels that were closed stay closed, and a panic comes from one of them. -/
theorem closed_step {s s' : SS} {l : Label} (h : step s l = some s') :
    ((∃ c ∈ s.bufs, c.closed = true) → ∃ c ∈ s'.bufs, c.closed = true) ∧ (s'.panic = true → s.panic = true ∨ ∃ c ∈ s'.bufs, c.closed = true) := by
  cases l with
  | send =>
    simp only [step] at h
    split at h
    · rename_i b i hs
      split at h
      · rename_i c hc
        split at h
        · rename_i hcl
          simp only [Option.some.injEq] at h; subst h
          exact ⟨id, fun _ => .inr ⟨c, List.mem_of_getElem? hc, hcl⟩⟩
        · split at h
          · simp only [Option.some.injEq] at h; subst h
            exact ⟨setAt_closed hc id, .inl⟩
          · simp at h
      · simp at h
    · simp at h
  | cancel =>
    simp only [step, Option.some.injEq] at h; subst h
    have := kill_closed { s with state := .paused, held := true }
    exact ⟨this.1, fun hp => .inl (this.2 ▸ hp)⟩
  | prep st fresh =>
    simp only [step, Option.some.injEq] at h; subst h
    exact ⟨fun ⟨c, hc, hcl⟩ => ⟨c, List.mem_append_left _ hc, hcl⟩, .inl⟩
  | next i =>
    simp only [step] at h
    split at h
    · split at h
      · rename_i b q cl hc
        simp only [Option.some.injEq] at h; subst h
        exact ⟨setAt_closed hc id, .inl⟩
      · simp only [Option.some.injEq] at h; subst h; exact ⟨id, .inl⟩
      · simp at h
    · simp at h
  | record i =>
    simp only [step] at h
    split at h
    · rename_i ch r rest hp
      simp only [Option.some.injEq] at h; subst h
      unfold handle
      split
      · have := completion_closed s (markOf r)
        exact ⟨this.1, fun hp => .inl (this.2 ▸ hp)⟩
      · exact ⟨id, .inl⟩
    · simp at h
  | _ =>
    simp only [step] at h
    repeat' split at h
    all_goals first
      | (simp at h; done)
      | (simp only [Option.some.injEq] at h; subst h; exact ⟨id, .inl⟩)

/-- C12: nothing but a send on a closed channel makes the process panic: as long as no channel has been closed (no partition has been cancelled and no
synchronisation for an activation is complete) there is no panic. -/
theorem C12_panic_only_when_closed {log : List KRecord} {ls : List Label} {s : SS} (h : run (SS.init log) ls = some s) (hp : s.panic = true) :
    ∃ c ∈ s.bufs, c.closed = true := by
  have key : ∀ (ls : List Label) (s s' : SS), (s.panic = true → ∃ c ∈ s.bufs, c.closed = true) → run s ls = some s' → s'.panic = true → ∃ c ∈ s'.bufs, c.closed = true := by
    intro ls
    induction ls with
    | nil => intro s s' h0 h hp; simp only [run, Option.some.injEq] at h; subst h; exact h0 hp
    | cons l ls ih =>
      intro s s' h0 h hp
      simp only [run, Option.bind_eq_some_iff] at h
      obtain ⟨s1, e1, e2⟩ := h
      obtain ⟨c1, c2⟩ := closed_step e1
      refine ih s1 s' (fun hp1 => ?_) e2 hp
      rcases c2 hp1 with h1 | h1
      · exact c1 (h0 h1)
      · exact h1
  exact key ls _ s (fun h0 => by simp [SS.init] at h0) h hp

/-- What the field `buffer` names. -/
def BufferOpen (s : SS) : Prop := ∀ b, s.buffer = some b → ∃ c, s.bufs[b]? = some c ∧ c.closed = false

/-- A change of another channel, or one that closes none, keeps it open. -/
theorem open_set {s : SS} {i : Nat} {c d : Buf} (B : BufferOpen s) (hi : s.bufs[i]? = some c) (hd : d.closed = c.closed) :
    ∀ b, s.buffer = some b → ∃ e, (setAt s.bufs i d)[b]? = some e ∧ e.closed = false := by
  intro b hb
  obtain ⟨e, he, hc⟩ := B b hb
  have hlt := (List.getElem?_eq_some_iff.1 hi).1
  by_cases hbi : b = i
  · subst hbi
    rw [hi] at he
    injection he with he
    subst he
    exact ⟨d, by simp [setAt, hlt], by rw [hd, hc]⟩
  · exact ⟨e, by simp [setAt, List.getElem?_set, Ne.symm hbi, he], hc⟩

theorem open_kill {s : SS} : BufferOpen (kill s) := by
  intro b hb
  unfold kill at hb
  split at hb
  · simp at hb
  · rename_i h; rw [h] at hb; simp at hb

theorem open_step {s s' : SS} {l : Label} (B : BufferOpen s) (h : step s l = some s') : BufferOpen s' := by
  cases l with
  | send =>
    simp only [step] at h
    split at h
    · split at h
      · rename_i c hc
        split at h
        · simp only [Option.some.injEq] at h; subst h; exact B
        · split at h
          · simp only [Option.some.injEq] at h; subst h; exact open_set B hc rfl
          · simp at h
      · simp at h
    · simp at h
  | cancel => simp only [step, Option.some.injEq] at h; subst h; exact open_kill
  | prep st fresh =>
    simp only [step, Option.some.injEq] at h; subst h
    intro b hb
    simp only [Option.some.injEq] at hb
    subst hb
    exact ⟨⟨[], false⟩, by simp, rfl⟩
  | next i =>
    simp only [step] at h
    split at h
    · split at h
      · rename_i b q cl hc
        simp only [Option.some.injEq] at h; subst h
        exact open_set B hc rfl
      · simp only [Option.some.injEq] at h; subst h; exact B
      · simp at h
    · simp at h
  | record i =>
    simp only [step] at h
    split at h
    · rename_i ch r rest hp
      simp only [Option.some.injEq] at h; subst h
      unfold handle
      split
      · show BufferOpen (completion s (markOf r)).1
        unfold completion
        split
        · dsimp only
          split
          · exact B
          · exact open_kill
          · exact B
        · exact B
      · exact B
    · simp at h
  | _ =>
    simp only [step] at h
    repeat' split at h
    all_goals first
      | (simp at h; done)
      | (simp only [Option.some.injEq] at h; subst h; exact B)

/-- C12: the field `buffer` never names a channel that is closed: `kill` never closes a channel twice, as long as its steps are not interleaved with each other
(see `C12_violated_double_close`). -/
theorem C12_buffer_open {log : List KRecord} {ls : List Label} {s : SS} (h : run (SS.init log) ls = some s) :
    ∀ b, s.buffer = some b → ∃ c, s.bufs[b]? = some c ∧ c.closed = false := by
  have key : ∀ (ls : List Label) (s s' : SS), BufferOpen s → run s ls = some s' → BufferOpen s' := by
    intro ls
    induction ls with
    | nil => intro s s' h0 h; simp only [run, Option.some.injEq] at h; subst h; exact h0
    | cons l ls ih =>
      intro s s' h0 h
      simp only [run, Option.bind_eq_some_iff] at h
      obtain ⟨s1, e1, e2⟩ := h
      exact ih s1 s' (open_step h0 e1) e2
  refine key ls _ s (fun b hb => ?_) h
  simp only [SS.init, Option.some.injEq] at hb
  subst hb
  exact ⟨⟨[], false⟩, rfl, rfl⟩

/-- C12 (`kill` in small steps), partial: as long as `kill` and `prep` are executed one at a time, `kill` never closes a channel that is nil or closed. The missing part is that they are:
the lock of the consumer is not held by `populate`. -/
theorem C12_kill_alone_partial {as : List Kill.Act} {k : Kill.K} (ho : Kill.OneAtATime Kill.K.init as) (h : Kill.run Kill.K.init as = some k) :
    k.panic = false ∧ ∀ a k', Kill.step k a = some k' → (∀ t, k.pc t ≠ .out → Kill.who a = some t) → k'.panic = false := by
  have F := Kill.fine_run Kill.fine_init ho h
  exact ⟨F.ok, fun a k' hs hw => (Kill.fine_step F hw hs).ok⟩

/-- C12 is violated: a synchronisation ends while the partition is cancelled or the consumer stops: both find the channel, and the second `close` panics, on the closed channel or, a little later,
on the nil one. -/
theorem C12_violated_double_close :
    (∃ k k', Kill.run Kill.K.init [.prep, .check 0, .check 1, .close 0] = some k ∧ k.panic = false ∧ k.buffer = some 1 ∧ Kill.step k (.close 1) = some k' ∧ k'.panic = true) ∧
    ∃ k k', Kill.run Kill.K.init [.prep, .check 0, .check 1, .close 0, .clear 0] = some k ∧ k.panic = false ∧ k.buffer = none ∧ Kill.step k (.close 1) = some k' ∧ k'.panic = true :=
  ⟨⟨_, _, rfl, rfl, rfl, rfl, rfl⟩, ⟨_, _, rfl, rfl, rfl, rfl, rfl⟩⟩

/-- C12 is violated: the end of a synchronisation clears the field after the next preparation has set it. The new `populate` waits at a channel that nobody sends to or closes any more. -/
theorem C12_violated_cleared : ∃ k, Kill.run Kill.K.init [.prep, .check 0, .close 0, .prep, .clear 0] = some k ∧ k.panic = false ∧ k.made = 3 ∧
    ∀ as k', Kill.run k as = some k' → k'.buffer ≠ some 2 ∧ 2 ∉ k'.closed :=
  ⟨_, rfl, rfl, rfl, fun _ _ h => Kill.unreachable_run (by decide) (by decide) (by decide) h⟩

/-- The hypotheses of `C12_kill_alone_partial` can be met: two preparations, each killed. -/
example : Kill.OneAtATime Kill.K.init [.prep, .check 3, .close 3, .clear 3, .prep, .check 1, .close 1] ∧
    ∃ k, Kill.run Kill.K.init [.prep, .check 3, .close 3, .clear 3, .prep, .check 1, .close 1] = some k ∧ k.closed = [1, 2] := by
  refine ⟨?_, _, rfl, by decide⟩
  have out : ∀ (f : Nat → Kill.Pc) t u v, (∀ w, w ≠ t → f w = .out) → Kill.upd f t v u ≠ .out → u = t := by
    intro f t u v hf hu
    by_contra hc
    exact hu (by simp [Kill.upd, hc, hf u hc])
  simp only [Kill.OneAtATime]
  refine ⟨fun t ht => absurd rfl ht, fun k hk => ?_⟩
  obtain rfl : _ = k := Option.some.inj hk
  refine ⟨fun t ht => absurd rfl ht, fun k hk => ?_⟩
  obtain rfl : _ = k := Option.some.inj hk
  refine ⟨fun t ht => congrArg some (out _ _ t _ (fun w _ => rfl) ht).symm, fun k hk => ?_⟩
  obtain rfl : _ = k := Option.some.inj hk
  refine ⟨fun t ht => congrArg some (out _ _ t _ (fun w hw => by simp [Kill.upd, hw, Kill.K.init]) ht).symm, fun k hk => ?_⟩
  obtain rfl : _ = k := Option.some.inj hk
  have h3 : ∀ w, Kill.upd (Kill.upd (Kill.upd Kill.K.init.pc 3 .checked) 3 .closed) 3 .out w = .out := fun w => by
    by_cases hw : w = 3 <;> simp [Kill.upd, hw, Kill.K.init]
  refine ⟨fun t ht => absurd (h3 t) ht, fun k hk => ?_⟩
  obtain rfl : _ = k := Option.some.inj hk
  refine ⟨fun t ht => absurd (h3 t) ht, fun k hk => ?_⟩
  obtain rfl : _ = k := Option.some.inj hk
  exact ⟨fun t ht => congrArg some (out _ _ t _ (fun w _ => h3 w) ht).symm, fun _ _ => trivial⟩

/-- **C12** (partial: it needs that every `populate` runs before the next `kill` or preparation): then each store gets exactly what was sent to the channel of its own preparation, in order, up to what is
still in the channel; no other `populate` reads that channel. -/
theorem C12_own_channel_partial {as : List Late.Act} {s : Late.L} (hp : Late.Prompt Late.L.init as) (h : Late.run Late.L.init as = some s) :
    (∀ (i j b : Nat), s.pops[i]? = some (some (some b)) → s.pops[j]? = some (some (some b)) → i = j) ∧ (∀ i : Nat, s.pops[i]? ≠ some (some none)) ∧
      ∀ i, s.applied i ++ s.queue (i + 1) = s.sent (i + 1) := by
  have O := Late.own_run Late.own_init hp h
  refine ⟨fun i j b hi hj => ?_, fun i hi => absurd (O.own i _ hi) (by simp), O.flow⟩
  have h1 := O.own i _ hi
  have h2 := O.own j _ hj
  simp only [Option.some.injEq] at h1 h2
  omega

/-- The hypotheses can be met: two preparations with their changes. -/
example : Late.Prompt Late.L.init [.prep, .start 0, .add 7, .take 0, .kill, .prep, .start 1, .add 8, .take 1] ∧
    ∃ s, Late.run Late.L.init [.prep, .start 0, .add 7, .take 0, .kill, .prep, .start 1, .add 8, .take 1] = some s ∧ s.applied 0 = [7] ∧ s.applied 1 = [8] := by
  refine ⟨?_, _, rfl, rfl, rfl⟩
  simp [Late.Prompt, Late.step, Late.L.init, Late.upd]

/-- C12 is violated: a preparation is forgotten before its `populate` runs. It then waits at the nil channel for ever, whatever happens: the goroutine and its store are never released. -/
theorem C12_violated_nil_channel : ∃ s, Late.run Late.L.init [.prep, .kill, .start 0] = some s ∧
    ∀ as s', Late.run s as = some s' → s'.pops[0]? = some (some none) ∧ s'.applied 0 = [] :=
  ⟨_, rfl, fun _ _ h => Late.nil_run (i := 0) rfl h⟩

/-- C12 is violated: a preparation is forgotten and the partition is prepared again before the first `populate` runs. Both read the channel of the second preparation, and share the changes: the store of the
second preparation misses those that the first one takes. -/
theorem C12_violated_shared_channel (r : Nat) : ∃ s, Late.run Late.L.init [.prep, .kill, .prep, .start 0, .start 1, .add r, .take 0] = some s ∧
    s.sent 2 = [r] ∧ s.queue 2 = [] ∧ s.applied 1 = [] ∧ s.applied 0 = [r] :=
  ⟨_, rfl, rfl, rfl, rfl, rfl⟩

/-- C12 is violated: `ForgetPreparedTopicPartition` leaves the waiter of the cancelled preparation. The next activation ends at the
marker of that preparation: the change after it is not applied, and the waiter of the activation is never told, so that the
partition's worker never starts. -/
theorem C12_violated_lost : ∃ s, run (SS.init [chg 1])
      ([.prep .prepping true, .sync m1, .produce m1, .cancel, .next 0, .append (chg 2)] ++
       [.prep .ready false, .sync m2, .produce m2, .poll 9] ++ thru ++ [.next 1, .record 1, .record 1]) = some s ∧
    mk m2 ∈ s.log ∧ s.applied = [chg 1] ∧ ∀ s', Later s s' → m2 ∉ s'.synced ∧ s'.applied = [chg 1] := by
  obtain ⟨s, h0, h1, h2, h3, h4⟩ := of_run (fun s => mk m2 ∈ s.log ∧ s.applied = [chg 1] ∧ m2 ∉ s.synced ∧ ∀ p ∈ s.pops, p.ended = true)
    (o := run (SS.init [chg 1])
      ([.prep .prepping true, .sync m1, .produce m1, .cancel, .next 0, .append (chg 2)] ++
       [.prep .ready false, .sync m2, .produce m2, .poll 9] ++ thru ++ [.next 1, .record 1, .record 1])) (by decide +kernel)
  refine ⟨s, h0, h1, h2, fun s' h => ?_⟩
  have := ended_later (fun i p hp => h4 p (List.mem_of_getElem? hp)) h
  rw [this.1, this.2.1]
  exact ⟨h3, h2⟩

end Verif.Sync

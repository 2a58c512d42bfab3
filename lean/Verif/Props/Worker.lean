import Verif.Worker.Progress
/-
C08, C09, C58 and C66: the partition worker.

The statements speak about the history of one worker: `fetched` (what the Kafka client delivered), `wm` (the watermark of the
commit log when the worker started), `offered` (the offsets given to the handler), `accepted` and `released` (events that took
and gave back a slot), `answered` (interjections whose function returned). An execution is any sequence of steps of the
goroutines `pushRecords`, `work`, `waitForRevocation`, the pool, the application, the poll loop and revocations.
-/
set_option linter.unusedSimpArgs false
namespace Verif.Worker

variable {c : Cfg}

/-! ### C08 -/

/-- The records an assignment of the partition has to handle: those not before the watermark. -/
def due (wm : Int) (fetched : List (Option Nat)) : List Nat := (fetched.filterMap id).filter fun (o : Nat) => decide (wm ≤ (o : Int))

theorem prefix_filter {p : It → Bool} {l : List It} (h : l.Pairwise fun a b => p b = true → p a = true) : l.filter p <+: l := by
  induction l with
  | nil => simp
  | cons a l ih =>
    rw [List.pairwise_cons] at h
    by_cases ha : p a = true
    · rw [List.filter_cons_of_pos ha]; exact (List.prefix_cons_inj a).2 (ih h.2)
    · have : (a :: l).filter p = [] := by
        rw [List.filter_eq_nil_iff]
        intro x hx
        rcases List.mem_cons.1 hx with rfl | hx
        · exact ha
        · exact fun hp => ha (h.1 x hx hp)
      rw [this]; exact List.nil_prefix

/-- Whatever is offered is an initial segment of what is due: in order, from the watermark on, without gaps or duplicates, also
while the partition is being revoked. -/
theorem C08_initial_segment {s : PW} (hr : Reach c s) (ha : (s.fetched.filterMap id).Pairwise (· < ·)) :
    s.offered <+: due s.wm s.fetched := by
  have A := invA_reach hr
  have I := invD_reach hr ha
  obtain ⟨x, k1, _⟩ := I.f
  obtain ⟨past, q1, q2, q3⟩ := I.q
  have hasc : s.sched.Pairwise fun a b => a.id < b.id := by
    have : (s.sched.map It.id).Pairwise (· < ·) := by rw [A.ids]; exact List.pairwise_lt_range
    exact List.pairwise_map.1 this
  have hpast : past.Pairwise fun a b => a.id < b.id := by
    have := hasc.filter (·.off.isSome)
    rw [q1] at this
    exact (List.pairwise_append.1 this).1
  have hpre : past.filter (fun it => decide (s.prod it.id = some true)) <+: past := by
    apply prefix_filter
    refine hpast.imp_of_mem ?_
    intro a b ha hb hab hp
    have hp : s.prod b.id = some true := by simpa using hp
    have hna := q3 a ha
    cases hpa : s.prod a.id with
    | none => exact absurd hpa hna
    | some v =>
      cases v with
      | true => simp
      | false => exact absurd (A.ord _ _ hpa hp) (by omega)
  have h1 : s.offered <+: schedOffs s := by
    rw [q2]
    refine (hpre.filterMap _).trans ?_
    have : schedOffs s = (past ++ pipe s).filterMap It.off := by
      rw [← q1]; unfold schedOffs
      rw [List.filterMap_filter]
      congr 1; funext it
      cases h : it.off <;> simp [h]
    rw [this, List.filterMap_append]
    exact List.prefix_append _ _
  have h2 : due s.wm s.fetched = schedOffs s ++ x := k1
  rw [h2]
  exact h1.trans (List.prefix_append _ _)

/-- The handler sees strictly increasing offsets, none before the watermark and only fetched ones. -/
theorem C08_order {s : PW} (hr : Reach c s) (ha : (s.fetched.filterMap id).Pairwise (· < ·)) :
    s.offered.Pairwise (· < ·) ∧ ∀ o ∈ s.offered, s.wm ≤ (o : Int) ∧ some o ∈ s.fetched := by
  have hp := C08_initial_segment hr ha
  refine ⟨(List.Pairwise.filter _ ha).sublist hp.sublist, ?_⟩
  intro o ho
  have := hp.subset ho
  obtain ⟨h1, h2⟩ := List.mem_filter.1 this
  obtain ⟨y, h3, h4⟩ := List.mem_filterMap.1 h1
  refine ⟨by simpa using h2, ?_⟩
  cases y with
  | none => cases h4
  | some z => cases h4; exact h3

theorem internal_frame {s s' : PW} {e : Bool} (h : St c s e s') (he : e = true) : s'.revoked = s.revoked ∧ s'.fetched = s.fetched := by
  cases h with
  | offer => cases he
  | revoke => cases he
  | _ => exact ⟨rfl, rfl⟩

theorem run_frame {s s' : PW} {ls : List Label} (h : run c s ls = some s') (hi : ∀ l ∈ ls, internal l = true) :
    s'.revoked = s.revoked ∧ s'.fetched = s.fetched := by
  induction ls generalizing s with
  | nil => cases h; exact ⟨rfl, rfl⟩
  | cons l ls ih =>
    simp only [run, Option.bind_eq_some_iff] at h
    obtain ⟨t, h1, h2⟩ := h
    have k1 := internal_frame (st_of_step h1) (hi l (by simp))
    have k2 := ih h2 (fun x hx => hi x (by simp [hx]))
    exact ⟨k2.1.trans k1.1, k2.2.trans k1.2⟩

/-- A worker that is not revoked offers everything: the steps of the worker, the pool and the application (without new input)
come to an end whatever their order, and when none is possible any more every record that is due was offered. -/
theorem C08_all_offered {s : PW} (hc1 : 1 ≤ c.maxPending) (hc2 : 1 ≤ c.ecap) (hr : Reach c s) (hv : s.revoked = false)
    (ha : (s.fetched.filterMap id).Pairwise (· < ·)) :
    (∃ n : Nat, ∀ ls s', run c s ls = some s' → (∀ l ∈ ls, internal l = true) → ls.length ≤ n) ∧
    ∀ ls s', run c s ls = some s' → (∀ l ∈ ls, internal l = true) →
      (∀ l, internal l = true → step c s' l = none) → s'.offered = due s'.wm s.fetched := by
  refine ⟨⟨(todo s).toNat, ?_⟩, ?_⟩
  · intro ls s' h hi
    have h1 := run_bound hr h hi
    have h2 := todo_nonneg (invB_reach (reach_run hr h))
    omega
  · intro ls s' h hi hq
    have hr' := reach_run hr h
    obtain ⟨f1, f2⟩ := run_frame h hi
    rcases quiet_cases hc1 hc2 hr' hq with ⟨k1, k2, k3, k4, k5, k6, k7⟩ | ⟨k1, _⟩
    · have I := invD_reach hr' (by unfold Asc; rw [f2]; exact ha)
      have A := invA_reach hr'
      obtain ⟨x, g1, g2⟩ := I.f
      obtain ⟨past, q1, q2, q3⟩ := I.q
      have hd : s'.dropped = false := by
        by_contra h
        rw [(I.d (by simpa using h)).1] at k1; cases k1
      have hx : x = [] := by rw [g2 hd]; unfold recs; rw [k2, k4, k5]; rfl
      have he : s'.evq = [] := by
        unfold live at k7
        simp only [List.append_eq_nil_iff] at k7
        exact k7.1.1.1.2
      have hp : pipe s' = [] := by unfold pipe; rw [k2, k3, he]; rfl
      rw [hp, List.append_nil] at q1
      have hall : past.filter (fun it => decide (s'.prod it.id = some true)) = past := by
        rw [List.filter_eq_self]
        intro it hit
        have := q3 it hit
        cases hpr : s'.prod it.id with
        | none => exact absurd hpr this
        | some v =>
          cases v with
          | true => simp
          | false => rw [A.rev _ hpr] at k1; cases k1
      rw [hall, ← q1, List.filterMap_filter] at q2
      have : due s'.wm s.fetched = schedOffs s' := by
        rw [hx, List.append_nil] at g1
        rw [← g1]; unfold due wanted; rw [f2]
      rw [this, q2]
      unfold schedOffs
      congr 1; funext it
      cases h : it.off <;> simp [h]
    · rw [f1, hv] at k1; cases k1

/-- Such a final state exists. -/
theorem C08_drains {s : PW} (hr : Reach c s) : ∃ ls s', run c s ls = some s' ∧ (∀ l ∈ ls, internal l = true) ∧
    ∀ l, internal l = true → step c s' l = none := reaches_quiet hr

/-! ### C09 -/

theorem unreleased_live {s : PW} (hr : Reach c s) {it : It} (h1 : it ∈ s.accepted) (h2 : it.id ∉ s.released) : it ∈ live s := by
  have A := invA_reach hr
  have B := invB_reach hr
  have h := B.cnt it.id
  have hp := ids_pos h1
  rw [List.count_eq_zero_of_not_mem h2] at h
  have h3 : it.id ∈ (live s).map It.id := List.count_pos_iff.1 (by unfold ids at h hp; omega)
  obtain ⟨x, hx, e⟩ := List.mem_map.1 h3
  have := sched_inj A (accepted_sched A (B.sub x hx)) (accepted_sched A h1) e
  rw [← this]; exact hx

/-- At most `maxPending` events were accepted and did not release their slot. -/
theorem C09_bound {s : PW} (hr : Reach c s) : (s.accepted.filter fun it => decide (it.id ∉ s.released)).length ≤ c.maxPending := by
  have A := invA_reach hr
  have B := invB_reach hr
  have hn : (s.accepted.filter fun it => decide (it.id ∉ s.released)).Nodup := by
    have : (s.sched.map It.id).Nodup := by rw [A.ids]; exact List.nodup_range
    have h := List.Nodup.of_map _ this
    rw [A.acc] at h
    exact (List.nodup_append.1 h).1.filter _
  have hs : (s.accepted.filter fun it => decide (it.id ∉ s.released)) ⊆ live s := by
    intro x hx
    obtain ⟨h1, h2⟩ := List.mem_filter.1 hx
    exact unreleased_live hr h1 (by simpa using h2)
  have h := (List.subperm_of_subset hn hs).length_le
  have h1 := B.slots
  have h2 := B.cap
  omega

/-- No event releases its slot twice, and only accepted events release one; an event that released it was either completed by
the application or refused a producer because of a revocation. -/
theorem C09_release_once {s : PW} (hr : Reach c s) :
    s.released.Nodup ∧ (∀ i ∈ s.released, i ∈ s.accepted.map It.id) ∧
    (∀ i ∈ s.released, i ∈ s.done ∨ (s.prod i = some false ∧ s.revoked = true)) := by
  have A := invA_reach hr
  have B := invB_reach hr
  refine ⟨?_, ?_, ?_⟩
  · rw [List.nodup_iff_count_le_one]
    intro i
    have h1 := B.cnt i
    have h2 := cnt_le_one A i
    omega
  · intro i hi
    have h1 := B.cnt i
    have h2 := List.count_pos_iff.2 hi
    exact List.count_pos_iff.1 (show 0 < ids s.accepted i by omega)
  · intro i hi
    rcases B.rel i hi with h | h
    · exact .inl h
    · exact .inr ⟨h, A.rev i h⟩

/-- The receive that releases a slot never blocks: the handler's return, an asynchronous completion and the refusal of a
producer are not held up by it. -/
theorem C09_release_enabled {s : PW} (hr : Reach c s) {it : It}
    (h : s.wk = .run it ∨ it ∈ s.pend ∨ (s.wk = .assign it ∧ s.prod it.id = some false)) : 0 < s.slots := by
  have B := invB_reach hr
  have hm : it ∈ live s := by
    rcases h with h | h | ⟨h, _⟩
    · unfold live; rw [h]; simp [wkIt]
    · unfold live; simp [h]
    · unfold live; rw [h]; simp [wkIt]
  rw [B.slots]; exact List.length_pos_of_mem hm

/-- **C65** (completions while waiting). While the worker waits for a producer, it still takes the completions of other events (`streams/partition_worker.go:290-299`): the oldest one
can be taken at once, and then its event is complete and has given back its slot. -/
theorem C65_completions_while_waiting {s : PW} (hr : Reach c s) {it e : It} {b : Bool} {rest : List (It × Bool)} (hw : s.wk = .assign it) (hj : s.jobs = (e, b) :: rest) :
    ∃ s', step c s .job = some s' ∧ s'.wk = .assign it ∧ s'.jobs = rest ∧ (b = true → s'.done = s.done ++ [e.id] ∧ s'.slots + 1 = s.slots) := by
  cases b with
  | false => exact ⟨{ s with jobs := rest }, by simp [step, hj, hw, takesJobs], hw, rfl, fun h => by cases h⟩
  | true =>
    have hm : e ∈ s.pend := by
      rcases (invB_reach hr).j1 e (by rw [hj]; simp) with h | h
      · exact h
      · rw [h] at hw; cases hw
    have hs : 0 < s.slots := C09_release_enabled hr (.inr (.inl hm))
    have hs' : ¬ s.slots = 0 := by omega
    refine ⟨{ s with slots := s.slots - 1, done := s.done ++ [e.id], released := s.released ++ [e.id], jobs := rest, pend := s.pend.erase e },
      by simp [step, hj, hw, takesJobs, completeEv, hs'], hw, rfl, fun _ => ⟨rfl, ?_⟩⟩
    show s.slots - 1 + 1 = s.slots
    omega

/-- The theorem applies: event 0 was left incomplete by its handler and is completed while the worker waits for a producer for event 1. -/
example : ∃ s : PW, run ⟨2, 2⟩ PW.init [.ready (-1), .offer [some 0, some 1], .send, .take, .record, .acquire, .poolAdd, .put, .inter, .record, .acquire, .poolAdd, .put,
    .assign false, .handle, .got, .ret false, .async ⟨0, some 0, 0⟩ true, .handle] = some s ∧ s.wk = .assign ⟨1, some 1, 0⟩ ∧ s.jobs = [(⟨0, some 0, 0⟩, true)] :=
  ⟨_, rfl, by decide, by decide⟩

/-- Without a revocation every accepted event releases its slot; the steps come to an end by `C08_all_offered`. -/
theorem C09_released_partial {s : PW} (hc1 : 1 ≤ c.maxPending) (hc2 : 1 ≤ c.ecap) (hr : Reach c s) (hv : s.revoked = false)
    (hq : ∀ l, internal l = true → step c s l = none) {it : It} (h : it ∈ s.accepted) : s.released.count it.id = 1 := by
  have A := invA_reach hr
  have B := invB_reach hr
  rcases quiet_cases hc1 hc2 hr hq with ⟨_, _, _, _, _, _, k7⟩ | ⟨k1, _⟩
  · have h1 := B.cnt it.id
    have h2 := ids_pos h
    have h3 := cnt_le_one A it.id
    rw [k7, ids_nil] at h1
    omega
  · rw [hv] at k1; cases k1

/-- What a finished worker leaves behind: events that got a producer were all completed, released their slots and were passed by
their transactions; no asynchronous completion is outstanding, so nobody sends to the closed channel `asyncJobs`. -/
theorem C09_closed {s : PW} (hr : Reach c s) (hp : s.push = .closed) :
    (∀ it ∈ s.accepted, s.prod it.id = some true → it.id ∈ s.done ∧ s.released.count it.id = 1 ∧ it.id ∈ s.fin) ∧
    (∀ it ∈ s.accepted, it.id ∉ s.released → s.prod it.id = some false) ∧ s.pend = [] ∧ s.roots = 0 := by
  have A := invA_reach hr
  have B := invB_reach hr
  have C := invC_reach hr
  have hz := C.zero (.inr hp)
  have hw := C.w
  have hcnt : s.sched.countP (counts s) = 0 := by omega
  have hall := List.countP_eq_zero.1 hcnt
  have h1 : ∀ it ∈ s.accepted, s.prod it.id = some true → it.id ∈ s.done ∧ s.released.count it.id = 1 ∧ it.id ∈ s.fin := by
    intro it hit hpr
    have := hall it (accepted_sched A hit)
    simp only [counts, hpr, decide_eq_true_eq] at this
    have hf : it.id ∈ s.fin := by
      by_contra h
      exact this ⟨h, by simp⟩
    have hd := B.fin.2 _ hf
    have hrel := (B.dn _ hd).1
    refine ⟨hd, ?_, hf⟩
    have k1 := B.cnt it.id
    have k2 := cnt_le_one A it.id
    have k3 := List.count_pos_iff.2 hrel
    omega
  refine ⟨h1, ?_, ?_, by omega⟩
  · intro it hit hn
    have := hall it (accepted_sched A hit)
    simp only [counts, decide_eq_true_eq] at this
    by_contra hc
    apply hn
    have hf : it.id ∈ s.fin := by
      by_contra h
      exact this ⟨h, hc⟩
    exact (B.dn _ (B.fin.2 _ hf)).1
  · cases he : s.pend with
    | nil => rfl
    | cons it l =>
      exfalso
      have hm : it ∈ s.pend := by rw [he]; simp
      have hpr := B.tru it (List.mem_append.2 (.inr hm))
      have hl : it ∈ live s := by unfold live; simp [hm]
      obtain ⟨_, k2, _⟩ := h1 it (B.sub it hl) hpr
      have k1 := B.cnt it.id
      have k3 := cnt_le_one A it.id
      have k4 := ids_pos hl
      omega

/-- A revoked worker finishes: the steps of the worker, the pool and the application come to an end, and the worker has stopped then. -/
theorem C09_revoked_finishes {s : PW} (hc1 : 1 ≤ c.maxPending) (hc2 : 1 ≤ c.ecap) (hr : Reach c s) (hv : s.revoked = true) :
    (∃ n : Nat, ∀ ls s', run c s ls = some s' → (∀ l ∈ ls, internal l = true) → ls.length ≤ n) ∧
    ∀ ls s', run c s ls = some s' → (∀ l ∈ ls, internal l = true) →
      (∀ l, internal l = true → step c s' l = none) → s'.wk = .stopped ∧ s'.push = .closed := by
  refine ⟨⟨(todo s).toNat, ?_⟩, ?_⟩
  · intro ls s' h hi
    have h1 := run_bound hr h hi
    have h2 := todo_nonneg (invB_reach (reach_run hr h))
    omega
  · intro ls s' h hi hq
    rcases quiet_cases hc1 hc2 (reach_run hr h) hq with ⟨k1, _⟩ | ⟨_, k2, k3, _⟩
    · rw [(run_frame h hi).1, hv] at k1; cases k1
    · exact ⟨k3, k2⟩

/-- Two records are fetched; the partition is revoked while the first is handled, so that the second is refused; the worker is
told to stop and stops without taking the second from its queue. -/
def leak : List Label :=
  [.ready 0, .offer [some 0, some 1], .send, .take, .record, .acquire, .poolAdd, .put, .inter, .assign true, .handle, .got,
   .record, .acquire, .poolAdd, .put, .revoke, .assign false, .inter, .record, .stop, .ret true, .finalize 0, .root, .stopSend,
   .waited, .finish]

/-- C09 is violated: an accepted event never releases its slot, however the execution goes on, although its worker has
finished. -/
theorem C09_violated : ∃ s, run ⟨2, 2⟩ PW.init leak = some s ∧ s.wk = .stopped ∧ (⟨1, some 1, 0⟩ : It) ∈ s.accepted ∧
    1 ∉ s.released ∧ s.slots = 1 := by
  refine ⟨(run ⟨2, 2⟩ PW.init leak).get (by decide), by simp, by decide, by decide, by decide, by decide⟩

/-- Once the worker has stopped nothing is released any more. -/
theorem stopped_released {s s' : PW} {e : Bool} (hw : s.wk = .stopped) (h : St c s e s') :
    s'.wk = .stopped ∧ s'.released = s.released := by
  cases h with
  | jobDone hj ht _ => rw [hw] at ht; cases ht
  | ready wm h => rw [hw] at h; cases h
  | handle h _ => rw [hw] at h; cases h
  | handleIj h _ => rw [hw] at h; cases h
  | gotEv h _ _ => rw [hw] at h; cases h
  | gotIj h _ _ => rw [hw] at h; cases h
  | gotNil h _ _ => rw [hw] at h; cases h
  | retDone h _ _ => rw [hw] at h; cases h
  | retMore h => rw [hw] at h; cases h
  | finish _ h _ => rw [hw] at h; cases h
  | _ => exact ⟨hw, rfl⟩

theorem C09_violated_forever {s : PW} (hr : Reach c s) (hw : s.wk = .stopped) {ls : List Label} {s' : PW}
    (h : run c s ls = some s') : s'.released = s.released := by
  induction ls generalizing s with
  | nil => cases h; rfl
  | cons l ls ih =>
    simp only [run, Option.bind_eq_some_iff] at h
    obtain ⟨t, h1, h2⟩ := h
    obtain ⟨k1, k2⟩ := stopped_released hw (st_of_step h1)
    rw [ih (.step l hr h1) k1 h2, k2]

/-! ### C58 -/

/-- No interjection is answered twice, and none is answered that was not made. -/
theorem C58_at_most_once {s : PW} (hr : Reach c s) (t : Nat) : s.answered.count t ≤ if t < s.nextTag then 1 else 0 := by
  have := (invE_reach hr).cnt t
  omega

/-- Without a revocation every interjection is answered exactly once when the worker has no more work; its steps come to an end
by `C08_all_offered`. -/
theorem C58_answered_partial {s : PW} (hc1 : 1 ≤ c.maxPending) (hc2 : 1 ≤ c.ecap) (hr : Reach c s) (hv : s.revoked = false)
    (hq : ∀ l, internal l = true → step c s l = none) {t : Nat} (ht : t < s.nextTag) : s.answered.count t = 1 := by
  have E := invE_reach hr
  rcases quiet_cases hc1 hc2 hr hq with ⟨_, k2, k3, _, _, k6, k7⟩ | ⟨k1, _⟩
  · have h := E.cnt t
    have hl : s.lost = [] := by
      by_contra hne
      rw [E.lost hne] at hv; cases hv
    have hi : s.ijq = [] := by
      unfold live at k7
      simp only [List.append_eq_nil_iff] at k7
      exact k7.1.1.2
    have hp : ijPipe s = [] := by unfold ijPipe; rw [k2, k3, hi]; rfl
    rw [hl, hp, k6, if_pos ht] at h
    simpa using h
  · rw [hv] at k1; cases k1

/-- An interjection that was dropped is never answered. -/
theorem lost_forever {s : PW} (hr : Reach c s) {t : Nat} (h : t ∈ s.lost) : t ∉ s.answered := by
  have h1 := (invE_reach hr).cnt t
  have h2 := List.count_pos_iff.2 h
  have h3 : (if t < s.nextTag then 1 else 0) ≤ 1 := by split <;> omega
  intro hc
  have h4 := List.count_pos_iff.2 hc
  omega

theorem lost_mono {s s' : PW} {ls : List Label} (h : run c s ls = some s') : s.lost ⊆ s'.lost := by
  induction ls generalizing s with
  | nil => cases h; exact List.Subset.refl _
  | cons l ls ih =>
    simp only [run, Option.bind_eq_some_iff] at h
    obtain ⟨t, h1, h2⟩ := h
    refine List.Subset.trans ?_ (ih h2)
    have hst := st_of_step h1
    generalize internal l = b at hst
    cases hst with
    | ijLost => exact List.subset_append_left _ _
    | @gotNil it _ _ _ =>
      dsimp only
      split
      · exact List.Subset.refl _
      · exact List.subset_append_left _ _
    | _ => exact List.Subset.refl _

/-- An interjection waits in the channel when the partition is revoked. -/
def drop58 : List Label := [.ready 0, .interject, .revoke, .takeIj]

/-- C58 is violated: the call got a channel and no error, the partition was revoked, and in no continuation is the channel
signalled. -/
theorem C58_violated : ∃ s, run ⟨1, 1⟩ PW.init drop58 = some s ∧ s.nextTag = 1 ∧
    ∀ ls s', run ⟨1, 1⟩ s ls = some s' → 0 ∉ s'.answered := by
  refine ⟨(run ⟨1, 1⟩ PW.init drop58).get (by decide), by simp, by decide, ?_⟩
  intro ls s' h
  have hr : Reach ⟨1, 1⟩ ((run ⟨1, 1⟩ PW.init drop58).get (by decide)) := reach_run (ls := drop58) .init (by simp)
  exact lost_forever (reach_run hr h) (lost_mono h (by decide))

/-- Or the interjection stays in the channel because the worker has stopped. -/
def drop58' : List Label := [.ready 0, .interject, .revoke, .stop, .stopSend, .waited, .finish]

theorem closed_step {s s' : PW} {e : Bool} (C : InvC s) (hp : s.push = .closed) (h : St c s e s') :
    s'.push = .closed ∧ s'.answered = s.answered := by
  have hw := C.st.1 hp
  cases h with
  | ready wm h => rw [hw] at h; cases h
  | take h _ _ => rw [hp] at h; cases h
  | ijLost h _ _ => rw [hp] at h; rcases h with ⟨h, _⟩ | ⟨_, h, _⟩ <;> cases h
  | ijSched h _ _ => rw [hp] at h; rcases h with ⟨h, _⟩ | ⟨_, h, _⟩ <;> cases h
  | stop h _ => rw [hp] at h; cases h
  | record h _ => rw [hp] at h; cases h
  | stale h _ => rw [hp] at h; cases h
  | noRecord h => rw [hp] at h; cases h
  | batchEnd h => rw [hp] at h; cases h
  | noInter h _ => rw [hp] at h; cases h
  | acquire h _ => rw [hp] at h; cases h
  | poolAdd h => rw [hp] at h; cases h
  | putEv h _ _ => rw [hp] at h; cases h
  | putIj h _ _ => rw [hp] at h; cases h
  | retDone h _ _ => rw [hw] at h; cases h
  | retMore h => rw [hw] at h; cases h
  | stopSend h _ => rw [hp] at h; cases h
  | finish _ _ h => rw [hp] at h; cases h
  | _ => exact ⟨hp, rfl⟩

theorem closed_run {s s' : PW} {ls : List Label} (hr : Reach c s) (hp : s.push = .closed) (h : run c s ls = some s') :
    s'.push = .closed ∧ s'.answered = s.answered := by
  induction ls generalizing s with
  | nil => cases h; exact ⟨hp, rfl⟩
  | cons l ls ih =>
    simp only [run, Option.bind_eq_some_iff] at h
    obtain ⟨t, h1, h2⟩ := h
    obtain ⟨k1, k2⟩ := closed_step (invC_reach hr) hp (st_of_step h1)
    obtain ⟨g1, g2⟩ := ih (.step l hr h1) k1 h2
    exact ⟨g1, g2.trans k2⟩

theorem C58_violated_stopped : ∃ s, run ⟨1, 1⟩ PW.init drop58' = some s ∧ s.nextTag = 1 ∧ s.ijIn = [0] ∧
    ∀ ls s', run ⟨1, 1⟩ s ls = some s' → 0 ∉ s'.answered := by
  refine ⟨(run ⟨1, 1⟩ PW.init drop58').get (by decide), by simp, by decide, by decide, ?_⟩
  intro ls s' h
  have hr : Reach ⟨1, 1⟩ ((run ⟨1, 1⟩ PW.init drop58').get (by decide)) := reach_run (ls := drop58') .init (by simp)
  rw [(closed_run hr (by decide) h).2]
  decide

/-! ### C66 -/

/-- The poll loop has passed the check in `add` when the partition is revoked and the worker closes its channel. -/
def race : List Label := [.ready 0, .offer [some 0], .revoke, .stop, .stopSend, .waited, .finish, .send]

/-- C66 is violated: the poll loop sends on a closed channel, which ends the process. -/
theorem C66_violated : ∃ s, run ⟨1, 1⟩ PW.init race = some s ∧ s.panic = true :=
  ⟨(run ⟨1, 1⟩ PW.init race).get (by decide), by simp, by decide⟩

/-- Executions in which the partition is not revoked between the check in `add` and the send. -/
inductive Calm (c : Cfg) : PW → Prop where
  | init : Calm c PW.init
  | step {s s' : PW} (l : Label) : Calm c s → (s.revoked = false → s'.revoked = true → s.sending = none) →
      step c s l = some s' → Calm c s'

theorem calm_reach {s : PW} (h : Calm c s) : Reach c s := by
  induction h with
  | init => exact .init
  | step l _ _ h2 ih => exact .step l ih h2

/-- In such executions there is no send on the closed channel. -/
theorem C66_no_panic_partial {s : PW} (h : Calm c s) : s.panic = false := by
  suffices s.panic = false ∧ (s.revoked = true → s.sending = none) from this.1
  induction h with
  | init => exact ⟨rfl, fun h => by cases h⟩
  | @step s s' l hc hl hs ih =>
    have C := invC_reach (calm_reach hc)
    have hst := st_of_step hs
    generalize internal l = b at hst
    cases hst with
    | offer r hr hn => exact ⟨ih.1, fun h => by change s.revoked = true at h; rw [hr] at h; cases h⟩
    | sendClosed hsend hp =>
      have := ih.2 (C.rv (by rw [hp]; rfl))
      rw [hsend] at this; cases this
    | send => exact ⟨ih.1, fun _ => rfl⟩
    | revoke =>
      refine ⟨ih.1, fun _ => ?_⟩
      cases hv : s.revoked with
      | true => exact ih.2 hv
      | false => exact hl hv rfl
    | _ => exact ⟨ih.1, ih.2⟩

/-! ### Concrete cases -/

/-- Two fetches overlap the watermark 1, an interjection comes in between, one event completes asynchronously. -/
def tour : List Label :=
  [.offer [some 0, some 1], .send, .ready 1, .take, .record, .inter, .record, .acquire, .poolAdd, .put, .assign true, .handle,
   .got, .interject, .inter, .acquire, .poolAdd, .ret false, .assign false, .put, .offer [none, some 3], .send, .handleIj, .got,
   .ret true, .async ⟨0, some 1, 0⟩ true, .job, .record, .take, .record, .inter, .record, .acquire, .poolAdd, .put, .assign false,
   .handle, .got, .ret true, .inter, .record, .finalize 0, .finalize 1, .finalize 2, .root]

example : ((run ⟨2, 2⟩ PW.init tour).map fun s => (s.offered, s.released, s.answered, s.revoked, s.waiter)) =
    some ([1, 3], [1, 0, 2], [0], false, 0) := by decide

example : ∃ s, run ⟨2, 2⟩ PW.init tour = some s ∧ (s.fetched.filterMap id).Pairwise (· < ·) ∧ due s.wm s.fetched = [1, 3] :=
  ⟨(run ⟨2, 2⟩ PW.init tour).get (by decide), by simp, by decide, by decide⟩

end Verif.Worker

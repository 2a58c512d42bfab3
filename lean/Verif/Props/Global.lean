import Verif.Global.Proofs
/-
C72: a global change log shows its receiver all partitions of the topic. Model: `Verif/Global/Model.lean`.
-/
namespace Verif.Props.Global
open Verif.Global

theorem window_of_noReset {p : Nat} {tr : List Ev} (h : NoReset p tr) : window p tr = (0, polledOf p tr) := by
  induction tr using List.reverseRecOn with
  | nil => rfl
  | append_singleton tr e ih =>
    have ih := ih (fun off hm => h off (List.mem_append_left _ hm))
    rw [window_snoc, polledOf_append, ih]
    cases e with
    | reset q off =>
      by_cases hq : q = p
      · subst hq; exact absurd (by simp) (h off)
      · simp [hq, polledOf]
    | polled q r => by_cases hq : q = p <;> simp [hq, polledOf]
    | _ => simp [polledOf]

theorem window_since {p off : Nat} {a b : List Ev} (h : NoReset p b) : window p (a ++ .reset p off :: b) = (off, polledOf p b) := by
  induction b using List.reverseRecOn with
  | nil => rw [window_snoc]; simp [polledOf]
  | append_singleton b e ih =>
    have ih := ih (fun off hm => h off (List.mem_append_left _ hm))
    have e1 : a ++ .reset p off :: (b ++ [e]) = a ++ .reset p off :: b ++ [e] := by simp
    rw [e1, window_snoc, polledOf_append, ih]
    cases e with
    | reset q off =>
      by_cases hq : q = p
      · subst hq; exact absurd (by simp) (h off)
      · simp [hq, polledOf]
    | polled q r => by_cases hq : q = p <;> simp [hq, polledOf]
    | _ => simp [polledOf]

theorem bound (l : List Rec) : ∃ z, ∀ r ∈ l, r.offset < z := by
  induction l with
  | nil => exact ⟨0, by simp⟩
  | cons r l ih =>
    obtain ⟨z, hz⟩ := ih
    refine ⟨max z (r.offset + 1), ?_⟩
    intro q hq
    rcases List.mem_cons.1 hq with e | e
    · subst e; omega
    · have := hz q e; omega

theorem win_prefix {l : List Rec} (h : Sorted l) (x y : Nat) (hx : x ≤ y) : win x y l <+: l.filter fun r => decide (x ≤ r.offset) := by
  obtain ⟨z, hz⟩ := bound l
  refine ⟨win y (max y z) l, ?_⟩
  rw [← win_split h hx (Nat.le_max_left y z)]
  apply List.filter_congr
  intro r hr
  have := hz r hr
  simp only [decide_eq_decide]
  omega

theorem polled_ext {s : St} (I : Inv s) (p : Nat) : receivedOf p s.trace <+: polledOf p s.trace := ⟨_, (I.flow p).symm⟩

/-- **C72** as long as `ResumePartitionAt` is not called for a partition, the receiver has got a prefix of the records of that partition: each once, in the order of
the log, from its start, none left out, whatever errors it returns for them. -/
theorem C72_replica {logs : List (List Rec)} (hl : ∀ l ∈ logs, Sorted l) {s : St} (hr : Reach logs s) {p : Nat} {t : Part} (ht : s.parts[p]? = some t)
    (hn : NoReset p s.trace) : receivedOf p s.trace <+: t.log := by
  have I := inv_reach hl hr
  have P := I.parts p t ht
  have hw := P.win
  rw [window_of_noReset hn] at hw
  dsimp only at hw
  have h1 := win_prefix P.sorted 0 t.next (Nat.zero_le _)
  rw [← hw] at h1
  have h2 : t.log.filter (fun r => decide (0 ≤ r.offset)) = t.log := by rw [List.filter_eq_self]; simp
  rw [h2] at h1
  exact (polled_ext I p).trans h1

theorem unpaused_of {p : Nat} {tr : List Ev} (h : Ev.paused p ∉ tr) : pausedIn p tr = false := by
  induction tr using List.reverseRecOn with
  | nil => rfl
  | append_singleton tr e ih =>
    have ih := ih (fun hm => h (List.mem_append_left _ hm))
    rw [pausedIn_snoc]
    cases e with
    | reset q off => by_cases hq : q = p <;> simp [hq, ih]
    | paused q =>
      by_cases hq : q = p
      · subst hq; exact absurd (by simp) h
      · simp [hq, ih]
    | _ => exact ih

theorem unpaused_since {p off : Nat} {a b : List Ev} (h : Ev.paused p ∉ b) : pausedIn p (a ++ .reset p off :: b) = false := by
  induction b using List.reverseRecOn with
  | nil => rw [pausedIn_snoc]; simp
  | append_singleton b e ih =>
    have ih := ih (fun hm => h (List.mem_append_left _ hm))
    have e1 : a ++ .reset p off :: (b ++ [e]) = a ++ .reset p off :: b ++ [e] := by simp
    rw [e1, pausedIn_snoc]
    cases e with
    | reset q off => by_cases hq : q = p <;> simp [hq, ih]
    | paused q =>
      by_cases hq : q = p
      · subst hq; exact absurd (by simp) h
      · simp [hq, ih]
    | _ => exact ih

/-- A poll that asks for a partition that is not paused and gets nothing: the client is at the end of the log and nothing is left to forward. -/
theorem at_end {s s' : St} (I : Inv s) {p n : Nat} {t : Part} (ht : s.parts[p]? = some t)
    (hp : pausedIn p s.trace = false) (hs : step s (.poll [(p, n + 1)]) = some s') (hnew : polledOf p s'.trace = polledOf p s.trace) :
    polledOf p s.trace = receivedOf p s.trace ∧ ∀ r ∈ t.log, r.offset < t.next := by
  have P := I.parts p t ht
  rw [← P.paused] at hp
  have hpc : s.pc = .poll := by
    simp only [step] at hs
    split at hs
    · assumption
    · cases hs
  simp only [step, hpc] at hs
  cases hs
  have hflow := I.flow p
  rw [hpc] at hflow
  simp only [batchOf, List.append_nil] at hflow
  refine ⟨hflow, ?_⟩
  dsimp only at hnew
  have e : s.trace ++ .poll :: pevs (pollAll s.parts [(p, n + 1)]).2 = s.trace ++ [.poll] ++ pevs (pollAll s.parts [(p, n + 1)]).2 := by simp
  have hnew : polledOf p (s.trace ++ .poll :: pevs (pollAll s.parts [(p, n + 1)]).2) = polledOf p s.trace := hnew
  rw [e, polledOf_append, polledOf_append, polledOf_pevs] at hnew
  have hz : ofPart p (pollAll s.parts [(p, n + 1)]).2 = [] := by
    have := congrArg List.length hnew
    simp [polledOf] at this
    exact this
  simp only [pollAll, ht, List.append_nil, ofPart_map, if_true] at hz
  have hahead : t.ahead = [] := by
    unfold Part.take at hz
    rw [hp] at hz
    simp only [Bool.false_eq_true, if_false] at hz
    cases ha : t.ahead with
    | nil => rfl
    | cons r l =>
      rw [ha] at hz
      simp only [List.take_succ_cons, List.getLast?_cons] at hz
      cases hz
  intro r hr
  by_contra hc
  have : r ∈ t.ahead := by
    unfold Part.ahead
    rw [List.mem_filter]
    exact ⟨hr, by simpa using hc⟩
  rw [hahead] at this
  cases this

/-- **C72** and it has got all of them as soon as a poll that would return a record of the partition returns none, if the partition was never paused. -/
theorem C72_complete {logs : List (List Rec)} (hl : ∀ l ∈ logs, Sorted l) {s s' : St} (hr : Reach logs s) {p n : Nat} {t : Part} (ht : s.parts[p]? = some t)
    (hn : NoReset p s.trace) (hp : Ev.paused p ∉ s.trace) (hs : step s (.poll [(p, n + 1)]) = some s') (hnew : polledOf p s'.trace = polledOf p s.trace) :
    receivedOf p s.trace = t.log := by
  have I := inv_reach hl hr
  have P := I.parts p t ht
  obtain ⟨hflow, hend⟩ := at_end I ht (unpaused_of hp) hs hnew
  have hw := P.win
  rw [window_of_noReset hn] at hw
  dsimp only at hw
  rw [← hflow, hw]
  unfold win
  rw [List.filter_eq_self]
  intro r hr
  have := hend r hr
  simpa using this

/-- **C72 (partial)** after `ResumePartitionAt p off` the receiver gets the records of the partition from `off` on, each once and in order, if no record of the
partition had been fetched and not forwarded yet. Missing: without this condition older records come first, see `C72_violated_stale`. -/
theorem C72_resume_partial {logs : List (List Rec)} (hl : ∀ l ∈ logs, Sorted l) {s : St} (hr : Reach logs s) {p off : Nat} {t : Part} (ht : s.parts[p]? = some t)
    {a b : List Ev} (h : s.trace = a ++ .reset p off :: b) (hn : NoReset p b) (hq : polledOf p a = receivedOf p a) :
    receivedOf p b <+: t.log.filter fun r => decide (off ≤ r.offset) := by
  have I := inv_reach hl hr
  have P := I.parts p t ht
  have hw := P.win
  have hlow := P.low
  rw [h, window_since hn] at hw hlow
  dsimp only at hw hlow
  have h1 := win_prefix P.sorted off t.next hlow
  rw [← hw] at h1
  refine List.IsPrefix.trans ?_ h1
  have hf := I.flow p
  rw [h, polledOf_append, receivedOf_append, hq, List.append_assoc] at hf
  have hf := List.append_cancel_left hf
  have e1 : polledOf p (.reset p off :: b) = polledOf p b := by simp [polledOf]
  have e2 : receivedOf p (.reset p off :: b) = receivedOf p b := by simp [receivedOf]
  rw [e1, e2] at hf
  exact ⟨_, hf.symm⟩

/-- **C72 (partial)** and under the same condition it has got all of them as soon as a poll that would return a record of the partition returns none: the partition is
not paused any more. -/
theorem C72_resume_complete_partial {logs : List (List Rec)} (hl : ∀ l ∈ logs, Sorted l) {s s' : St} (hr : Reach logs s) {p off n : Nat} {t : Part}
    (ht : s.parts[p]? = some t) {a b : List Ev} (h : s.trace = a ++ .reset p off :: b) (hn : NoReset p b) (hq : polledOf p a = receivedOf p a)
    (hp : Ev.paused p ∉ b) (hs : step s (.poll [(p, n + 1)]) = some s') (hnew : polledOf p s'.trace = polledOf p s.trace) :
    receivedOf p b = t.log.filter fun r => decide (off ≤ r.offset) := by
  have I := inv_reach hl hr
  have P := I.parts p t ht
  obtain ⟨hflow, hend⟩ := at_end I ht (by rw [h]; exact unpaused_since hp) hs hnew
  have hw := P.win
  rw [h, window_since hn] at hw
  dsimp only at hw
  rw [h, polledOf_append, receivedOf_append, hq] at hflow
  have hflow := List.append_cancel_left hflow
  have e1 : polledOf p (.reset p off :: b) = polledOf p b := by simp [polledOf]
  have e2 : receivedOf p (.reset p off :: b) = receivedOf p b := by simp [receivedOf]
  rw [e1, e2] at hflow
  rw [← hflow, hw]
  apply List.filter_congr
  intro r hr
  have := hend r hr
  simp only [decide_eq_decide]
  omega

theorem paused_since {p : Nat} {a b : List Ev} (h : NoReset p b) : pausedIn p (a ++ .paused p :: b) = true := by
  induction b using List.reverseRecOn with
  | nil => rw [pausedIn_snoc]; simp
  | append_singleton b e ih =>
    have ih := ih (fun off hm => h off (List.mem_append_left _ hm))
    have e1 : a ++ .paused p :: (b ++ [e]) = a ++ .paused p :: b ++ [e] := by simp
    rw [e1, pausedIn_snoc]
    cases e with
    | reset q off =>
      by_cases hq : q = p
      · subst hq; exact absurd (by simp) (h off)
      · simp [hq, ih]
    | paused q => by_cases hq : q = p <;> simp [hq, ih]
    | _ => exact ih

/-- **C72 (partial)** after `Pause` or `PauseAllPartitions` no record of the partition is fetched until it is resumed, and the receiver gets at most the records
that had been fetched. Missing: that it gets none, see `C72_violated_paused`. -/
theorem C72_paused_partial {logs : List (List Rec)} (hl : ∀ l ∈ logs, Sorted l) {s : St} (hr : Reach logs s) {p : Nat} {a b : List Ev}
    (h : s.trace = a ++ .paused p :: b) (hn : NoReset p b) : (∀ r, Ev.polled p r ∉ b) ∧ receivedOf p a ++ receivedOf p b <+: polledOf p a := by
  have hno : ∀ r, Ev.polled p r ∉ b := by
    intro r hm
    obtain ⟨x, y, hxy⟩ := List.append_of_mem hm
    have := polled_unpaused hl hr (a ++ .paused p :: x) y p r (by rw [h, hxy]; simp)
    rw [paused_since (fun off hm => hn off (by rw [hxy]; exact List.mem_append_left _ hm))] at this
    cases this
  refine ⟨hno, ?_⟩
  have hf := (inv_reach hl hr).flow p
  rw [h, polledOf_append, receivedOf_append] at hf
  have e1 : polledOf p (.paused p :: b) = [] := by
    simp only [polledOf, List.filterMap_cons]
    rw [List.filterMap_eq_nil_iff]
    intro e he
    cases e with
    | polled q r =>
      by_cases hq : q = p
      · subst hq; exact absurd he (hno r)
      · simp [hq]
    | _ => rfl
  have e2 : receivedOf p (.paused p :: b) = receivedOf p b := by simp [receivedOf]
  rw [e1, e2, List.append_nil] at hf
  exact ⟨_, hf.symm⟩

/-- **C72** after `Stop` there is at most one poll more; the client is closed only after `Stop`, and then nothing is fetched or received any more. -/
theorem C72_stop {logs : List (List Rec)} {s : St} (hr : Reach logs s) :
    (∀ a b, s.trace = a ++ .stopped :: b → b.count .poll ≤ 1) ∧
    ∀ a b, s.trace = a ++ .closed :: b → Ev.stopped ∈ a ∧ .poll ∉ b ∧ ∀ p r ok, Ev.polled p r ∉ b ∧ Ev.received p r ok ∉ b :=
  ⟨fun a b h => ((halt_reach hr).polls a b h).1, (halt_reach hr).last⟩

/-- How much `consume` has left to do once it was stopped. -/
def left : Pc → Nat × Nat
  | .poll => (1, 0)
  | .each l => (0, l.length + 2)
  | .top => (0, 1)
  | .done => (0, 0)

/-- A step of `consume`. -/
def own : Label → Prop
  | .check | .poll _ | .forward _ => True
  | _ => False

/-- **C72** once stopped, `consume` ends: it can always take a step until the client is closed, each of its steps brings it nearer to that, and no other step takes it
further away. -/
theorem C72_stop_ends {logs : List (List Rec)} {s : St} (hr : Reach logs s) (hst : Ev.stopped ∈ s.trace) :
    (Ev.closed ∉ s.trace → ∃ l s', own l ∧ step s l = some s') ∧
    ∀ l s', step s l = some s' → (own l → Prod.Lex (· < ·) (· < ·) (left s'.pc) (left s.pc)) ∧ (¬ own l → s'.pc = s.pc) := by
  have hrun := (halt_reach hr).stopped hst
  constructor
  · intro hc
    cases hp : s.pc with
    | top => exact ⟨.check, _, trivial, by simp only [step, hp, hrun]; rfl⟩
    | poll => exact ⟨.poll [], _, trivial, by simp only [step, hp]; rfl⟩
    | each b =>
      cases b with
      | nil => exact ⟨.forward true, _, trivial, by simp only [step, hp]; rfl⟩
      | cons e b => obtain ⟨p, r⟩ := e; exact ⟨.forward true, _, trivial, by simp only [step, hp]; rfl⟩
    | done =>
      exfalso
      clear hst hrun
      induction hr with
      | init => simp [St.init] at hp
      | @step s s' l hr h ih =>
        obtain ⟨evs, ht⟩ := tr_of_step h
        have := tr_trace ht
        by_cases hq : s.pc = .done
        · exact ih (fun hm => hc (by rw [this]; exact List.mem_append_left _ hm)) hq
        · cases ht <;> first | exact absurd hp hq | (simp at hp; done) | (simp at hc)
  · intro l s' h
    cases l with
    | produce p r =>
      refine ⟨fun ho => absurd ho id, fun _ => ?_⟩
      simp only [step] at h
      split at h
      · split at h
        · cases h; rfl
        · cases h
      · cases h
    | check =>
      refine ⟨fun _ => ?_, fun ho => absurd trivial ho⟩
      simp only [step] at h
      split at h
      · rename_i hp
        rw [hrun] at h
        cases h
        rw [hp]
        exact .right _ (by simp)
      · cases h
    | poll ns =>
      refine ⟨fun _ => ?_, fun ho => absurd trivial ho⟩
      simp only [step] at h
      split at h
      · rename_i hp
        cases h
        rw [hp]
        exact .left _ _ (by simp)
      · cases h
    | forward ok =>
      refine ⟨fun _ => ?_, fun ho => absurd trivial ho⟩
      simp only [step] at h
      split at h
      · rename_i hp
        cases h
        rw [hp]
        exact .right _ (by simp)
      · rename_i hp
        cases h
        rw [hp]
        exact .right _ (by simp)
      · cases h
    | pause p =>
      refine ⟨fun ho => absurd ho id, fun _ => ?_⟩
      simp only [step] at h
      split at h <;> cases h <;> rfl
    | pauseAll => cases h; exact ⟨fun ho => absurd ho id, fun _ => rfl⟩
    | resumeAt p off =>
      refine ⟨fun ho => absurd ho id, fun _ => ?_⟩
      simp only [step] at h
      split at h <;> cases h <;> rfl
    | stop => cases h; exact ⟨fun ho => absurd ho id, fun _ => rfl⟩

/-- **C72 is violated**: after `Pause` has returned the receiver still gets records of the partition. -/
theorem C72_violated_paused : ∃ s a b, run (St.init [[⟨0, 5⟩, ⟨1, 6⟩]]) [.check, .poll [(0, 2)], .forward true, .pause 0, .forward true] = some s ∧
    s.trace = a ++ Ev.paused 0 :: b ∧ Ev.received 0 ⟨1, 6⟩ true ∈ b :=
  ⟨_, [.poll, .polled 0 ⟨0, 5⟩, .polled 0 ⟨1, 6⟩, .received 0 ⟨0, 5⟩ true], [.received 0 ⟨1, 6⟩ true], rfl, rfl, by decide⟩

/-- **C72 is violated**: after `ResumePartitionAt` has returned the receiver gets a record from before that offset, and then misses the records in between. -/
theorem C72_violated_stale : ∃ s, run (St.init [[⟨0, 5⟩, ⟨1, 6⟩, ⟨2, 7⟩, ⟨3, 8⟩]])
      [.check, .poll [(0, 2)], .forward true, .resumeAt 0 3, .forward true, .forward true, .check, .poll [(0, 2)], .forward true] = some s ∧
    s.trace = [.poll, .polled 0 ⟨0, 5⟩, .polled 0 ⟨1, 6⟩, .received 0 ⟨0, 5⟩ true, .reset 0 3, .received 0 ⟨1, 6⟩ true, .poll, .polled 0 ⟨3, 8⟩,
      .received 0 ⟨3, 8⟩ true] := ⟨_, rfl, rfl⟩

/-! ### The hypotheses can be met -/

/-- Two partitions; the first one has a gap in its offsets, its receiver fails once, and it grows while being read. -/
def sample : List (List Rec) := [[⟨0, 5⟩, ⟨3, 6⟩], [⟨0, 9⟩]]

example : ∀ l ∈ sample, Sorted l := by simp [sample, Sorted]

/-- `C72_replica` and `C72_complete`. -/
example : ∃ s s', run (St.init sample) [.check, .poll [(1, 1), (0, 1)], .forward true, .produce 0 ⟨7, 1⟩, .forward false, .forward true, .check, .poll [(0, 5)],
      .forward true, .forward true, .forward true, .check] = some s ∧
    s.parts[0]? = some ⟨[⟨0, 5⟩, ⟨3, 6⟩, ⟨7, 1⟩], 8, false⟩ ∧ NoReset 0 s.trace ∧ Ev.paused 0 ∉ s.trace ∧ receivedOf 0 s.trace = [⟨0, 5⟩, ⟨3, 6⟩, ⟨7, 1⟩] ∧
    Ev.received 0 ⟨0, 5⟩ false ∈ s.trace ∧ step s (.poll [(0, 1)]) = some s' ∧ polledOf 0 s'.trace = polledOf 0 s.trace :=
  ⟨_, _, rfl, rfl, by intro off; simp [St.init, sample, pollAll, Part.take, Part.ahead], by decide, by decide, by decide, rfl, by decide⟩

/-- `C72_resume_partial`, `C72_paused_partial`. -/
example : ∃ s, run (St.init sample) [.check, .poll [(0, 1)], .forward true, .forward true, .pauseAll, .resumeAt 0 3, .check, .poll [(0, 1), (1, 1)], .forward true] = some s ∧
    s.trace = [.poll, .polled 0 ⟨0, 5⟩, .received 0 ⟨0, 5⟩ true, .paused 0, .paused 1] ++ Ev.reset 0 3 :: [.poll, .polled 0 ⟨3, 6⟩, .received 0 ⟨3, 6⟩ true] :=
  ⟨_, rfl, by decide⟩

/-- `C72_resume_complete_partial`. -/
example : ∃ s s', run (St.init sample) [.pause 0, .resumeAt 0 1, .check, .poll [(0, 1)], .forward true, .forward true, .check] = some s ∧
    s.trace = [.paused 0] ++ Ev.reset 0 1 :: [.poll, .polled 0 ⟨3, 6⟩, .received 0 ⟨3, 6⟩ true] ∧ step s (.poll [(0, 1)]) = some s' ∧
    polledOf 0 s'.trace = polledOf 0 s.trace := ⟨_, _, rfl, by decide, rfl, by decide⟩

/-- `C72_stop`, `C72_stop_ends`. -/
example : ∃ s, run (St.init sample) [.check, .stop, .poll [(0, 1), (1, 1)], .forward true, .forward false, .forward true, .check] = some s ∧
    s.trace = [] ++ Ev.stopped :: [.poll, .polled 0 ⟨0, 5⟩, .polled 1 ⟨0, 9⟩, .received 0 ⟨0, 5⟩ true, .received 1 ⟨0, 9⟩ false, .closed] := ⟨_, rfl, by decide⟩

end Verif.Props.Global

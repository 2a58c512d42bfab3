import Verif.Config.Model
/-
Properties C53 (handlers), C55 (derived settings), C56 (EOS configuration), C57 (topic creation),
C60 (balance strategies), C62 (logging).
-/
namespace Verif.Config

/-! ### C53 — error handlers -/

/-- The full claim of C53: the configured deserialization handler is used, the default exactly when
none is configured. -/
def DeserializationHandlerRespected : Prop :=
  ∀ h : Handlers, deserializationErrorHandler h =
    some (match h.deserialization with | some f => f | none => defaultDeserializationErrorHandler)

/-- C53 is violated: a configured deserialization handler is ignored unless a transaction error
handler is configured too (the user asked to fail, the default `Continue` is used) … -/
theorem C53_violated_ignored : ∃ (h : Handlers) (f : Nat → ErrorResponse) (g : Nat → ErrorResponse),
    h.deserialization = some f ∧ deserializationErrorHandler h = some g ∧
      f 0 = .failConsumer ∧ g 0 = .continue :=
  ⟨{ deserialization := some fun _ => .failConsumer }, _, _, rfl, rfl, rfl, rfl⟩

/-- … and configuring only a transaction error handler leaves no handler at all (a nil function that
panics at the first undecodable record). -/
theorem C53_violated_nil : ∃ h : Handlers, h.deserialization = none ∧ deserializationErrorHandler h = none :=
  ⟨{ txn := some fun _ => .failConsumer }, rfl, rfl⟩

theorem C53_violated : ¬ DeserializationHandlerRespected := by
  intro h
  have := h { txn := some fun _ => .failConsumer }
  simp [deserializationErrorHandler] at this

/-- C53, the part that holds: if both handlers or none are configured, the right one is used, and the
transaction error handler is always the configured one or the default. Missing: exactly one of the
two handlers configured. The default for transactions fails the consumer, the default for decoding errors goes on. -/
theorem C53_handlers_partial (h : Handlers) :
    ((h.txn.isSome = h.deserialization.isSome) → deserializationErrorHandler h =
      some (match h.deserialization with | some f => f | none => fun _ => .continue)) ∧
    (eosErrorHandler h = match h.txn with | some f => f | none => fun _ => .failConsumer) := by
  obtain ⟨t, d⟩ := h
  cases t <;> cases d <;> refine ⟨fun h => ?_, rfl⟩ <;> first | rfl | simp at h

example : ({ txn := some fun _ => .continue, deserialization := some fun _ => .fatallyExit } : Handlers).txn.isSome
    = ({ txn := some fun _ => .continue, deserialization := some fun _ => .fatallyExit } : Handlers).deserialization.isSome := rfl

/-! ### C55 — derived settings -/

/-- C55. The replication factor is the configured one if positive and 1 otherwise; in particular it is
at least 1. -/
theorem C55_replication (c : SourceConfig) :
    replicationFactorConfig c = max 1 c.replicationFactor ∧ 1 ≤ replicationFactorConfig c := by
  unfold replicationFactorConfig
  split <;> omega

/-- C55. Number of commit-log partitions: the configured number if positive, 5 otherwise. -/
theorem C55_commitLogPartitions (c : SourceConfig) :
    (0 < c.commitLogPartitions → commitLogPartitionsConfig c = c.commitLogPartitions) ∧
    (c.commitLogPartitions ≤ 0 → commitLogPartitionsConfig c = 5) ∧ 1 ≤ commitLogPartitionsConfig c := by
  unfold commitLogPartitionsConfig
  split <;> omega

/-- C55. Unavailability guard: with more than one replica, min-insync-replicas is smaller than the
replication factor, so the loss of one replica never blocks writes. -/
theorem C55_minInSync_lt (c : SourceConfig) (h : 1 < replicationFactorConfig c) :
    minInSyncConfig c < replicationFactorConfig c := by
  unfold minInSyncConfig replicationFactorConfig at *
  dsimp only
  split at h <;> simp_all <;> split <;> split <;> omega

example : 1 < replicationFactorConfig { replicationFactor := 3 } := by decide

/-- The documented claim "MinInSync defaults to 1" / "is at least one". -/
def MinInSyncAtLeastOne : Prop := ∀ c : SourceConfig, 1 ≤ minInSyncConfig c

/-- C55 is violated: with a replication factor of 3 and `MinInSync` unset, zero is requested. -/
theorem C55_violated : ¬ MinInSyncAtLeastOne := by
  intro h
  have := h { replicationFactor := 3 }
  exact absurd this (by decide)

/-- C55, the part that holds: the setting is at least one if it was set to at least one or if there is
a single replica; a valid setting is kept unchanged. Missing: `MinInSync` unset with several replicas. -/
theorem C55_minInSync_partial (c : SourceConfig) (h : 1 ≤ c.minInSync ∨ c.replicationFactor ≤ 1) :
    1 ≤ minInSyncConfig c ∧
    (1 < c.replicationFactor → c.minInSync < c.replicationFactor → minInSyncConfig c = c.minInSync) := by
  unfold minInSyncConfig replicationFactorConfig
  dsimp only
  by_cases hr : c.replicationFactor ≤ 0
  · simp only [hr, ite_true]
    simp
    omega
  · simp only [hr, ite_false]
    split
    · omega
    · split <;> omega

example : (1 : Int) ≤ ({ minInSync := 2, replicationFactor := 3 } : SourceConfig).minInSync := by decide

/-- C55. Topic names: an explicit state-store topic is used as is; the state cluster defaults to the
source cluster. -/
theorem C55_names (c : SourceConfig) :
    (c.stateStoreTopic ≠ [] → stateStoreTopicName c = c.stateStoreTopic) ∧
    (c.stateStoreTopic = [] → stateStoreTopicName c = ascii "gkes_change_log_" ++ c.topic ++ ascii "_" ++ c.groupId) ∧
    commitLogTopicName c = ascii "gkes_commit_log_" ++ c.groupId ∧
    stateStoreTopicName c ≠ [] ∧
    stateCluster c = c.stateCluster.or c.sourceCluster := by
  refine ⟨?_, ?_, rfl, ?_, ?_⟩
  · intro h
    unfold stateStoreTopicName
    rw [if_pos (List.length_pos_iff.mpr h)]
  · intro h
    unfold stateStoreTopicName
    rw [h]
    rfl
  · unfold stateStoreTopicName
    split
    · rename_i h; exact List.length_pos_iff.mp h
    · intro h
      have := congrArg List.length h
      simp [ascii] at this
  · unfold stateCluster
    cases c.stateCluster <;> rfl

/-- C55. Two groups never share a commit log. -/
theorem C55_commitLog_injective (a b : SourceConfig) (h : commitLogTopicName a = commitLogTopicName b) :
    a.groupId = b.groupId := List.append_cancel_left h

/-- Two different (topic, group) pairs can share a generated change-log topic: the generated names are
not unique. (Recorded as a finding; the documentation only says the name includes both.) -/
theorem C55_changeLog_name_collision : ∃ a b : SourceConfig,
    (a.topic ≠ b.topic ∧ a.groupId ≠ b.groupId) ∧ stateStoreTopicName a = stateStoreTopicName b :=
  ⟨{ topic := ascii "a_b", groupId := ascii "c" }, { topic := ascii "a", groupId := ascii "b_c" }, by decide, by decide⟩

/-! ### C56 — EOS configuration -/

/-- Specification: what the documentation calls a valid configuration. -/
def ValidEos (c : EosConfig) : Prop :=
  1 ≤ c.poolSize ∧ 1 ≤ c.pendingTxnCount ∧ 1 ≤ c.targetBatchSize ∧ 1 ≤ c.maxBatchSize ∧
    1000000 ≤ c.batchDelay ∧ c.targetBatchSize ≤ c.maxBatchSize

/-- Specification: the documented defaults: three producers, one pending transaction, 1000 and 10000 records, and the recommended delay of 10 milliseconds. -/
def documentedEos : EosConfig := { poolSize := 3, pendingTxnCount := 1, targetBatchSize := 1000, maxBatchSize := 10000, batchDelay := 10 * 1000 * 1000 }

/-- C56. Exactly the valid configurations pass validation. -/
theorem C56_validate_iff (c : EosConfig) : c.validate = true ↔ ValidEos c := by
  unfold EosConfig.validate ValidEos
  repeat' split
  all_goals simp
  all_goals omega

/-- C56. A consumer starts exactly if its configuration is unset (all zero) or valid, and it runs with
the default in the first and with the given configuration in the second case. -/
theorem C56_effective (c : EosConfig) :
    (∀ e, effectiveEosConfig c = some e → ValidEos e) ∧
    (c = {} → effectiveEosConfig c = some documentedEos) ∧
    (c ≠ {} → effectiveEosConfig c = if c.validate then some c else none) ∧
    (effectiveEosConfig c = none ↔ c ≠ {} ∧ ¬ ValidEos c) := by
  have hz : c.isZero = true ↔ c = {} := by
    obtain ⟨a, b, d, e, f⟩ := c
    unfold EosConfig.isZero
    simp only [EosConfig.mk.injEq]
    repeat' split
    all_goals simp_all
  have hd : defaultEosConfig.validate = true := by decide
  unfold effectiveEosConfig
  dsimp only
  by_cases h : c = {}
  · rw [if_pos (hz.mpr h), if_pos hd]
    refine ⟨?_, fun _ => rfl, fun hc => absurd h hc, ?_⟩
    · intro e he
      rw [← Option.some.inj he]
      exact (C56_validate_iff _).mp hd
    · simp [h]
  · rw [if_neg (fun hc => h (hz.mp hc))]
    refine ⟨?_, fun hc => absurd hc h, fun _ => rfl, ?_⟩
    · intro e he
      split at he
      · rw [← Option.some.inj he]
        exact (C56_validate_iff _).mp (by assumption)
      · cases he
    · rw [← C56_validate_iff]
      split <;> simp_all

/-! ### C57 — creating a source -/

/-- The brokers' view fits: an existing change log has as many partitions as the source topic. -/
def Mismatch (c : SourceConfig) (b : Broker) : Prop :=
  b.sourceClient = none ∧ b.eosClient = none ∧
  ∃ src cl n, b.listSource = .ok src ∧ b.listEos = .ok (cl, some n) ∧
    (src = none → b.createSourceTopic = none) ∧ (cl = none → b.createCommitLog = none) ∧
    n ≠ (match src with | some (p, _) => p | none => c.numPartitions)

/-- The full claim of C57: a mismatch is reported as an error. -/
def MismatchReported : Prop :=
  ∀ (c : SourceConfig) (b : Broker), c.groupId ≠ [] → c.topic ≠ [] → c.sourceCluster ≠ none →
    Mismatch c b → (createSourceTop c fun _ => b).1 = .error .other

/-- A configuration and broker with a change log of 4 partitions for a source topic with 8. -/
def mismatchWitness : SourceConfig × Broker :=
  ({ groupId := [1], topic := [2], sourceCluster := some 0 },
   { listSource := .ok (some (8, 3)), listEos := .ok (some 5, some 4) })

/-- C57 is violated: on a mismatch `CreateSource` panics (nil dereference in `isNetworkError`)
instead of returning the error. -/
theorem C57_violated : ¬ MismatchReported := by
  intro h
  have := h mismatchWitness.1 mismatchWitness.2 (by decide) (by decide) (by decide)
    ⟨rfl, rfl, some (8, 3), some 5, 4, rfl, rfl, by simp, by simp, by simp⟩
  exact absurd this (by decide)

/-- C57. Whenever an attempt fails with a non-network error, `CreateSource` panics. -/
theorem C57_other_error_panics (c : SourceConfig) (brokers : Nat → Broker) (n k : Nat) (last : Option Err)
    (h : (createSource c (brokers k)).2 = .error .other) :
    retry brokers (n + 1) k c last = (.panic, k + 1) := by
  simp only [retry]
  rw [show createSource c (brokers k) = ((createSource c (brokers k)).1, (createSource c (brokers k)).2) from rfl, h]
  rfl

theorem retry_attempts (brokers : Nat → Broker) (n k : Nat) (c : SourceConfig) (last : Option Err) :
    (retry brokers n k c last).2 ≤ k + n := by
  induction n generalizing k c last with
  | zero => simp [retry]
  | succ n ih =>
    simp only [retry]
    generalize hcs : createSource c (brokers k) = r
    obtain ⟨c', r⟩ := r
    dsimp only
    split
    · omega
    · have := ih (k + 1) c' (errOf r); omega
    · omega

/-- Success of an attempt implies that the topics fit. -/
theorem createSource_ok (c c' : SourceConfig) (b : Broker) (h : createSource c b = (c', .ok ())) :
    b.sourceClient = none ∧ b.eosClient = none ∧ ∃ src cl ch,
      b.listSource = .ok src ∧ b.listEos = .ok (cl, ch) ∧
      (src = none → b.createSourceTopic = none ∧ c'.numPartitions = c.numPartitions) ∧
      (∀ n rf, src = some (n, rf) → c'.numPartitions = n ∧ c'.replicationFactor = rf) ∧
      (∀ n, cl = some n → c'.commitLogPartitions = n) ∧
      (cl = none → b.createCommitLog = none ∧ c'.commitLogPartitions = c.commitLogPartitions) ∧
      (∀ n, ch = some n → n = c'.numPartitions) ∧
      (ch = none → b.createChangeLog = none) := by
  unfold createSource at h
  split at h
  · simp at h
  · rename_i hsc
    split at h
    · simp at h
    · rename_i hec
      refine ⟨hsc, hec, ?_⟩
      unfold resolveOrCreateTopics at h
      split at h
      · simp at h
      · rename_i src hsrc
        have hname : ∀ c : SourceConfig, (stateStoreTopicName c).length > 0 := fun c =>
          List.length_pos_iff.mpr (C55_names c).2.2.2.1
        cases hle : b.listEos with
        | error e =>
          rcases src with _ | ⟨n, rf⟩
          · cases hcst : b.createSourceTopic <;> simp [orFail, hcst, hle] at h
          · simp [hle] at h
        | ok p =>
          obtain ⟨cl, ch⟩ := p
          refine ⟨src, cl, ch, hsrc, rfl, ?_⟩
          simp only [hle] at h
          rcases src with _ | ⟨n, rf⟩ <;> rcases cl with _ | m <;> rcases ch with _ | l <;>
            cases hcst : b.createSourceTopic <;> cases hccl : b.createCommitLog <;>
            cases hcch : b.createChangeLog <;>
            simp only [orFail, hcst, hccl, hcch, hname, ite_true, Prod.mk.injEq, reduceCtorEq, and_false,
              and_true] at h
          all_goals (try split at h)
          all_goals simp_all
          all_goals (try obtain ⟨rfl, _⟩ := h)
          all_goals simp_all
          all_goals (try (subst h; simp_all))

/-- C57, the part that holds, for every sequence of broker answers:
(1) an incomplete configuration is rejected without contacting a broker;
(2) at most fifteen attempts are made;
(3) a source is returned only if, in the last attempt, an existing change log has exactly as many
    partitions as the source, and the returned partition counts are those of the existing topics;
(4) an error is returned only after fifteen network errors.
Missing: non-network errors (in particular a mismatch) panic instead of being returned. -/
theorem C57_createSource_partial (c : SourceConfig) (brokers : Nat → Broker) :
    ((c.groupId = [] ∨ c.topic = [] ∨ c.sourceCluster = none) → createSourceTop c brokers = (.invalidConfig, 0)) ∧
    (createSourceTop c brokers).2 ≤ 15 ∧
    (∀ c', (createSourceTop c brokers).1 = .source c' → ∃ k, k < 15 ∧
      (createSourceTop c brokers).2 = k + 1 ∧ ∃ src cl ch,
        (brokers k).listSource = .ok src ∧ (brokers k).listEos = .ok (cl, ch) ∧
        (∀ n rf, src = some (n, rf) → c'.numPartitions = n ∧ c'.replicationFactor = rf) ∧
        (∀ n, cl = some n → c'.commitLogPartitions = n) ∧
        (∀ n, ch = some n → n = c'.numPartitions)) ∧
    (∀ e, (createSourceTop c brokers).1 = .error e → e = .network ∧ (createSourceTop c brokers).2 = 15) := by
  have key : ∀ (n k : Nat) (c : SourceConfig) (last : Option Err),
      (last = none → 0 < n) → (∀ e, last = some e → e = .network) →
      (∀ c', (retry brokers n k c last).1 = .source c' → ∃ j, k ≤ j ∧ j < k + n ∧
        (retry brokers n k c last).2 = j + 1 ∧ ∃ src cl ch,
          (brokers j).listSource = .ok src ∧ (brokers j).listEos = .ok (cl, ch) ∧
          (∀ n rf, src = some (n, rf) → c'.numPartitions = n ∧ c'.replicationFactor = rf) ∧
          (∀ n, cl = some n → c'.commitLogPartitions = n) ∧
          (∀ n, ch = some n → n = c'.numPartitions)) ∧
      (∀ e, (retry brokers n k c last).1 = .error e → e = .network ∧ (retry brokers n k c last).2 = k + n) := by
    intro n
    induction n with
    | zero =>
      intro k c last h0 hl
      cases last with
      | none => exact absurd (h0 rfl) (by omega)
      | some e =>
        simp only [retry, reduceCtorEq, false_implies, implies_true, true_and]
        intro e' he
        simp only [CreateResult.error.injEq] at he
        subst he
        exact ⟨hl e rfl, rfl⟩
    | succ n ih =>
      intro k c last _ _
      simp only [retry]
      generalize hcs : createSource c (brokers k) = r
      obtain ⟨c', r⟩ := r
      dsimp only
      cases r with
      | ok u =>
        cases u
        simp only [errOf, isNetworkError, reduceCtorEq, false_implies, implies_true, and_true]
        intro c'' hc
        simp only [CreateResult.source.injEq] at hc
        subst hc
        obtain ⟨_, _, src, cl, ch, h1, h2, _, h4, h5, _, h7, _⟩ := createSource_ok _ _ _ hcs
        exact ⟨k, by omega, by omega, rfl, src, cl, ch, h1, h2, h4, h5, h7⟩
      | error e =>
        cases e with
        | other => simp [errOf, isNetworkError]
        | network =>
          simp only [errOf, isNetworkError]
          have := ih (k + 1) c' (some .network) (by simp) (by simp)
          refine ⟨?_, ?_⟩
          · intro c'' hc
            obtain ⟨j, h1, h2, h3⟩ := this.1 c'' hc
            exact ⟨j, by omega, by omega, h3⟩
          · intro e he
            obtain ⟨h1, h2⟩ := this.2 e he
            exact ⟨h1, by omega⟩
  have hinv : (c.groupId = [] ∨ c.topic = [] ∨ c.sourceCluster = none) → createSourceTop c brokers = (.invalidConfig, 0) := by
    intro h
    unfold createSourceTop
    rcases h with h | h | h <;> simp [h]
  refine ⟨hinv, ?_⟩
  by_cases hc : c.groupId = [] ∨ c.topic = [] ∨ c.sourceCluster = none
  · rw [hinv hc]
    simp
  · have heq : createSourceTop c brokers = retry brokers 15 0 c none := by
      unfold createSourceTop
      have h1 : ¬ c.groupId = [] := fun h => hc (.inl h)
      have h2 : ¬ c.topic = [] := fun h => hc (.inr (.inl h))
      have h3 : ¬ c.sourceCluster = none := fun h => hc (.inr (.inr h))
      rw [if_neg (by simpa using h1), if_neg (by simpa using h2), if_neg h3]
    rw [heq]
    have := key 15 0 c none (by simp) (by simp)
    refine ⟨by simpa using retry_attempts brokers 15 0 c none, ?_, ?_⟩
    · intro c' hc'
      obtain ⟨j, _, h2, h3, h4⟩ := this.1 c' hc'
      exact ⟨j, by omega, h3, h4⟩
    · intro e he
      have := this.2 e he
      simpa using this

/-- A run that exercises it: two network errors, then success with 8 partitions. -/
example : createSourceTop { groupId := [1], topic := [2], sourceCluster := some 0 }
    (fun k => if k < 2 then { listSource := .error .network, listEos := .error .network }
      else { listSource := .ok (some (8, 3)), listEos := .ok (some 5, some 8) }) =
    (.source { groupId := [1], topic := [2], sourceCluster := some 0, numPartitions := 8,
               replicationFactor := 3, commitLogPartitions := 5 }, 3) := by decide

/-- C57. The number of commit-log partitions used for routing offset commits is the number of
partitions of the commit-log topic, whether it existed or was created by this call. -/
theorem C57_commitLog_count_consistent (c c' : SourceConfig) (b : Broker) (cl ch : Option Int)
    (h : createSource c b = (c', .ok ())) (hl : b.listEos = .ok (cl, ch)) :
    (∀ n, cl = some n → 0 < n → commitLogPartitionsConfig c' = n) ∧
    (cl = none → commitLogPartitionsConfig c' = commitLogPartitionsConfig c) := by
  obtain ⟨_, _, src, cl', ch', _, h2, _, _, h5, h6, _, _⟩ := createSource_ok _ _ _ h
  rw [hl] at h2
  simp only [Except.ok.injEq, Prod.mk.injEq] at h2
  obtain ⟨rfl, rfl⟩ := h2
  constructor
  · intro n hn hp
    rw [(C55_commitLogPartitions c').1 (by rw [h5 n hn]; exact hp), h5 n hn]
  · intro hn
    unfold commitLogPartitionsConfig
    rw [(h6 hn).2]

example : ∃ c', createSource { topic := [2] } { listSource := .ok (some (8, 3)), listEos := .ok (none, some 8) }
    = (c', .ok ()) := ⟨_, rfl⟩

/-- `CreateDestination` makes all fifteen attempts even if the first one succeeds (finding: there is no
`break`). -/
theorem C57_createDestination_always_retries (errs : Nat → Option Err) (h : ∀ k, errs k ≠ some .other) :
    createDestination errs 15 0 none = (some (errs 14), 15) := by
  have key : ∀ n k r, createDestination errs n k r = (if n = 0 then r else some (errs (k + n - 1)), k + n) := by
    intro n
    induction n with
    | zero => intro k r; rfl
    | succ n ih =>
      intro k r
      have : ∃ b, isNetworkError (errs k) = some b := by
        cases he : errs k with
        | none => exact ⟨_, rfl⟩
        | some e =>
          cases e with
          | network => exact ⟨_, rfl⟩
          | other => exact absurd he (h k)
      obtain ⟨b, hb⟩ := this
      simp only [createDestination, hb, ih]
      by_cases hn : n = 0
      · simp [hn]
      · have e1 : k + 1 + n - 1 = k + (n + 1) - 1 := by omega
        have e2 : k + 1 + n = k + (n + 1) := by omega
        simp [hn, e2]
  rw [key]
  rfl

/-! ### C60 — balance strategies -/

/-- The list of balancers is the list of known strategies in the given order. -/
theorem C60_balancers (rs : List BalanceStrategy) : toGroupBalancers rs = rs.filterMap toBalancer := by
  unfold toGroupBalancers
  have : ∀ acc, rs.foldl (fun acc s => match toBalancer s with | some b => acc ++ [b] | none => acc) acc
      = acc ++ rs.filterMap toBalancer := by
    induction rs with
    | nil => simp
    | cons s rs ih =>
      intro acc
      simp only [List.foldl_cons, List.filterMap_cons]
      cases toBalancer s with
      | none => exact ih acc
      | some b => simp only [ih]; simp
  exact this []

/-- The documented strategies. -/
def Documented (rs : List BalanceStrategy) : Prop := ∀ s ∈ rs, s = 0 ∨ s = 1 ∨ s = 2 ∨ s = 3

/-- The full claim of C60. -/
def AnyStrategyWorks : Prop := ∀ rs, Documented rs → assignPartitionsReturns rs = true

/-- C60 is violated: with only the cooperative-sticky strategy the first assignment panics. -/
theorem C60_violated : ¬ AnyStrategyWorks := by
  intro h
  have := h [2] (by intro s hs; simp only [List.mem_singleton] at hs; exact .inr (.inr (.inl hs)))
  exact absurd this (by decide)

/-- C60, the part that holds: assignment works exactly if no strategy is configured or the incremental
strategy is among them. Missing: lists without the incremental strategy. -/
theorem C60_assign_partial (rs : List BalanceStrategy) :
    assignPartitionsReturns rs = true ↔ rs = [] ∨ (3 : Int) ∈ rs := by
  unfold assignPartitionsReturns hasIncrBalancer consumerBalancers
  rw [C60_balancers]
  by_cases h : rs = []
  · subst h; simp [toBalancer]
  · have hl : ¬ rs.length = 0 := by simpa using h
    simp only [hl, ite_false, h, false_or, List.any_eq_true, List.mem_filterMap, beq_iff_eq]
    constructor
    · rintro ⟨b, ⟨s, hs, hb⟩, rfl⟩
      unfold toBalancer at hb
      repeat' split at hb
      all_goals simp_all
    · intro h3
      exact ⟨.incremental, ⟨3, h3, by simp [toBalancer]⟩, rfl⟩

example : Documented [2, 3] := by
  intro s hs
  simp only [List.mem_cons, List.not_mem_nil, or_false] at hs
  rcases hs with h | h <;> simp [h]

/-! ### C62 — logging -/

/-- Severity of a message, in the numbering of `LogLevel`. -/
def severity : Msg → LogLevel
  | .trace => 1 | .debug => 2 | .info => 3 | .warn => 4 | .error => 5

/-- The levels configured along a chain of wrappers, and the innermost logger. -/
def chain : Logger → List LogLevel × Option (Msg → Bool)
  | .simple l => ([l], none)
  | .wrap l i => (l :: (chain i).1, (chain i).2)
  | .user f => ([], some f)

/-- C62. A message is written exactly if its severity is at least every configured level on the way,
none of these levels is `LogLevelNone`, and the user's own logger, if any, writes it. -/
theorem C62_emits_iff (lg : Logger) (m : Msg) :
    lg.emits m = true ↔ (∀ l ∈ (chain lg).1, l ≤ severity m ∧ l ≠ 0) ∧ (∀ f, (chain lg).2 = some f → f m = true) := by
  induction lg with
  | simple l => cases m <;> simp [Logger.emits, chain, severity]
  | wrap l i ih => cases m <;> simp [Logger.emits, chain, severity, ih, and_assoc]
  | user f => cases m <;> simp [Logger.emits, chain]

/-- C62. For the Kafka client the level is translated so that a client message is passed on by the
client exactly when the corresponding method's severity reaches the configured level (trace is
treated as debug). -/
theorem C62_kgo_level (l : LogLevel) (hl : 1 ≤ l ∧ l ≤ 5) (k : KgoLevel) (hk : 1 ≤ k ∧ k ≤ 4) :
    ∃ m, kgoToMsg k = some m ∧ (k ≤ toKgoLoglevel l ↔ max 2 l ≤ severity m) := by
  have h1 : l = 1 ∨ l = 2 ∨ l = 3 ∨ l = 4 ∨ l = 5 := by
    unfold LogLevel at *; omega
  have h2 : k = 1 ∨ k = 2 ∨ k = 3 ∨ k = 4 := by
    unfold KgoLevel at *; omega
  rcases h1 with rfl | rfl | rfl | rfl | rfl <;> rcases h2 with rfl | rfl | rfl | rfl <;>
    first
    | exact ⟨.error, by decide, by decide⟩
    | exact ⟨.warn, by decide, by decide⟩
    | exact ⟨.info, by decide, by decide⟩
    | exact ⟨.debug, by decide, by decide⟩

/-- C62. Only the first `InitLogger` call has an effect. -/
theorem C62_init_once (l0 : Logger) (l : Logger) (ls : List Logger) :
    (l :: ls).foldl initLogger (false, l0) = (true, l) := by
  simp only [List.foldl_cons, initLogger]
  induction ls with
  | nil => rfl
  | cons x xs ih => simpa [List.foldl_cons, initLogger] using ih

example : (Logger.wrap 4 (.simple 2)).emits .warn = true ∧ (Logger.wrap 4 (.simple 2)).emits .info = false := by
  decide

end Verif.Config

import Verif.Clients.Spec
import Mathlib.Tactic.Common
/-
Property C77: the settings of the Kafka clients, for every configuration of the clusters and all additional options.
-/
namespace Verif.Clients

/-! ### Settings -/

theorem setting_append_right {a b : List Opt} {f : Field} {v : Nat} (h : IsSetting b f v) : IsSetting (a ++ b) f v := by
  obtain ⟨x, y, rfl, h⟩ := h
  exact ⟨a ++ x, y, by simp, h⟩

theorem setting_append_left {a b : List Opt} {f : Field} {v : Nat} (h : IsSetting a f v) (hb : Free b f) : IsSetting (a ++ b) f v := by
  obtain ⟨x, y, rfl, h⟩ := h
  refine ⟨x, y ++ b, by simp, ?_⟩
  intro o ho
  rcases List.mem_append.1 ho with ho | ho
  · exact h o ho
  · exact hb o ho

theorem setting_unique {a : List Opt} {f : Field} {v w : Nat} (h : IsSetting a f v) (h' : IsSetting a f w) : v = w := by
  obtain ⟨x, y, rfl, h⟩ := h
  obtain ⟨x', y', he, h'⟩ := h'
  rw [List.append_eq_append_iff] at he
  rcases he with ⟨l, rfl, hl⟩ | ⟨l, rfl, hl⟩
  · cases l with
    | nil => simp at hl; exact hl.1
    | cons o l =>
      simp only [List.cons_append, List.cons.injEq] at hl
      exact absurd rfl (h ⟨f, w⟩ (by rw [hl.2]; simp))
  · cases l with
    | nil => simp at hl; exact hl.1.symm
    | cons o l =>
      simp only [List.cons_append, List.cons.injEq] at hl
      exact absurd rfl (h' ⟨f, v⟩ (by rw [hl.2]; simp))

theorem setting_last (a : List Opt) (f : Field) (v : Nat) : IsSetting (a ++ [⟨f, v⟩]) f v := ⟨a, [], rfl, by simp⟩

theorem setting_here (x y : List Opt) (f : Field) (v : Nat) (h : Free y f) : IsSetting (x ++ ⟨f, v⟩ :: y) f v := ⟨x, y, rfl, h⟩

theorem free_of_decide {opts : List Opt} {f : Field} (h : (opts.all fun o => o.field ≠ f) = true) : Free opts f := by
  intro o ho
  have := List.all_eq_true.1 h o ho
  simpa using this

/-- **C77** (one value). A field that is assigned has one setting. -/
theorem C77_unique (opts : List Opt) (f : Field) : (∃ o ∈ opts, o.field = f) ↔ ∃! v, IsSetting opts f v := by
  constructor
  · intro h
    induction opts with
    | nil => simp at h
    | cons a l ih =>
      by_cases hl : ∃ o ∈ l, o.field = f
      · obtain ⟨v, hv, hu⟩ := ih hl
        refine ⟨v, setting_append_right (a := [a]) hv, fun w hw => ?_⟩
        exact setting_unique hw (setting_append_right (a := [a]) hv)
      · obtain ⟨o, ho, hf⟩ := h
        rcases List.mem_cons.1 ho with rfl | ho
        · obtain ⟨of, ov⟩ := o
          simp only at hf
          subst hf
          have hs : IsSetting (⟨of, ov⟩ :: l) of ov := ⟨[], l, rfl, fun o ho hf => hl ⟨o, ho, hf⟩⟩
          exact ⟨ov, hs, fun w hw => setting_unique hw hs⟩
        · exact absurd ⟨o, ho, hf⟩ hl
  · rintro ⟨v, ⟨x, y, rfl, _⟩, _⟩
    exact ⟨⟨f, v⟩, by simp, rfl⟩

example : IsSetting [⟨.isolation, 1⟩, ⟨.linger, 2⟩, ⟨.isolation, 3⟩] .isolation 3 := ⟨[⟨.isolation, 1⟩, ⟨.linger, 2⟩], [], rfl, by simp⟩

/-! ### Who wins -/

/-- **C77** (precedence). The options of a call win over those of the cluster, and these over the defaults. -/
theorem C77_precedence (l : Lib) (cl : List Opt) (options opts : List Opt) (h : newClient l (some cl) options = some opts) (f : Field) (v : Nat) :
    (IsSetting options f v → IsSetting opts f v) ∧
    (Free options f → IsSetting cl f v → IsSetting opts f v) ∧
    (Free options f → Free cl f → IsSetting (defaults l) f v → IsSetting opts f v) := by
  simp only [newClient, Option.some.injEq] at h
  subst h
  refine ⟨setting_append_right, fun h1 h2 => ?_, fun h1 h2 h3 => ?_⟩
  · exact setting_append_left (setting_append_right h2) h1
  · exact setting_append_left (setting_append_left h3 h2) h1

/-- **C77** (defaults). A `Producer`, a `BatchProducer` or any other client of a cluster that gives only addresses has the documented defaults
(`streams/producer.go:44-46`), unless the caller overrides them. -/
theorem C77_defaults (l : Lib) (seeds : Nat) (opts : List Opt) : ∃ o, producerClient l (simpleCluster seeds) opts = some o ∧
    (Free opts .linger → IsSetting o .linger l.linger) ∧ (Free opts .partitioner → IsSetting o .partitioner l.optional) ∧
    (Free opts .isolation → IsSetting o .isolation l.readCommitted) ∧
    ∀ f v, IsSetting opts f v → IsSetting o f v := by
  refine ⟨_, rfl, fun h => ?_, fun h => ?_, fun h => ?_, fun f v h => setting_append_right h⟩ <;>
  · refine setting_append_left (setting_append_left ?_ (free_of_decide (by rfl))) h
    first
      | exact ⟨[_, _, _], _, rfl, by simp⟩
      | exact ⟨[_, _, _, _], _, rfl, by simp⟩
      | exact ⟨[_, _], _, rfl, by simp⟩

/-- **C77** (no client). If the cluster, or the separate cluster for the state if there is one, has no configuration, there is no event source; otherwise
there is one. -/
theorem C77_error (l : Lib) (s : Source) (id a : Nat) (additional : List Opt) :
    newEventSource l s id a additional = none ↔ s.sourceCluster = none ∨ s.stateConfig = some none := by
  unfold newEventSource consumerClient txnClient changeLogClient globalClient newClient Source.stateCluster
  rcases h : s.stateConfig with _ | (_ | c) <;> cases s.sourceCluster <;> simp

/-! ### The clients of an event source -/

theorem clients_eq {l : Lib} {s : Source} {id a : Nat} {additional : List Opt} {c : Clients}
    (h : newEventSource l s id a additional = some c) : ∃ c1 c2, s.sourceCluster = some c1 ∧ (s.stateConfig = some (some c2) ∨ s.stateConfig = none ∧ c2 = c1) ∧
      c.consumer = defaults l ++ c1 ++ consumerOpts l s additional ∧
      c.txn = defaults l ++ c2 ++ [⟨.partitioner, l.optional⟩, ⟨.txnId, id⟩, ⟨.txnTimeout, 30000⟩] ∧
      c.changeLog = defaults l ++ c2 ++ [⟨.partitions, a⟩, ⟨.maxWait, 1000⟩, ⟨.partitioner, l.manual⟩] ∧
      c.commitLog = defaults l ++ c2 ++ [⟨.partitions, a⟩, ⟨.partitioner, l.manual⟩] := by
  unfold newEventSource consumerClient txnClient changeLogClient globalClient newClient Source.stateCluster at h
  cases h1 : s.sourceCluster <;> rcases h2 : s.stateConfig with _ | (_ | c2) <;> simp only [h1, h2] at h
  · simp at h
  · simp at h
  · simp at h
  · cases h
    exact ⟨_, _, rfl, .inr ⟨rfl, rfl⟩, rfl, rfl, rfl, rfl⟩
  · simp at h
  · cases h
    exact ⟨_, _, rfl, .inl rfl, rfl, rfl, rfl, rfl⟩

/-- **C77** (what the library relies on). Whatever the clusters are configured to, and if the additional options respect the reservation: the consumer
is in the configured group, reads the configured topic, and uses the library's balancers, callbacks and offsets. Even additional options do not change
whether offsets are marked or automatic commits are off. The transactional producers have their own transactional id and respect explicit partitions
whatever anybody sets; the readers of the two logs read the partitions they are given. -/
theorem C77_reserved {l : Lib} {s : Source} {id a : Nat} {additional : List Opt} {c : Clients}
    (h : newEventSource l s id a additional = some c) :
    ((∀ f ∈ reserved, Free additional f) →
      IsSetting c.consumer .group s.group ∧ IsSetting c.consumer .topics s.topic ∧ IsSetting c.consumer .balancers l.balancers ∧
      IsSetting c.consumer .onAssigned l.onAssigned ∧ IsSetting c.consumer .onRevoked l.onRevoked ∧
      IsSetting c.consumer .adjustOffsets l.adjust) ∧
    (s.commitOffsets = true → IsSetting c.consumer .autoCommitMarks 1 ∧ IsSetting c.consumer .autoCommitInterval 5000) ∧
    (s.commitOffsets = false → IsSetting c.consumer .autoCommitOff 1) ∧
    IsSetting c.txn .txnId id ∧ IsSetting c.txn .partitioner l.optional ∧ IsSetting c.txn .txnTimeout 30000 ∧
    IsSetting c.changeLog .partitions a ∧ IsSetting c.commitLog .partitions a := by
  obtain ⟨c1, c2, h1, h2, e1, e2, e3, e4⟩ := clients_eq h
  rw [e1, e2, e3, e4]
  refine ⟨fun hr => ?_, fun hm => ?_, fun hm => ?_, ?_, ?_, ?_, ?_, ?_⟩
  · have hq : ∀ f ∈ reserved, ∀ v, IsSetting
        [⟨.balancers, l.balancers⟩, ⟨.group, s.group⟩, ⟨.topics, s.topic⟩, ⟨.onAssigned, l.onAssigned⟩, ⟨.onRevoked, l.onRevoked⟩,
         ⟨.sessionTimeout, 6000⟩, ⟨.maxWait, 1000⟩, ⟨.adjustOffsets, l.adjust⟩] f v →
        IsSetting (defaults l ++ c1 ++ consumerOpts l s additional) f v := by
      intro f hf v hv
      apply setting_append_right
      have hadd := hr f hf
      have hfree : ∀ (m : List Opt), (∀ o ∈ m, o.field ∉ reserved) → Free m f := fun m hm o ho he => hm o ho (he ▸ hf)
      unfold consumerOpts
      dsimp only
      by_cases h1 : s.commitOffsets = true <;> by_cases h2 : additional.length > 0
      · rw [if_pos h1, if_pos h2]; exact setting_append_left (setting_append_left hv hadd) (hfree _ (by decide))
      · rw [if_pos h1, if_neg h2]; exact setting_append_left hv (hfree _ (by decide))
      · rw [if_neg h1, if_pos h2]; exact setting_append_left (setting_append_left hv hadd) (hfree _ (by decide))
      · rw [if_neg h1, if_neg h2]; exact setting_append_left hv (hfree _ (by decide))
    refine ⟨hq .group (by decide) _ ⟨[_], _, rfl, by simp⟩, hq .topics (by decide) _ ⟨[_, _], _, rfl, by simp⟩,
      hq .balancers (by decide) _ ⟨[], _, rfl, by simp⟩, hq .onAssigned (by decide) _ ⟨[_, _, _], _, rfl, by simp⟩,
      hq .onRevoked (by decide) _ ⟨[_, _, _, _], _, rfl, by simp⟩,
      hq .adjustOffsets (by decide) _ ⟨[_, _, _, _, _, _, _], _, rfl, by simp⟩⟩
  · unfold consumerOpts
    rw [if_pos hm]
    exact ⟨setting_append_right (setting_append_right ⟨[], _, rfl, by simp⟩),
      setting_append_right (setting_append_right ⟨[_], _, rfl, by simp⟩)⟩
  · unfold consumerOpts
    rw [if_neg (by simp [hm])]
    exact setting_append_right (setting_append_right ⟨[], _, rfl, by simp⟩)
  · exact setting_append_right ⟨[_], _, rfl, by simp⟩
  · exact setting_append_right ⟨[], _, rfl, by simp⟩
  · exact setting_append_right ⟨[_, _], _, rfl, by simp⟩
  · exact setting_append_right ⟨[], _, rfl, by simp⟩
  · exact setting_append_right ⟨[], _, rfl, by simp⟩

/-- A library with different values everywhere, and a source on two clusters with options of their own. -/
def demoLib : Lib := ⟨1, 2, 3, 4, 5, 6, 7, 8, 9, 10, 11⟩
def demoSource : Source := ⟨20, 21, some [⟨.other 0, 30⟩, ⟨.linger, 31⟩, ⟨.group, 99⟩], some (some [⟨.other 0, 40⟩, ⟨.txnId, 98⟩]), false⟩

example : ∃ c, newEventSource demoLib demoSource 50 60 [⟨.sessionTimeout, 45000⟩] = some c ∧
    (∀ f ∈ reserved, Free [⟨.sessionTimeout, 45000⟩] f) ∧ IsSetting c.consumer .sessionTimeout 45000 :=
  ⟨_, rfl, by intro f hf o ho; rw [List.mem_singleton] at ho; subst ho; rintro rfl; revert hf; decide,
    ⟨defaults demoLib ++ [⟨.other 0, 30⟩, ⟨.linger, 31⟩, ⟨.group, 99⟩] ++
      [⟨.balancers, 8⟩, ⟨.group, 20⟩, ⟨.topics, 21⟩, ⟨.onAssigned, 9⟩, ⟨.onRevoked, 10⟩, ⟨.sessionTimeout, 6000⟩, ⟨.maxWait, 1000⟩, ⟨.adjustOffsets, 11⟩],
      [⟨.autoCommitOff, 1⟩], rfl, by simp⟩⟩

/-- The readers of the change log and of the commit log see committed records only: the claim on which exactly-once rests. -/
def ReadsCommitted : Prop := ∀ (l : Lib) (s : Source) (id a : Nat) (additional : List Opt) (c : Clients),
  newEventSource l s id a additional = some c → IsSetting c.changeLog .isolation l.readCommitted ∧ IsSetting c.commitLog .isolation l.readCommitted

/-- **C77** (isolation, partial). The readers of the change log and of the commit log see committed records only, if the configuration of the state
cluster does not set the isolation level. Missing: it is not reserved (`streams/topics.go:93` has a TODO), see `C77_violated_isolation`. -/
theorem C77_isolation_partial {l : Lib} {s : Source} {id a : Nat} {additional : List Opt} {c : Clients}
    (h : newEventSource l s id a additional = some c) (hf : ∀ cl, s.stateConfig = some (some cl) ∨ s.stateConfig = none ∧ s.sourceCluster = some cl →
      Free cl .isolation) :
    IsSetting c.changeLog .isolation l.readCommitted ∧ IsSetting c.commitLog .isolation l.readCommitted := by
  obtain ⟨c1, c2, h1, h2, e1, e2, e3, e4⟩ := clients_eq h
  have h3 : Free c2 .isolation := hf c2 (h2.imp (fun h => h) fun h => ⟨h.1, by rw [h.2]; exact h1⟩)
  rw [e3, e4]
  constructor
  · exact setting_append_left (setting_append_left ⟨[_, _], _, rfl, by simp⟩ h3) (free_of_decide rfl)
  · exact setting_append_left (setting_append_left ⟨[_, _], _, rfl, by simp⟩ h3) (free_of_decide rfl)

/-- **C77** is violated: a cluster whose options set the isolation level makes the library read uncommitted commit records and changes. -/
theorem C77_violated_isolation : ¬ ReadsCommitted := by
  intro h
  have h1 := (h demoLib { demoSource with stateConfig := some (some [⟨.isolation, 4⟩]) } 0 0 [] _ rfl).2
  have h2 : IsSetting (defaults demoLib ++ [⟨.isolation, 4⟩] ++ [⟨.partitions, 0⟩, ⟨.partitioner, demoLib.manual⟩]) .isolation 4 :=
    ⟨defaults demoLib, [⟨.partitions, 0⟩, ⟨.partitioner, demoLib.manual⟩], rfl, by simp⟩
  exact absurd (setting_unique h1 h2) (by decide)

/-- What the documentation of `NewEventSource` says about the partitioner for `EventContext.Forward` (`streams/event_source.go:61-65`): it can be set
with the additional options. -/
def PartitionerCanBeSet : Prop := ∀ (l : Lib) (s : Source) (id a v : Nat) (additional : List Opt) (c : Clients),
  newEventSource l s id a additional = some c → IsSetting additional .partitioner v → IsSetting c.txn .partitioner v

/-- **C77** is violated: the additional options are not passed to the transactional producers, which always use the default partitioner; not even the
configuration of the cluster can change that. -/
theorem C77_violated_partitioner : ¬ PartitionerCanBeSet ∧
    ∀ (l : Lib) (s : Source) (id a : Nat) (additional : List Opt) (c : Clients), newEventSource l s id a additional = some c →
      ∀ v, IsSetting c.txn .partitioner v → v = l.optional := by
  have hall : ∀ (l : Lib) (s : Source) (id a : Nat) (additional : List Opt) (c : Clients), newEventSource l s id a additional = some c →
      ∀ v, IsSetting c.txn .partitioner v → v = l.optional := by
    intro l s id a additional c h v hv
    exact setting_unique hv (C77_reserved h).2.2.2.2.1
  refine ⟨fun h => ?_, hall⟩
  have h1 := h demoLib demoSource 50 60 77 [⟨.partitioner, 77⟩] _ rfl ⟨[], [], rfl, by simp⟩
  exact absurd (hall demoLib demoSource 50 60 [⟨.partitioner, 77⟩] _ rfl _ h1) (by decide)

end Verif.Clients

import Verif.Topics.Proofs
/-
Property C74: topics (`streams/topics.go:129-304`), for any number of instances that start at the same time, every interleaving of
their requests, every failure and every set of existing topics.
-/
namespace Verif.Topics
open Verif Verif.Config

/-- A configuration for the examples: topic "t" with 8 partitions, group "g". -/
def cfg : SourceConfig :=
  { groupId := [103], topic := [116], numPartitions := 8, replicationFactor := 3, minInSync := 2, sourceCluster := some 0 }

def noTopics : World := fun _ _ => none

theorem run_reach {w : World} {cs : List SourceConfig} {s s' : St} {ls : List Label} (h : Reach w cs s)
    (hr : run s ls = some s') : Reach w cs s' := by
  induction ls generalizing s with
  | nil => cases hr; exact h
  | cons l ls ih =>
    simp only [run, Option.bind_eq_some_iff] at hr
    obtain ⟨s1, h1, h2⟩ := hr
    exact ih (.step l h h1) h2

theorem run_clean {w : World} {cs : List SourceConfig} {s s' : St} {ls : List Label} (h : CleanReach w cs s)
    (hr : run s ls = some s') (hl : ∀ l ∈ ls, l.clean) : CleanReach w cs s' := by
  induction ls generalizing s with
  | nil => cases hr; exact h
  | cons l ls ih =>
    simp only [run, Option.bind_eq_some_iff] at hr
    obtain ⟨s1, h1, h2⟩ := hr
    exact ih (.step l h (hl l (List.mem_cons_self ..)) h1) h2 fun x hx => hl x (List.mem_cons_of_mem _ hx)

theorem CleanReach.reach {w : World} {cs : List SourceConfig} {s : St} (h : CleanReach w cs s) : Reach w cs s := by
  induction h with
  | init => exact .init
  | step l _ _ hs ih => exact .step l ih hs

/-- Two instances whose requests alternate; a response of the first one is lost, so that it starts again. -/
def race : List Label :=
  [.ok 0 {}, .ok 1 {}, .lost 0 {}, .ok 1 {}, .ok 1 {}, .ok 0 {}, .ok 0 {}, .ok 1 {}, .ok 0 {}, .ok 1 {}, .ok 0 {}]

/-! ### What the instances do to the clusters -/

/-- **C74** (kept). A topic that exists is never changed or removed by an instance that starts. -/
theorem C74_existing_kept {w : World} {cs : List SourceConfig} {s s' : St} (h : Reach w cs s) {ls : List Label}
    (hr : run s ls = some s') {c : Option Nat} {n : Bytes} {t : Topic} :
    (w c n = some t → s.world c n = some t) ∧ (s.world c n = some t → s'.world c n = some t) := by
  constructor
  · intro hw
    clear hr
    induction h with
    | init => exact hw
    | step l _ hs ih => exact step_keeps hs ih
  · intro hw
    induction ls generalizing s with
    | nil => cases hr; exact hw
    | cons l ls ih =>
      simp only [run, Option.bind_eq_some_iff] at hr
      obtain ⟨s1, h1, h2⟩ := hr
      exact ih (.step l h h1) h2 (step_keeps h1 hw)

theorem Resolved.mono {w w' : World} (h : ∀ k t, w.at k = some t → w'.at k = some t) {c : SourceConfig} {n r : Int}
    (R : Resolved w c n r) : Resolved w' c n r :=
  R.imp id fun ⟨t, ht⟩ => ⟨t, h _ _ ht.1, ht.2⟩

theorem AsAsked.mono {w w' : World} (h : ∀ k t, w.at k = some t → w'.at k = some t) {c : SourceConfig} {k : Option Nat × Bytes}
    {t : Topic} (A : AsAsked w c k t) : AsAsked w' c k t :=
  A.imp id fun ⟨n, r, h1, h2⟩ => ⟨n, r, h1.mono h, h2⟩

/-- **C74** (created as configured). A topic that did not exist before is the source topic, the commit log or the change log of one
of the instances, with the settings for it: not compacted with the configured number of partitions; compacted at 0.90 with the configured
number, or 5; compacted at 0.50 with the number that the source topic has, or will have. Replication and `min.insync.replicas` are the
configured ones, or follow the existing source topic. -/
theorem C74_created {w : World} {cs : List SourceConfig} {s : St} (h : Reach w cs s) {c : Option Nat} {n : Bytes} {t : Topic}
    (ht : s.world c n = some t) : w c n = some t ∨ ∃ cfg ∈ cs, AsAsked s.world cfg (c, n) t := by
  induction h generalizing t with
  | init => exact .inl ht
  | @step s s' l hr hs ih =>
    have hmono : ∀ k t, s.world.at k = some t → s'.world.at k = some t := fun k t hw => step_keeps hs hw
    have ih' : s.world c n = some t → w c n = some t ∨ ∃ cfg ∈ cs, AsAsked s'.world cfg (c, n) t := fun h =>
      (ih h).imp id fun ⟨cfg, h1, h2⟩ => ⟨cfg, h1, h2.mono hmono⟩
    rcases step_world hs with e | ⟨x, hx, a, x', hg⟩
    · exact ih' (by rw [← e]; exact ht)
    · have N := near_reach hr x hx
      have hgiven : x.given ∈ cs := by
        rw [← given_reach hr]; exact List.mem_map.2 ⟨x, hx, rfl⟩
      have hrf : replicationFactorConfig x.cur = replicationFactorConfig { x.given with replicationFactor := x.cur.replicationFactor } := rfl
      have hmi : minInSyncConfig x.cur = minInSyncConfig { x.given with replicationFactor := x.cur.replicationFactor } := by
        unfold minInSyncConfig replicationFactorConfig
        simp only [N.mis]
      have key : ∀ (k : Option Nat × Bytes) (tt : Topic), s'.world = create s.world k.1 k.2 tt a.refused a.dflt →
          (s.world k.1 k.2 = none → ∀ p, (tt.parts ≠ -1 → p = tt.parts) → AsAsked s.world x.given k { tt with parts := p }) →
          w c n = some t ∨ ∃ cfg ∈ cs, AsAsked s'.world cfg (c, n) t := by
        intro k tt e hk
        rcases create_cases s.world k.1 k.2 tt a.refused a.dflt with e' | ⟨h0, _, p, e', hp⟩
        · rw [e, e'] at ht; exact ih' ht
        · by_cases hkk : (c, n) = k
          · subst hkk
            have ht' := ht
            rw [e, e', set_same] at ht'
            cases ht'
            exact .inr ⟨x.given, hgiven, (hk h0 p hp).mono hmono⟩
          · rw [e, e', set_ne _ _ hkk] at ht; exact ih' ht
      rcases go_world hg with e | ⟨_, e⟩ | ⟨_, e⟩ | ⟨_, e⟩
      · exact ih' (by rw [← e]; exact ht)
      · refine key (x.cur.sourceCluster, x.cur.topic) _ e ?_
        intro h0 p hp
        have hnum : x.cur.numPartitions = x.given.numPartitions ∧ x.cur.replicationFactor = x.given.replicationFactor := by
          rcases N.num with h | ⟨t', h, _⟩
          · exact h
          · rw [← N.keys.src] at h
            rw [show s.world.at (srcKey x.cur) = s.world x.cur.sourceCluster x.cur.topic from rfl, h0] at h
            simp at h
        refine .inl ⟨N.keys.src, rfl, ?_, ?_, ?_⟩
        · intro hf
          dsimp only [topicSpec] at hp ⊢
          rw [hnum.1, wrap32 hf] at hp
          exact hp (by have := hf.1; omega)
        · dsimp only [topicSpec]
          rw [hrf, hnum.2]
        · dsimp only [topicSpec]
          rw [hmi, hnum.2]
      · refine key (stateCluster x.cur, commitLogTopicName x.cur) _ e ?_
        intro h0 p hp
        have hnum : x.cur.commitLogPartitions = x.given.commitLogPartitions := by
          rcases N.clp with h | ⟨t', h⟩
          · exact h
          · rw [← N.keys.commit] at h
            rw [show s.world.at (commitKey x.cur) = s.world (stateCluster x.cur) (commitLogTopicName x.cur) from rfl, h0] at h
            simp at h
        dsimp only [topicSpec] at hp
        unfold commitLogPartitionsConfig at hp
        rw [hnum] at hp
        refine .inr ⟨_, _, N.num, rfl, hmi, .inl ⟨N.keys.commit, rfl, rfl, ?_, ?_⟩⟩
        · intro hle
          rw [if_pos hle] at hp
          exact hp (by decide)
        · intro hf
          have := hf.1
          rw [if_neg (by omega), wrap32 hf] at hp
          exact hp (by omega)
      · refine key (stateCluster x.cur, stateStoreTopicName x.cur) _ e ?_
        intro h0 p hp
        refine .inr ⟨_, _, N.num, rfl, hmi, .inr ⟨N.keys.change, rfl, rfl, ?_⟩⟩
        intro hf
        dsimp only [topicSpec] at hp ⊢
        rw [wrap32 hf] at hp
        exact hp (by have := hf.1; omega)

example : ∃ s, Reach noTopics [cfg, cfg] s ∧
    s.world.at (srcKey cfg) = some ⟨8, 3, 2, false, none⟩ ∧ s.world.at (commitKey cfg) = some ⟨5, 3, 2, true, some 90⟩ ∧
    s.world.at (changeKey cfg) = some ⟨8, 3, 2, true, some 50⟩ := by
  have hd : ∃ s, run (St.init noTopics [cfg, cfg]) race = some s ∧ s.world.at (srcKey cfg) = some ⟨8, 3, 2, false, none⟩ ∧
      s.world.at (commitKey cfg) = some ⟨5, 3, 2, true, some 90⟩ ∧ s.world.at (changeKey cfg) = some ⟨8, 3, 2, true, some 50⟩ :=
    ⟨_, rfl, by decide +kernel, by decide +kernel, by decide +kernel⟩
  obtain ⟨s, h1, h2⟩ := hd
  exact ⟨s, run_reach .init h1, h2⟩

/-! ### What the instances believe -/

/-- **C74** (accurate). If all instances have the same configuration, with proper numbers of partitions and three different topics, and
the clusters hide and refuse nothing, then every source that is returned is accurate: its three topics exist, and the numbers of partitions
it works with are the real ones. Requests may fail and responses get lost at any time. Missing: instances with different configurations,
clusters that refuse, and brokers that do not know a new topic yet — see the violations below. -/
theorem C74_accurate_partial {w : World} {c : SourceConfig} {cs : List SourceConfig} (hcs : ∀ x ∈ cs, x = c) (hd : Distinct c)
    (hn : Fits c.numPartitions) (hm : Fits (commitLogPartitionsConfig c)) (hw : ∀ k t, w.at k = some t → Fits t.parts)
    {s : St} (h : CleanReach w cs s) {x : Inst} (hx : x ∈ s.insts) (hdone : x.pc = .done) :
    Accurate s.world x.cur ∧ srcKey x.cur = srcKey c ∧ commitKey x.cur = commitKey c ∧ changeKey x.cur = changeKey c := by
  have hn' : Fits (nStar c w) := by
    unfold nStar
    split
    · rename_i t ht; exact hw _ t ht
    · exact hn
  have hm' : Fits (mStar c w) := by
    unfold mStar
    split
    · rename_i t ht; exact hw _ t ht
    · exact hm
  obtain ⟨W, X⟩ := clean_reach hcs hd hn' hm' h
  have X := X x hx
  have hst := X.stage
  unfold Stage at hst
  rw [hdone] at hst
  obtain ⟨⟨t1, h1⟩, h2, ⟨t3, h3⟩, h4, t5, h5, h6⟩ := hst
  refine ⟨⟨t1, t3, t5, by rw [X.keys.src]; exact h1, by rw [X.keys.commit]; exact h3, by rw [X.keys.change]; exact h5, ?_, ?_, ?_⟩,
    X.keys.src, X.keys.commit, X.keys.change⟩
  · rw [h2]; exact W.src t1 h1
  · rw [h4]; exact W.commit t3 h3
  · rw [h2]; exact h6

/-- The hypotheses of `C74_accurate_partial` are met by the run of above, at the end of which both instances have a source. -/
example : (∀ x ∈ [cfg, cfg], x = cfg) ∧ Distinct cfg ∧ Fits cfg.numPartitions ∧ Fits (commitLogPartitionsConfig cfg) ∧
    ∃ s, CleanReach noTopics [cfg, cfg] s ∧ s.insts.map Inst.pc = [.done, .done] := by
  refine ⟨by simp, ?_, by unfold Fits; decide, by unfold Fits; decide, ?_⟩
  · unfold Distinct; decide +kernel
  · have hd : ∃ s, run (St.init noTopics [cfg, cfg]) race = some s ∧ s.insts.map Inst.pc = [.done, .done] :=
      ⟨_, rfl, by decide +kernel⟩
    obtain ⟨s, h1, h2⟩ := hd
    refine ⟨s, run_clean .init h1 ?_, h2⟩
    intro l hl
    simp only [race, List.mem_cons, List.not_mem_nil, or_false] at hl
    rcases hl with rfl | rfl | rfl | rfl | rfl | rfl | rfl | rfl | rfl | rfl | rfl <;> exact ⟨rfl, rfl, rfl⟩

/-- The full claim of C74 about sources: whatever is returned is accurate. -/
def SourcesAccurate : Prop :=
  ∀ (w : World) (cs : List SourceConfig) (s : St), Reach w cs s → ∀ x ∈ s.insts, x.pc = .done → Accurate s.world x.cur

/-- A source whose number of partitions is not the one of its topic. -/
theorem not_accurate {w : World} {c : SourceConfig} {t : Topic} (h : w.at (srcKey c) = some t) (hne : t.parts ≠ c.numPartitions) :
    ¬ Accurate w c := by
  rintro ⟨src, com, chg, h1, _, _, h2, _⟩
  rw [h] at h1
  cases h1
  exact hne h2

/-- **C74 is violated** by instances with different configurations (as during a deployment that changes the number of partitions): both
look, both create, the second creation is refused because the topic exists, the refusal is ignored, and the second instance
goes on with 4 partitions where the topic has 8. -/
theorem C74_violated_drift : ¬ SourcesAccurate := by
  intro h
  have hd : ∃ s, run (St.init noTopics [cfg, { cfg with numPartitions := 4 }])
      [.ok 0 {}, .ok 1 {}, .ok 0 {}, .ok 1 {}, .ok 1 {}, .ok 1 {}, .ok 1 {}] = some s ∧
      s.insts[1]? = some { given := { cfg with numPartitions := 4 }, cur := { cfg with numPartitions := 4 }, pc := .done } ∧
      s.world.at (srcKey { cfg with numPartitions := 4 }) = some ⟨8, 3, 2, false, none⟩ :=
    ⟨_, rfl, by decide +kernel, by decide +kernel⟩
  obtain ⟨s, h1, h2, h3⟩ := hd
  exact not_accurate h3 (by decide) (h _ _ s (run_reach .init h1) _ (List.mem_of_getElem? h2) rfl)

/-- **C74 is violated** by a single instance if the cluster refuses to create the topic (for instance because there are fewer
brokers than replicas): the refusal is in the response, which is only logged, and a source is returned whose topic does not exist. -/
theorem C74_violated_refused : ¬ SourcesAccurate := by
  intro h
  have hd : ∃ s, run (St.init noTopics [cfg]) [.ok 0 {}, .ok 0 { refused := true }, .ok 0 {}, .ok 0 {}, .ok 0 {}] = some s ∧
      s.insts[0]? = some { given := cfg, cur := cfg, pc := .done } ∧ s.world.at (srcKey cfg) = none :=
    ⟨_, rfl, by decide +kernel, by decide +kernel⟩
  obtain ⟨s, h1, h2, h3⟩ := hd
  obtain ⟨src, _, _, h4, _⟩ := h _ _ s (run_reach .init h1) _ (List.mem_of_getElem? h2) rfl
  rw [h3] at h4
  simp at h4

/-- **C74 is violated** by a single instance if a broker reports an error for an existing topic: it is taken for missing, its creation is
refused because it exists, and the configured number of partitions is used instead of the real one. -/
theorem C74_violated_hidden : ¬ SourcesAccurate := by
  intro h
  have hd : ∃ s, run (St.init (noTopics.set (some 0) [116] (some ⟨16, 3, 2, false, none⟩)) [cfg])
      [.ok 0 { hideA := true }, .ok 0 {}, .ok 0 {}, .ok 0 {}, .ok 0 {}] = some s ∧
      s.insts[0]? = some { given := cfg, cur := cfg, pc := .done } ∧ s.world.at (srcKey cfg) = some ⟨16, 3, 2, false, none⟩ :=
    ⟨_, rfl, by decide +kernel, by decide +kernel⟩
  obtain ⟨s, h1, h2, h3⟩ := hd
  exact not_accurate h3 (by decide) (h _ _ s (run_reach .init h1) _ (List.mem_of_getElem? h2) rfl)

/-- **C74 is violated** by a single instance if the number of partitions is left at its default 0: the cluster refuses, and a source with 0
partitions is returned, without a topic. -/
theorem C74_violated_default_partitions : ¬ SourcesAccurate := by
  intro h
  have hd : ∃ s, run (St.init noTopics [{ cfg with numPartitions := 0 }]) [.ok 0 {}, .ok 0 {}, .ok 0 {}, .ok 0 {}, .ok 0 {}] = some s ∧
      s.insts[0]? = some { given := { cfg with numPartitions := 0 }, cur := { cfg with numPartitions := 0 }, pc := .done } ∧
      s.world.at (srcKey { cfg with numPartitions := 0 }) = none :=
    ⟨_, rfl, by decide +kernel, by decide +kernel⟩
  obtain ⟨s, h1, h2, h3⟩ := hd
  obtain ⟨src, _, _, h4, _⟩ := h _ _ s (run_reach .init h1) _ (List.mem_of_getElem? h2) rfl
  rw [h3] at h4
  simp at h4

/-! ### Requests -/

/-- How many requests an attempt still needs. -/
def rank : Pc → Nat
  | .list _ => 5
  | .mk _ => 4
  | .list2 _ => 3
  | .mkCommit _ _ => 2
  | .mkChange _ => 1
  | _ => 0

theorem rank_check (i : Inst) (k : Nat) (ch : Option Int) : rank (checkChange i k ch).pc ≤ 1 := by
  unfold checkChange
  split
  · split <;> simp [rank, afterErr]
  · simp [rank]

/-- **C74** (finishes). An instance that has not finished can make its next request, whatever exists, and an attempt whose requests succeed
ends after at most five. -/
theorem C74_requests (w : World) (i : Inst) (a : Ans) :
    (i.pc.attempt ≠ none → ∃ w' i', i.go w a = some (w', i') ∧ rank i'.pc < rank i.pc) ∧ rank i.pc ≤ 5 ∧
    (i.pc.attempt ≠ none ↔ 0 < rank i.pc) := by
  refine ⟨?_, ?_, ?_⟩
  · intro h
    cases hp : i.pc with
    | list k =>
      unfold Inst.go
      rw [hp]
      dsimp only
      split
      · exact ⟨_, _, rfl, by simp [rank]⟩
      · exact ⟨_, _, rfl, by simp [rank]⟩
    | mk k => unfold Inst.go; rw [hp]; exact ⟨_, _, rfl, by simp [rank]⟩
    | list2 k =>
      unfold Inst.go
      rw [hp]
      dsimp only
      split
      · exact ⟨_, _, rfl, Nat.lt_of_le_of_lt (rank_check _ _ _) (by simp [rank])⟩
      · exact ⟨_, _, rfl, by simp [rank]⟩
    | mkCommit k ch =>
      unfold Inst.go
      rw [hp]
      exact ⟨_, _, rfl, Nat.lt_of_le_of_lt (rank_check _ _ _) (by simp [rank])⟩
    | mkChange k => unfold Inst.go; rw [hp]; exact ⟨_, _, rfl, by simp [rank]⟩
    | _ => rw [hp] at h; simp [Pc.attempt] at h
  · cases i.pc <;> simp [rank]
  · cases i.pc <;> simp [rank, Pc.attempt]

/-! ### DeleteSource -/

/-- **C74** (deleted). If no request fails and nothing is refused, `DeleteSource` removes exactly the three topics. Missing: failures
are not reported, see below. -/
theorem C74_delete_partial (w : World) (c : SourceConfig) (k : Option Nat × Bytes) :
    (deleteSource w c none none false false (fun _ => false)).2 = none ∧
    (deleteSource w c none none false false (fun _ => false)).1.at k =
      if k = srcKey c ∨ k = commitKey c ∨ k = changeKey c then none else w.at k := by
  refine ⟨rfl, ?_⟩
  obtain ⟨k1, k2⟩ := k
  unfold deleteSource deleteTopics World.at srcKey commitKey changeKey
  simp only [List.mem_cons, List.not_mem_nil, or_false, and_true, Prod.mk.injEq]
  by_cases h1 : k1 = c.sourceCluster ∧ k2 = c.topic
  · simp [h1]
  · by_cases h2 : k1 = stateCluster c ∧ (k2 = commitLogTopicName c ∨ k2 = stateStoreTopicName c)
    · obtain ⟨e, e' | e'⟩ := h2 <;> simp [e, e']
    · have h3 : ¬ (k1 = stateCluster c ∧ k2 = commitLogTopicName c) := fun h => h2 ⟨h.1, .inl h.2⟩
      have h4 : ¬ (k1 = stateCluster c ∧ k2 = stateStoreTopicName c) := fun h => h2 ⟨h.1, .inr h.2⟩
      simp [h1, h2, h3, h4]

/-- Whatever fails, `DeleteSource` touches no other topic. -/
theorem C74_delete_others (w : World) (c : SourceConfig) (ca cb : Option Err) (fa fb : Bool) (r : Bytes → Bool)
    (k : Option Nat × Bytes) (h : k ≠ srcKey c ∧ k ≠ commitKey c ∧ k ≠ changeKey c) :
    (deleteSource w c ca cb fa fb r).1.at k = w.at k := by
  obtain ⟨k1, k2⟩ := k
  obtain ⟨h1, h2, h3⟩ := h
  unfold deleteSource
  cases ca with
  | some e => rfl
  | none =>
    cases cb with
    | some e => rfl
    | none =>
      unfold deleteTopics World.at
      dsimp only
      rw [if_neg, if_neg]
      · rintro ⟨rfl, hm, _⟩
        simp only [List.mem_cons, List.not_mem_nil, or_false] at hm
        subst hm; exact h1 rfl
      · rintro ⟨rfl, hm, _⟩
        simp only [List.mem_cons, List.not_mem_nil, or_false] at hm
        rcases hm with rfl | rfl
        · exact h2 rfl
        · exact h3 rfl

example : (deleteSource (noTopics.set (some 0) [116] (some ⟨8, 3, 2, false, none⟩)) cfg none none false false fun _ => false).1.at
    (srcKey cfg) = none ∧ (noTopics.set (some 0) [116] (some ⟨8, 3, 2, false, none⟩)).at (srcKey cfg) ≠ none := by decide +kernel

/-- **C74 is violated**: `DeleteSource` returns nil although the topics are still there. -/
theorem C74_violated_delete : ¬ ∀ (w : World) (c : SourceConfig) (ca cb : Option Err) (fa fb : Bool) (r : Bytes → Bool),
    (deleteSource w c ca cb fa fb r).2 = none → (deleteSource w c ca cb fa fb r).1.at (srcKey c) = none := by
  intro h
  exact absurd (h (noTopics.set (some 0) [116] (some ⟨8, 3, 2, false, none⟩)) cfg none none true true (fun _ => false) rfl)
    (by decide +kernel)

/-! ### CreateDestination -/

/-- Whatever happens, `CreateDestination` creates nothing: the request names no topic. -/
theorem createDestination_world (d : Destination) (client : Nat → Option Err) (r : Bytes → Bool) (dflt : Int) :
    ∀ (n k : Nat) (w : World) (e : Option Err), (createDestinationTop d client r dflt n k w e).1 = w := by
  intro n
  induction n with
  | zero => intros; rfl
  | succ n ih =>
    intro k w e
    unfold createDestinationTop
    have h1 : (createDestination w d (client k) r dflt).1 = w := by
      unfold createDestination
      cases client k <;> rfl
    dsimp only
    split
    · exact h1
    · rw [ih]; exact h1

/-- **C74 is violated**: for every destination and every behaviour of the clusters, `CreateDestination` leaves the clusters as they
are; in particular it returns nil without creating the topic. -/
theorem C74_violated_destination :
    (∀ (d : Destination) (client : Nat → Option Err) (r : Bytes → Bool) (dflt : Int) (w : World),
      (createDestinationTop d client r dflt 15 0 w none).1 = w) ∧
    ¬ ∀ (d : Destination) (client : Nat → Option Err) (r : Bytes → Bool) (dflt : Int) (w : World),
      (createDestinationTop d client r dflt 15 0 w none).2 = some none →
      ((createDestinationTop d client r dflt 15 0 w none).1 d.cluster d.defaultTopic).isSome := by
  refine ⟨fun d client r dflt w => createDestination_world d client r dflt 15 0 w none, ?_⟩
  intro h
  have := h (asDestination cfg) (fun _ => none) (fun _ => false) 1 noTopics rfl
  rw [createDestination_world] at this
  exact absurd this (by decide)

/-- The error that remains after `n + 1` attempts that did not panic is the one of the last of them. -/
theorem createDestination_last (d : Destination) (client : Nat → Option Err) (r : Bytes → Bool) (dflt : Int) :
    ∀ (n k : Nat) (w : World) (e : Option Err), (∀ j, k ≤ j → j ≤ k + n → client j ≠ some .other) →
      (createDestinationTop d client r dflt (n + 1) k w e).2 = some (client (k + n)) := by
  intro n
  induction n with
  | zero =>
    intro k w e h
    have hk := h k (Nat.le_refl _) (Nat.le_refl _)
    unfold createDestinationTop createDestination
    cases hc : client k with
    | none => simp [isNetworkError, createDestinationTop]
    | some x => cases x with
      | network => simp [isNetworkError, createDestinationTop]
      | other => exact absurd hc hk
  | succ n ih =>
    intro k w e h
    have hk := h k (Nat.le_refl _) (by omega)
    have hn := fun w' e' => ih (k + 1) w' e' (fun j h1 h2 => h j (by omega) (by omega))
    rw [show k + 1 + n = k + (n + 1) by omega] at hn
    rw [createDestinationTop]
    unfold createDestination
    cases hc : client k with
    | none => simpa [isNetworkError] using hn _ _
    | some x => cases x with
      | network => simpa [isNetworkError] using hn _ _
      | other => exact absurd hc hk

/-- `CreateDestination` always makes fifteen attempts and returns what the fifteenth one says: fourteen attempts that succeed do not
help when the last one fails. -/
theorem C74_destination_last_partial (d : Destination) (client : Nat → Option Err) (r : Bytes → Bool) (dflt : Int) (w : World)
    (h : ∀ j, j ≤ 14 → client j ≠ some .other) :
    (createDestinationTop d client r dflt 15 0 w none).2 = some (client 14) :=
  createDestination_last d client r dflt 14 0 w none (fun j _ h2 => h j (by omega))

example : (createDestinationTop (asDestination cfg) (fun k => if k = 14 then some .network else none) (fun _ => false) 1
    15 0 noTopics none).2 = some (some .network) := by decide +kernel

end Verif.Topics

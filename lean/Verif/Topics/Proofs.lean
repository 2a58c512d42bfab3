import Verif.Topics.Spec
import Mathlib.Tactic.Common
import Mathlib.Data.Int.Order.Basic
/-
Proofs for C74.
-/
namespace Verif.Topics
open Verif Verif.Config

theorem wrap32 {n : Int} (h : Fits n) : wrap 32 n = n := by
  unfold wrap Fits at *
  rw [Int.bmod_eq_of_le] <;> omega

/-- The fields by which the topics are named do not change. -/
structure SameKeys (g c : SourceConfig) : Prop where
  src : srcKey c = srcKey g
  commit : commitKey c = commitKey g
  change : changeKey c = changeKey g

theorem sameKeys_upd (c : SourceConfig) (a b m : Int) :
    SameKeys c { c with numPartitions := a, replicationFactor := b, commitLogPartitions := m } := ⟨rfl, rfl, rfl⟩

theorem set_same (w : World) (c : Option Nat) (n : Bytes) (t : Option Topic) : (w.set c n t) c n = t := by simp [World.set]
theorem set_ne (w : World) {c c' : Option Nat} {n n' : Bytes} (t : Option Topic) (h : (c', n') ≠ (c, n)) :
    (w.set c n t) c' n' = w c' n' := by
  unfold World.set
  rw [if_neg]
  rintro ⟨rfl, rfl⟩
  exact h rfl

/-- What creating a topic does: nothing, or one new topic with the given settings up to the default number of partitions. -/
theorem create_cases (w : World) (c : Option Nat) (n : Bytes) (t : Topic) (r : Bool) (d : Int) :
    create w c n t r d = w ∨
    (w c n = none ∧ r = false ∧ ∃ p, create w c n t r d = w.set c n (some { t with parts := p }) ∧ (t.parts ≠ -1 → p = t.parts)) := by
  unfold create
  split
  · exact .inl rfl
  · rename_i h0
    have h0 : w c n = none := by simpa using h0
    split
    · exact .inl rfl
    · rename_i hr
      split
      · exact .inr ⟨h0, by simpa using hr, d, rfl, fun h => absurd (by assumption) h⟩
      · split
        · exact .inl rfl
        · exact .inr ⟨h0, by simpa using hr, t.parts, rfl, fun _ => rfl⟩

/-- An existing topic stays. -/
theorem create_keeps {w : World} {c : Option Nat} {n : Bytes} {t : Topic} {r : Bool} {d : Int} {c' : Option Nat} {n' : Bytes}
    {t' : Topic} (h : w c' n' = some t') : create w c n t r d c' n' = some t' := by
  rcases create_cases w c n t r d with e | ⟨h0, _, p, e, _⟩
  · rw [e, h]
  · rw [e, set_ne, h]
    intro hk
    cases hk
    rw [h0] at h; simp at h

/-- Creating a topic with a proper number of partitions, which is not refused: it exists afterwards. -/
theorem create_exists (w : World) (c : Option Nat) (n : Bytes) (t : Topic) (d : Int) (h : Fits t.parts) :
    ∃ t', create w c n t false d c n = some t' ∧ (w c n = none → t' = t) := by
  unfold create
  split
  · rename_i h0
    obtain ⟨t', ht⟩ := Option.isSome_iff_exists.1 h0
    exact ⟨t', ht, fun hn => by rw [hn] at ht; simp at ht⟩
  · simp only [Bool.false_eq_true, if_false]
    unfold Fits at h
    rw [if_neg (by omega), if_neg (by omega)]
    exact ⟨t, set_same .., fun _ => rfl⟩

/-- The request an instance makes now, by what it does. -/
theorem go_world {w w' : World} {i i' : Inst} {a : Ans} (h : i.go w a = some (w', i')) :
    w' = w ∨
    (∃ k, i.pc = .mk k) ∧ w' = create w i.cur.sourceCluster i.cur.topic
        (topicSpec i.cur.numPartitions (replicationFactorConfig i.cur) (minInSyncConfig i.cur) false 100) a.refused a.dflt ∨
    (∃ k c, i.pc = .mkCommit k c) ∧ w' = create w (stateCluster i.cur) (commitLogTopicName i.cur)
        (topicSpec (commitLogPartitionsConfig i.cur) (replicationFactorConfig i.cur) (minInSyncConfig i.cur) true 90)
        a.refused a.dflt ∨
    (∃ k, i.pc = .mkChange k) ∧ w' = create w (stateCluster i.cur) (stateStoreTopicName i.cur)
        (topicSpec i.cur.numPartitions (replicationFactorConfig i.cur) (minInSyncConfig i.cur) true 50) a.refused a.dflt := by
  unfold Inst.go at h
  split at h
  · split at h <;> (cases h; exact .inl rfl)
  · rename_i k hk
    cases h; exact .inr (.inl ⟨⟨k, hk⟩, rfl⟩)
  · dsimp only at h
    split at h
    · simp only [Option.some.injEq, Prod.mk.injEq] at h; exact .inl h.1.symm
    · cases h; exact .inl rfl
  · rename_i k c hk
    simp only [Option.some.injEq, Prod.mk.injEq] at h
    exact .inr (.inr (.inl ⟨⟨k, c, hk⟩, h.1.symm⟩))
  · rename_i k hk
    cases h; exact .inr (.inr (.inr ⟨⟨k, hk⟩, rfl⟩))
  · simp at h

theorem checkChange_cur (i : Inst) (k : Nat) (c : Option Int) :
    (checkChange i k c).cur = i.cur ∧ (checkChange i k c).given = i.given := by
  unfold checkChange
  split
  · split <;> exact ⟨rfl, rfl⟩
  · exact ⟨rfl, rfl⟩

/-- What a successful request does to the configuration of the instance. -/
theorem go_inst {w w' : World} {i i' : Inst} {a : Ans} (h : i.go w a = some (w', i')) :
    i'.given = i.given ∧
    (i'.cur = i.cur ∨
      (∃ t, w i.cur.sourceCluster i.cur.topic = some t ∧
        i'.cur = { i.cur with numPartitions := t.parts, replicationFactor := t.rf }) ∨
      (∃ t, w (stateCluster i.cur) (commitLogTopicName i.cur) = some t ∧
        i'.cur = { i.cur with commitLogPartitions := t.parts })) := by
  unfold Inst.go at h
  split at h
  · split at h
    · rename_i t ht _
      cases h; exact ⟨rfl, .inr (.inl ⟨t, ht, rfl⟩)⟩
    · cases h; exact ⟨rfl, .inl rfl⟩
  · cases h; exact ⟨rfl, .inl rfl⟩
  · dsimp only at h
    split at h
    · rename_i t ht _
      simp only [Option.some.injEq, Prod.mk.injEq] at h
      rw [← h.2]
      exact ⟨(checkChange_cur _ _ _).2, .inr (.inr ⟨t, ht, (checkChange_cur _ _ _).1⟩)⟩
    · cases h; exact ⟨rfl, .inl rfl⟩
  · simp only [Option.some.injEq, Prod.mk.injEq] at h
    rw [← h.2]
    exact ⟨(checkChange_cur _ _ _).2, .inl (checkChange_cur _ _ _).1⟩
  · cases h; exact ⟨rfl, .inl rfl⟩
  · simp at h

/-- A step: one instance moves, by a request that succeeds or not. -/
theorem step_cases {s s' : St} {l : Label} (h : step s l = some s') :
    ∃ i x x', s.insts[i]? = some x ∧ s'.insts = s.insts.set i x' ∧
      ((∃ a, l = .ok i a ∧ x.go s.world a = some (s'.world, x')) ∨
       (∃ e k, l = .err i e ∧ s'.world = s.world ∧ x.pc.attempt = some k ∧ x' = { x with pc := afterErr k e }) ∨
       (∃ a k y, l = .lost i a ∧ x.go s.world a = some (s'.world, y) ∧ x.pc.attempt = some k ∧
          x' = { x with pc := afterErr k .network })) := by
  cases l with
  | ok i a =>
    simp only [step] at h
    split at h
    · rename_i x hx
      split at h
      · rename_i w x' hg
        cases h
        exact ⟨i, x, x', hx, rfl, .inl ⟨a, rfl, hg⟩⟩
      · simp at h
    · simp at h
  | err i e =>
    simp only [step] at h
    split at h
    · rename_i x hx
      split at h
      · rename_i k hk
        cases h
        exact ⟨i, x, _, hx, rfl, .inr (.inl ⟨e, k, rfl, rfl, hk, rfl⟩)⟩
      · simp at h
    · simp at h
  | lost i a =>
    simp only [step] at h
    split at h
    · rename_i x hx
      split at h
      · rename_i w y k hg hk
        cases h
        exact ⟨i, x, _, hx, rfl, .inr (.inr ⟨a, k, y, rfl, hg, hk, rfl⟩)⟩
      · simp at h
    · simp at h

/-- How the clusters change in a step: not at all, or by a request of an instance. -/
theorem step_world {s s' : St} {l : Label} (h : step s l = some s') :
    s'.world = s.world ∨ ∃ x ∈ s.insts, ∃ a x', x.go s.world a = some (s'.world, x') := by
  obtain ⟨i, x, x', hx, _, h⟩ := step_cases h
  have hm := List.mem_of_getElem? hx
  rcases h with ⟨a, _, h⟩ | ⟨e, k, _, h, _⟩ | ⟨a, k, y, _, h, _⟩
  · exact .inr ⟨x, hm, a, x', h⟩
  · exact .inl h
  · exact .inr ⟨x, hm, a, y, h⟩

theorem go_keeps {w w' : World} {i i' : Inst} {a : Ans} (h : i.go w a = some (w', i')) {c : Option Nat} {n : Bytes} {t : Topic}
    (hw : w c n = some t) : w' c n = some t := by
  rcases go_world h with e | ⟨_, e⟩ | ⟨_, e⟩ | ⟨_, e⟩ <;> rw [e]
  · exact hw
  all_goals exact create_keeps hw

theorem step_keeps {s s' : St} {l : Label} (h : step s l = some s') {c : Option Nat} {n : Bytes} {t : Topic}
    (hw : s.world c n = some t) : s'.world c n = some t := by
  rcases step_world h with e | ⟨x, _, a, x', hg⟩
  · rw [e]; exact hw
  · exact go_keeps hg hw

/-- The configuration of an instance compared with the one it was given. -/
structure Near (w : World) (x : Inst) : Prop where
  keys : SameKeys x.given x.cur
  mis : x.cur.minInSync = x.given.minInSync
  num : Resolved w x.given x.cur.numPartitions x.cur.replicationFactor
  clp : x.cur.commitLogPartitions = x.given.commitLogPartitions ∨ ∃ t, w.at (commitKey x.given) = some t

theorem SameKeys.trans {a b c : SourceConfig} (h : SameKeys a b) (h' : SameKeys b c) : SameKeys a c :=
  ⟨h'.src.trans h.src, h'.commit.trans h.commit, h'.change.trans h.change⟩

theorem near_go {w w' : World} {i i' : Inst} {a : Ans} (N : Near w i) (h : i.go w a = some (w', i')) : Near w' i' := by
  obtain ⟨hg, hc⟩ := go_inst h
  have hk : ∀ k t, w.at k = some t → w'.at k = some t := fun k t hw => go_keeps h hw
  have hsame : SameKeys i.given i'.cur := by
    rcases hc with e | ⟨t, _, e⟩ | ⟨t, _, e⟩
    · rw [e]; exact N.keys
    · rw [e]; exact N.keys.trans ⟨rfl, rfl, rfl⟩
    · rw [e]; exact N.keys.trans ⟨rfl, rfl, rfl⟩
  refine ⟨by rw [hg]; exact hsame, ?_, ?_, ?_⟩
  · rw [hg]
    rcases hc with e | ⟨t, ht, e⟩ | ⟨t, _, e⟩ <;> rw [e] <;> exact N.mis
  · rw [hg]
    rcases hc with e | ⟨t, ht, e⟩ | ⟨t, _, e⟩
    · rw [e]; exact N.num.imp id fun ⟨t, ht⟩ => ⟨t, hk _ _ ht.1, ht.2⟩
    · rw [e]
      refine .inr ⟨t, hk _ _ ?_, rfl, rfl⟩
      rw [← N.keys.src]; exact ht
    · rw [e]; exact N.num.imp id fun ⟨t, ht⟩ => ⟨t, hk _ _ ht.1, ht.2⟩
  · rw [hg]
    rcases hc with e | ⟨t, _, e⟩ | ⟨t, ht, e⟩
    · rw [e]; exact N.clp.imp id fun ⟨t, ht⟩ => ⟨t, hk _ _ ht⟩
    · rw [e]; exact N.clp.imp id fun ⟨t, ht⟩ => ⟨t, hk _ _ ht⟩
    · refine .inr ⟨t, hk _ _ ?_⟩
      rw [← N.keys.commit]; exact ht

theorem Near.mono {w w' : World} {x : Inst} (N : Near w x) (h : ∀ k t, w.at k = some t → w'.at k = some t) : Near w' x :=
  ⟨N.keys, N.mis, N.num.imp id fun ⟨t, ht⟩ => ⟨t, h _ _ ht.1, ht.2⟩, N.clp.imp id fun ⟨t, ht⟩ => ⟨t, h _ _ ht⟩⟩

theorem mem_set_cases {α : Type} {l : List α} {i : Nat} {x y : α} (h : y ∈ l.set i x) : y = x ∨ y ∈ l :=
  (List.mem_or_eq_of_mem_set h).symm

theorem near_reach {w : World} {cs : List SourceConfig} {s : St} (h : Reach w cs s) : ∀ x ∈ s.insts, Near s.world x := by
  induction h with
  | init =>
    intro x hx
    simp only [St.init, List.mem_map] at hx
    obtain ⟨c, _, rfl⟩ := hx
    exact ⟨⟨rfl, rfl, rfl⟩, rfl, .inl ⟨rfl, rfl⟩, .inl rfl⟩
  | @step s s' l _ hs ih =>
    have hk : ∀ k t, s.world.at k = some t → s'.world.at k = some t := fun k t hw => step_keeps hs hw
    obtain ⟨i, x, x', hx, he, hc⟩ := step_cases hs
    have hm := List.mem_of_getElem? hx
    intro y hy
    rw [he] at hy
    rcases mem_set_cases hy with rfl | hy
    · rcases hc with ⟨a, _, h⟩ | ⟨e, k, _, h, _, rfl⟩ | ⟨a, k, z, _, h, _, rfl⟩
      · exact near_go (ih x hm) h
      · have := (ih x hm).mono hk
        exact ⟨this.keys, this.mis, this.num, this.clp⟩
      · have := (ih x hm).mono hk
        exact ⟨this.keys, this.mis, this.num, this.clp⟩
    · exact (ih y hy).mono hk

theorem given_reach {w : World} {cs : List SourceConfig} {s : St} (h : Reach w cs s) : s.insts.map Inst.given = cs := by
  induction h with
  | init => simp [St.init, Inst.start, Function.comp_def]
  | @step s s' l _ hs ih =>
    obtain ⟨i, x, x', hx, he, hc⟩ := step_cases hs
    have hg : x'.given = x.given := by
      rcases hc with ⟨a, _, h⟩ | ⟨e, k, _, h, _, rfl⟩ | ⟨a, k, z, _, h, _, rfl⟩
      · exact (go_inst h).1
      · rfl
      · rfl
    rw [he, List.map_set, hg, ← ih]
    apply List.ext_getElem?
    intro j
    by_cases e : j = i
    · subst e
      rw [List.getElem?_set_self (by rw [List.length_map]; exact (List.getElem?_eq_some_iff.1 hx).1), List.getElem?_map, hx]; rfl
    · rw [List.getElem?_set_ne (fun h => e h.symm)]

/-! ### Instances with the same configuration -/

section
variable (c : SourceConfig) (w0 : World)

/-- The number of partitions that the source topic has or will have. -/
def nStar : Int := match w0.at (srcKey c) with | some t => t.parts | none => c.numPartitions

/-- The number of partitions that the commit log has or will have. -/
def mStar : Int := match w0.at (commitKey c) with | some t => t.parts | none => commitLogPartitionsConfig c

/-- The clusters while such instances start. -/
structure WInv (w : World) : Prop where
  keep : ∀ k t, w0.at k = some t → w.at k = some t
  src : ∀ t, w.at (srcKey c) = some t → t.parts = nStar c w0
  commit : ∀ t, w.at (commitKey c) = some t → t.parts = mStar c w0
  change : ∀ t, w.at (changeKey c) = some t → w0.at (changeKey c) = none → t.parts = nStar c w0

/-- The topic exists. -/
def World.has (w : World) (k : Option Nat × Bytes) : Prop := ∃ t, w.at k = some t

/-- What is known about an instance, depending on where it is. -/
def Stage (w : World) (x : Inst) : Prop :=
  match x.pc with
  | .mk _ => w0.at (srcKey c) = none
  | .list2 _ => w.has (srcKey c) ∧ x.cur.numPartitions = nStar c w0
  | .mkCommit _ ch => w.has (srcKey c) ∧ x.cur.numPartitions = nStar c w0 ∧ w0.at (commitKey c) = none ∧
      (ch = none → w0.at (changeKey c) = none) ∧ ∀ n, ch = some n → ∃ t, w.at (changeKey c) = some t ∧ t.parts = n
  | .mkChange _ => w.has (srcKey c) ∧ x.cur.numPartitions = nStar c w0 ∧ w.has (commitKey c) ∧
      commitLogPartitionsConfig x.cur = mStar c w0 ∧ w0.at (changeKey c) = none
  | .done => w.has (srcKey c) ∧ x.cur.numPartitions = nStar c w0 ∧ w.has (commitKey c) ∧
      commitLogPartitionsConfig x.cur = mStar c w0 ∧ ∃ t, w.at (changeKey c) = some t ∧ t.parts = nStar c w0
  | _ => True

structure XInv (w : World) (x : Inst) : Prop where
  keys : SameKeys c x.cur
  num : x.cur.numPartitions = c.numPartitions ∨ (x.cur.numPartitions = nStar c w0 ∧ w.has (srcKey c))
  clp : x.cur.commitLogPartitions = c.commitLogPartitions ∨ x.cur.commitLogPartitions = mStar c w0
  stage : Stage c w0 w x

variable {c w0}

theorem has_mono {w w' : World} (h : ∀ k t, w.at k = some t → w'.at k = some t) {k : Option Nat × Bytes} (hk : w.has k) : w'.has k :=
  hk.imp fun t ht => h k t ht

theorem xinv_mono {w w' : World} (h : ∀ k t, w.at k = some t → w'.at k = some t) {x : Inst} (X : XInv c w0 w x) : XInv c w0 w' x := by
  refine ⟨X.keys, X.num.imp id (And.imp id (has_mono h)), X.clp, ?_⟩
  have := X.stage
  unfold Stage at this ⊢
  split
  · rename_i hp; rw [hp] at this; exact this
  · rename_i hp; rw [hp] at this; exact ⟨has_mono h this.1, this.2⟩
  · rename_i hp; rw [hp] at this
    obtain ⟨h1, h2, h3, h4, h5⟩ := this
    exact ⟨has_mono h h1, h2, h3, h4, fun n hn => (h5 n hn).imp fun t ht => ⟨h _ _ ht.1, ht.2⟩⟩
  · rename_i hp; rw [hp] at this; exact ⟨has_mono h this.1, this.2.1, has_mono h this.2.2.1, this.2.2.2⟩
  · rename_i hp; rw [hp] at this
    obtain ⟨h1, h2, h3, h5, t, h4⟩ := this
    exact ⟨has_mono h h1, h2, has_mono h h3, h5, t, h _ _ h4.1, h4.2⟩
  · trivial

/-- One topic is added to the clusters. -/
theorem winv_create {w : World} (W : WInv c w0 w) {k : Option Nat × Bytes} {t : Topic} {d : Int} (hf : Fits t.parts)
    (h1 : k = srcKey c → t.parts = nStar c w0) (h2 : k = commitKey c → t.parts = mStar c w0)
    (h3 : k = changeKey c → t.parts = nStar c w0) : WInv c w0 (create w k.1 k.2 t false d) := by
  rcases create_cases w k.1 k.2 t false d with e | ⟨h0, _, p, e, hp⟩
  · rw [e]; exact W
  · have hp : p = t.parts := hp (by have := hf.1; omega)
    subst hp
    have hat : ∀ k' t', (w.set k.1 k.2 (some { t with parts := t.parts })).at k' = some t' →
        (k' = k ∧ t' = t) ∨ w.at k' = some t' := by
      intro k' t' h
      unfold World.at World.set at h
      split at h
      · rename_i hk
        cases h
        exact .inl ⟨Prod.ext hk.1 hk.2, rfl⟩
      · exact .inr h
    refine ⟨fun k' t' h => create_keeps (W.keep k' t' h), ?_, ?_, ?_⟩
    · intro t' h; rw [e] at h
      rcases hat _ _ h with ⟨hk, rfl⟩ | h
      · exact h1 hk.symm
      · exact W.src t' h
    · intro t' h; rw [e] at h
      rcases hat _ _ h with ⟨hk, rfl⟩ | h
      · exact h2 hk.symm
      · exact W.commit t' h
    · intro t' h hn; rw [e] at h
      rcases hat _ _ h with ⟨hk, rfl⟩ | h
      · exact h3 hk.symm
      · exact W.change t' h hn

/-- The commit log will have, or has, what the instance computes once it has looked. -/
theorem clpc_mStar (hm : 0 < mStar c w0) {x : Inst} (h : x.cur.commitLogPartitions = mStar c w0) :
    commitLogPartitionsConfig x.cur = mStar c w0 := by
  unfold commitLogPartitionsConfig
  rw [h, if_neg (by omega)]

theorem clpc_given {x : Inst} (h : x.cur.commitLogPartitions = c.commitLogPartitions) :
    commitLogPartitionsConfig x.cur = commitLogPartitionsConfig c := by
  unfold commitLogPartitionsConfig
  rw [h]

/-- After the change log was looked for. -/
theorem stage_check {w : World} {x : Inst} {k : Nat} {ch : Option Int} (h1 : w.has (srcKey c))
    (h2 : x.cur.numPartitions = nStar c w0) (h3 : w.has (commitKey c)) (h4 : commitLogPartitionsConfig x.cur = mStar c w0)
    (h5 : ch = none → w0.at (changeKey c) = none) (h6 : ∀ n, ch = some n → ∃ t, w.at (changeKey c) = some t ∧ t.parts = n) :
    Stage c w0 w (checkChange x k ch) := by
  unfold checkChange
  split
  · rename_i n
    split
    · simp [Stage, afterErr]
    · rename_i hn
      have hn : n = x.cur.numPartitions := by simpa using hn
      obtain ⟨t, ht, hp⟩ := h6 n rfl
      exact ⟨h1, h2, h3, h4, t, ht, by rw [hp, hn, h2]⟩
  · exact ⟨h1, h2, h3, h4, h5 rfl⟩

theorem clean_go (hd : Distinct c) (hn : Fits (nStar c w0)) (hm : Fits (mStar c w0)) {w w' : World} {i i' : Inst} {a : Ans}
    (W : WInv c w0 w) (X : XInv c w0 w i) (ha : a.clean) (h : i.go w a = some (w', i')) : WInv c w0 w' ∧ XInv c w0 w' i' := by
  have hkeep : ∀ k t, w.at k = some t → w'.at k = some t := fun k t hw => go_keeps h hw
  obtain ⟨ha1, ha2, ha3⟩ := ha
  obtain ⟨hd1, hd2, hd3⟩ := hd
  have habs : ∀ k, w.at k = none → w0.at k = none := by
    intro k hk
    cases h0 : w0.at k with
    | none => rfl
    | some t => rw [W.keep k t h0] at hk; simp at hk
  have ksrc : w i.cur.sourceCluster i.cur.topic = w.at (srcKey c) := by rw [← X.keys.src]; rfl
  have kcom : w (stateCluster i.cur) (commitLogTopicName i.cur) = w.at (commitKey c) := by rw [← X.keys.commit]; rfl
  have kchg : w (stateCluster i.cur) (stateStoreTopicName i.cur) = w.at (changeKey c) := by rw [← X.keys.change]; rfl
  have hclp : w0.at (commitKey c) = none → commitLogPartitionsConfig i.cur = mStar c w0 := by
    intro h0
    rcases X.clp with e | e
    · rw [clpc_given e]; unfold mStar; rw [h0]
    · exact clpc_mStar hm.1 e
  have hnum : w0.at (srcKey c) = none → i.cur.numPartitions = nStar c w0 := by
    intro h0
    rcases X.num with e | e
    · rw [e]; unfold nStar; rw [h0]
    · exact e.1
  unfold Inst.go at h
  split at h
  · -- list
    rename_i k hk
    split at h
    · rename_i t ht _
      cases h
      rw [ksrc] at ht
      refine ⟨W, ⟨X.keys.trans ⟨rfl, rfl, rfl⟩, .inr ⟨W.src t ht, t, ht⟩, X.clp, ?_⟩⟩
      exact ⟨⟨t, ht⟩, W.src t ht⟩
    · rename_i hno
      cases h
      refine ⟨W, ⟨X.keys, X.num, X.clp, ?_⟩⟩
      refine habs _ ?_
      rw [ksrc] at hno
      cases hx : w.at (srcKey c) with
      | none => rfl
      | some t => exact absurd ha1 (hno t hx)
  · -- mk
    rename_i k hk
    have h0 : w0.at (srcKey c) = none := by simpa [Stage, hk] using X.stage
    have hnn := hnum h0
    simp only [Option.some.injEq, Prod.mk.injEq] at h
    obtain ⟨hw', hi'⟩ := h
    subst hi'
    rw [ha3] at hw'
    have hsp : (topicSpec i.cur.numPartitions (replicationFactorConfig i.cur) (minInSyncConfig i.cur) false 100).parts = nStar c w0 := by
      unfold topicSpec; dsimp only; rw [hnn]; exact wrap32 hn
    have hkk : (i.cur.sourceCluster, i.cur.topic) = srcKey c := X.keys.src
    have hW : WInv c w0 w' := by
      rw [← hw']
      refine winv_create (k := (i.cur.sourceCluster, i.cur.topic)) W (by rw [hsp]; exact hn) (fun _ => hsp) ?_ ?_
      · intro e; rw [hkk] at e; exact absurd e hd1
      · intro e; rw [hkk] at e; exact absurd e hd2
    have hex : w'.has (srcKey c) := by
      obtain ⟨t, ht, _⟩ := create_exists w i.cur.sourceCluster i.cur.topic
        (topicSpec i.cur.numPartitions (replicationFactorConfig i.cur) (minInSyncConfig i.cur) false 100) a.dflt (by rw [hsp]; exact hn)
      rw [hw'] at ht
      exact ⟨t, by rw [← X.keys.src]; exact ht⟩
    exact ⟨hW, ⟨X.keys, .inr ⟨hnn, hex⟩, X.clp, hex, hnn⟩⟩
  · -- list2
    rename_i k hk
    have hst2 : w.has (srcKey c) ∧ i.cur.numPartitions = nStar c w0 := by simpa [Stage, hk] using X.stage
    dsimp only at h
    rw [ha2] at h
    simp only [Bool.false_eq_true, if_false] at h
    have hch1 : ((w (stateCluster i.cur) (stateStoreTopicName i.cur)).map Topic.parts) = none → w0.at (changeKey c) = none := by
      intro e
      apply habs
      rw [kchg] at e
      simpa using e
    have hch2 : ∀ n, ((w (stateCluster i.cur) (stateStoreTopicName i.cur)).map Topic.parts) = some n →
        ∃ t, w.at (changeKey c) = some t ∧ t.parts = n := by
      intro n e
      rw [kchg] at e
      simpa using e
    split at h
    · rename_i t ht _
      simp only [Option.some.injEq, Prod.mk.injEq] at h
      obtain ⟨rfl, hi'⟩ := h
      rw [kcom] at ht
      have htm := W.commit t ht
      have hcc := checkChange_cur { i with cur := { i.cur with commitLogPartitions := t.parts } } k
        ((w (stateCluster i.cur) (stateStoreTopicName i.cur)).map Topic.parts)
      rw [hi'] at hcc
      refine ⟨W, ⟨?_, ?_, ?_, ?_⟩⟩
      · rw [hcc.1]; exact X.keys.trans ⟨rfl, rfl, rfl⟩
      · rw [hcc.1]; exact X.num
      · rw [hcc.1]; exact .inr htm
      · rw [← hi']
        refine stage_check hst2.1 hst2.2 ⟨t, ht⟩ ?_ hch1 hch2
        exact clpc_mStar (x := { i with cur := { i.cur with commitLogPartitions := t.parts } }) hm.1 htm
    · rename_i hno
      cases h
      refine ⟨W, ⟨X.keys, X.num, X.clp, ?_⟩⟩
      refine ⟨hst2.1, hst2.2, habs _ ?_, hch1, hch2⟩
      rw [kcom] at hno
      cases hx : w.at (commitKey c) with
      | none => rfl
      | some t => exact absurd ha1 (hno t hx)
  · -- mkCommit
    rename_i k ch hk
    have hst2 : w.has (srcKey c) ∧ i.cur.numPartitions = nStar c w0 ∧ w0.at (commitKey c) = none ∧
        (ch = none → w0.at (changeKey c) = none) ∧ ∀ n, ch = some n → ∃ t, w.at (changeKey c) = some t ∧ t.parts = n := by
      have := X.stage; unfold Stage at this; rw [hk] at this; exact this
    obtain ⟨q1, q2, q3, q4, q5⟩ := hst2
    have hcl := hclp q3
    simp only [Option.some.injEq, Prod.mk.injEq] at h
    obtain ⟨hw', hi'⟩ := h
    rw [ha3] at hw'
    have hsp : (topicSpec (commitLogPartitionsConfig i.cur) (replicationFactorConfig i.cur) (minInSyncConfig i.cur) true 90).parts = mStar c w0 := by
      unfold topicSpec; dsimp only; rw [hcl]; exact wrap32 hm
    have hkk : (stateCluster i.cur, commitLogTopicName i.cur) = commitKey c := X.keys.commit
    have hW : WInv c w0 w' := by
      rw [← hw']
      refine winv_create (k := (stateCluster i.cur, commitLogTopicName i.cur)) W (by rw [hsp]; exact hm) ?_ (fun _ => hsp) ?_
      · intro e; rw [hkk] at e; exact absurd e.symm hd1
      · intro e; rw [hkk] at e; exact absurd e hd3
    have hex : w'.has (commitKey c) := by
      obtain ⟨t, ht, _⟩ := create_exists w (stateCluster i.cur) (commitLogTopicName i.cur)
        (topicSpec (commitLogPartitionsConfig i.cur) (replicationFactorConfig i.cur) (minInSyncConfig i.cur) true 90) a.dflt (by rw [hsp]; exact hm)
      rw [hw'] at ht
      exact ⟨t, by rw [← X.keys.commit]; exact ht⟩
    have hcc := checkChange_cur i k ch
    rw [hi'] at hcc
    refine ⟨hW, ⟨by rw [hcc.1]; exact X.keys, by rw [hcc.1]; exact X.num.imp id (And.imp id (has_mono hkeep)),
      by rw [hcc.1]; exact X.clp, ?_⟩⟩
    rw [← hi']
    exact stage_check (has_mono hkeep q1) q2 hex hcl q4 fun n hn => (q5 n hn).imp fun t ht => ⟨hkeep _ _ ht.1, ht.2⟩
  · -- mkChange
    rename_i k hk
    have hst2 : w.has (srcKey c) ∧ i.cur.numPartitions = nStar c w0 ∧ w.has (commitKey c) ∧
        commitLogPartitionsConfig i.cur = mStar c w0 ∧ w0.at (changeKey c) = none := by
      have := X.stage; unfold Stage at this; rw [hk] at this; exact this
    obtain ⟨q1, q2, q3, q4, q5⟩ := hst2
    simp only [Option.some.injEq, Prod.mk.injEq] at h
    obtain ⟨hw', hi'⟩ := h
    subst hi'
    rw [ha3] at hw'
    have hsp : (topicSpec i.cur.numPartitions (replicationFactorConfig i.cur) (minInSyncConfig i.cur) true 50).parts = nStar c w0 := by
      unfold topicSpec; dsimp only; rw [q2]; exact wrap32 hn
    have hkk : (stateCluster i.cur, stateStoreTopicName i.cur) = changeKey c := X.keys.change
    have hW : WInv c w0 w' := by
      rw [← hw']
      refine winv_create (k := (stateCluster i.cur, stateStoreTopicName i.cur)) W (by rw [hsp]; exact hn) ?_ ?_ (fun _ => hsp)
      · intro e; rw [hkk] at e; exact absurd e.symm hd2
      · intro e; rw [hkk] at e; exact absurd e.symm hd3
    have hex : w'.has (changeKey c) := by
      obtain ⟨t, ht, _⟩ := create_exists w (stateCluster i.cur) (stateStoreTopicName i.cur)
        (topicSpec i.cur.numPartitions (replicationFactorConfig i.cur) (minInSyncConfig i.cur) true 50) a.dflt (by rw [hsp]; exact hn)
      rw [hw'] at ht
      exact ⟨t, by rw [← X.keys.change]; exact ht⟩
    obtain ⟨t, ht⟩ := hex
    exact ⟨hW, ⟨X.keys, X.num.imp id (And.imp id (has_mono hkeep)), X.clp, has_mono hkeep q1, q2, has_mono hkeep q3, q4,
      t, ht, hW.change t ht q5⟩⟩
  · simp at h

theorem clean_reach {cs : List SourceConfig} (hcs : ∀ x ∈ cs, x = c) (hd : Distinct c) (hn : Fits (nStar c w0))
    (hm : Fits (mStar c w0)) {s : St} (h : CleanReach w0 cs s) : WInv c w0 s.world ∧ ∀ x ∈ s.insts, XInv c w0 s.world x := by
  induction h with
  | init =>
    refine ⟨⟨fun _ _ h => h, ?_, ?_, ?_⟩, ?_⟩
    · intro t ht; unfold nStar; rw [show w0.at (srcKey c) = some t from ht]
    · intro t ht; unfold mStar; rw [show w0.at (commitKey c) = some t from ht]
    · intro t ht hn; rw [show w0.at (changeKey c) = some t from ht] at hn; simp at hn
    · intro x hx
      simp only [St.init, List.mem_map] at hx
      obtain ⟨c', hc', rfl⟩ := hx
      have := hcs c' hc'; subst this
      refine ⟨⟨rfl, rfl, rfl⟩, .inl rfl, .inl rfl, ?_⟩
      unfold Stage Inst.start
      by_cases hh : c'.groupId.length = 0 ∨ c'.topic.length = 0 ∨ c'.sourceCluster = none
      · simp only [hh, if_true]
      · simp only [hh, if_false]
  | @step s s' l _ hl hs ih =>
    obtain ⟨W, X⟩ := ih
    have hk : ∀ k t, s.world.at k = some t → s'.world.at k = some t := fun k t hw => step_keeps hs hw
    obtain ⟨i, x, x', hx, he, hc⟩ := step_cases hs
    have hm' := List.mem_of_getElem? hx
    have hbad : ∀ k e, XInv c w0 s'.world { x with pc := afterErr k e } := by
      intro k e
      have := xinv_mono hk (X x hm')
      refine ⟨this.keys, this.num, this.clp, ?_⟩
      unfold Stage afterErr
      cases e with
      | network =>
        by_cases hh : k + 1 < 15
        · simp only [hh, if_true]
        · simp only [hh, if_false]
      | other => trivial
    have hall : WInv c w0 s'.world ∧ XInv c w0 s'.world x' := by
      rcases hc with ⟨a, rfl, h⟩ | ⟨e, k, _, h, _, rfl⟩ | ⟨a, k, z, rfl, h, _, rfl⟩
      · exact clean_go hd hn hm W (X x hm') hl h
      · exact ⟨by rw [h]; exact W, hbad k e⟩
      · exact ⟨(clean_go hd hn hm W (X x hm') hl h).1, hbad k .network⟩
    refine ⟨hall.1, ?_⟩
    intro y hy
    rw [he] at hy
    rcases mem_set_cases hy with rfl | hy
    · exact hall.2
    · exact xinv_mono hk (X y hy)

end

end Verif.Topics

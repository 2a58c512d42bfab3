import Verif.Observe.Proofs
/-
C70 (partition callbacks), C71 (no fetching while the store is being filled). Model: `Verif/Observe/Model.lean`; every statement is about the trace of callbacks,
worker steps, handler calls and fetches, at every position.
-/
namespace Verif.Props.Observe
open Verif.Observe

/-- Everything the traces of a run satisfy position by position (`Verif/Observe/Spec.lean`), as a property of a list of events. -/
def Ordered (tr : List Ev) : Prop := ∀ (a b : List Ev) (e : Ev), tr = a ++ e :: b → before a e

theorem Ordered.mem {tr : List Ev} (h : Ordered tr) {e : Ev} (he : e ∈ tr) : ∃ a b, tr = a ++ e :: b ∧ before a e := by
  obtain ⟨a, b, hab⟩ := List.append_of_mem he
  exact ⟨a, b, hab, h a b e hab⟩

theorem Ordered.left {a b : List Ev} (h : Ordered (a ++ b)) : Ordered a := by
  intro x y e hxy
  exact h x (y ++ b) e (by rw [hxy]; simp)

theorem Ordered.created_of_paused {tr : List Ev} (h : Ordered tr) {w p : Nat} (he : Ev.paused w p ∈ tr) : Ev.created w p ∈ tr := by
  obtain ⟨a, b, hab, hb⟩ := h.mem he
  rw [hab]; exact List.mem_append_left _ hb.1

theorem Ordered.paused_of_synced {tr : List Ev} (h : Ordered tr) {w p : Nat} (he : Ev.synced w p ∈ tr) : Ev.paused w p ∈ tr := by
  obtain ⟨a, b, hab, hb⟩ := h.mem he
  rw [hab]; exact List.mem_append_left _ hb

theorem Ordered.synced_of_resumed {tr : List Ev} (h : Ordered tr) {w p : Nat} (he : Ev.resumed w p ∈ tr) : Ev.synced w p ∈ tr := by
  obtain ⟨a, b, hab, hb⟩ := h.mem he
  rw [hab]; exact List.mem_append_left _ hb

theorem Ordered.synced_of_activated {tr : List Ev} (h : Ordered tr) {w p : Nat} (he : Ev.activated w p ∈ tr) : Ev.synced w p ∈ tr := by
  obtain ⟨a, b, hab, hb⟩ := h.mem he
  rw [hab]; exact List.mem_append_left _ hb.1

theorem count_snoc (e f : Ev) (tr : List Ev) : (tr ++ [e]).count f = tr.count f + if e = f then 1 else 0 := by
  rw [List.count_append, List.count_singleton]
  simp

theorem Ordered.starts_le {tr : List Ev} (h : Ordered tr) (w p : Nat) : tr.count (.started w p) ≤ tr.count (.grant w p) := by
  induction tr using List.reverseRecOn with
  | nil => simp
  | append_singleton tr e ih =>
    have := ih h.left
    have hb := h tr [] e rfl
    rw [count_snoc, count_snoc]
    by_cases he : e = .started w p
    · subst he
      have := hb.2
      simp
      omega
    · rw [if_neg he]; omega

/-! ### C70 -/

/-- **C70** when `OnPartitionAssigned` is called the partition has a worker that was not told to stop. -/
theorem C70_assigned {s : St} (hr : Reach s) {a b : List Ev} {p : Nat} (h : s.trace = a ++ .assigned p :: b) : ∃ w, Ev.created w p ∈ a ∧ Ev.cut w p ∉ a :=
  before_all hr a b _ h

/-- **C70** `OnPartitionActivated` is called at most once per worker, after its store was filled and its partition
resumed, and before any of its handlers is called. -/
theorem C70_activated {s : St} (hr : Reach s) {w p : Nat} :
    (∀ a b, s.trace = a ++ .activated w p :: b → Ev.created w p ∈ a ∧ Ev.synced w p ∈ a ∧ Ev.resumed w p ∈ a ∧ Ev.activated w p ∉ a ∧ Ev.activated w p ∉ b) ∧
    ∀ a b, s.trace = a ++ .started w p :: b → Ev.activated w p ∈ a ∧ Ev.synced w p ∈ a := by
  have ho : Ordered s.trace := before_all hr
  constructor
  · intro a b h
    obtain ⟨h1, h2⟩ := before_all hr a b _ h
    have hl : Ordered a := by rw [h] at ho; exact ho.left
    refine ⟨hl.created_of_paused (hl.paused_of_synced h1), h1, activated_resumed hr a b w p h, h2, ?_⟩
    intro hb
    obtain ⟨x, y, hxy⟩ := List.append_of_mem hb
    have := before_all hr (a ++ .activated w p :: x) y (.activated w p) (by rw [h, hxy]; simp)
    exact this.2 (by simp)
  · intro a b h
    have h1 := (before_all hr a b _ h).1
    have hl : Ordered a := by rw [h] at ho; exact ho.left
    exact ⟨h1, hl.synced_of_activated h1⟩

/-- **C70** a worker is told to stop only after an `OnPartitionWillRevoke` of its own, `OnPartitionRevoked` is called only after an `OnPartitionWillRevoke` of its
own and after all workers of the partition were told to stop, and at most one worker of a partition was not told to stop. -/
theorem C70_revoked {s : St} (hr : Reach s) {p : Nat} :
    (∀ a b w, s.trace = a ++ .cut w p :: b → cuts p a < a.count (.will p)) ∧
    (∀ a b, s.trace = a ++ .revoked p :: b → a.count (.revoked p) < a.count (.will p) ∧ ∀ w, Ev.created w p ∈ a → Ev.cut w p ∈ a) ∧
    ∀ v w, Ev.created v p ∈ s.trace → Ev.cut v p ∉ s.trace → Ev.created w p ∈ s.trace → Ev.cut w p ∉ s.trace → v = w := by
  refine ⟨fun a b w h => (before_all hr a b _ h).2.2, fun a b h => before_all hr a b _ h, ?_⟩
  have key : ∀ v w a b, s.trace = a ++ Ev.created w p :: b → Ev.created v p ∈ a → Ev.cut v p ∉ s.trace → False := by
    intro v w a b h hv hc
    have := (before_all hr a b _ h v hv).2
    exact hc (by rw [h]; exact List.mem_append_left _ this)
  intro v w hv hvc hw hwc
  obtain ⟨a, b, hab⟩ := List.append_of_mem hv
  rw [hab] at hw
  rcases List.mem_append.1 hw with h | h
  · exact absurd (key w v a b hab h hwc) id
  · rcases List.mem_cons.1 h with h | h
    · cases h; rfl
    · obtain ⟨x, y, hxy⟩ := List.append_of_mem h
      exact absurd (key v w (a ++ .created v p :: x) y (by rw [hab, hxy]; simp) (by simp) hvc) id

/-- **C70** whenever no assignment or revocation is under way, each partition has been told `OnPartitionWillRevoke` and `OnPartitionRevoked` equally often. -/
theorem C70_paired {s : St} (hr : Reach s) (h : s.op = none) (p : Nat) : s.trace.count (.will p) = s.trace.count (.revoked p) := by
  have := (inv_reach hr).told p
  rw [h] at this
  simpa [owed] using this

/-- **C70 (partial)** after a worker was told to stop (so after `OnPartitionRevoked`, `C70_revoked`) none of its events gets a producer, and its handler is called
for no more events than had one. Missing: that no handler is called at all after `OnPartitionRevoked`; see `C70_violated_handler_after_revoked`. -/
theorem C70_stopped_partial {s : St} (hr : Reach s) {w p : Nat} {a b : List Ev} (h : s.trace = a ++ .cut w p :: b) :
    Ev.grant w p ∉ b ∧ Ev.cut w p ∉ b ∧ a.count (.started w p) + b.count (.started w p) ≤ a.count (.grant w p) := by
  have ho : Ordered s.trace := before_all hr
  have hg : Ev.grant w p ∉ b := by
    intro hb
    obtain ⟨x, y, hxy⟩ := List.append_of_mem hb
    have := before_all hr (a ++ .cut w p :: x) y (.grant w p) (by rw [h, hxy]; simp)
    exact this.2 (by simp)
  have hc : Ev.cut w p ∉ b := by
    intro hb
    obtain ⟨x, y, hxy⟩ := List.append_of_mem hb
    have := before_all hr (a ++ .cut w p :: x) y (.cut w p) (by rw [h, hxy]; simp)
    exact this.2.1 (by simp)
  refine ⟨hg, hc, ?_⟩
  have := ho.starts_le w p
  rw [h] at this
  simp only [List.count_append, List.count_cons, List.count_eq_zero.2 hg] at this
  simpa using this

/-- **C70 is violated**: a partition can be activated although `OnPartitionAssigned` was not called yet ("a previously assigned partition"): the goroutine of the
worker runs while `assignPartitions` is still making the workers of other partitions. -/
theorem C70_violated_activated_before_assigned : ∃ s a b, run St.init [.assign [0, 1], .next, .pause 0, .sync 0, .resume 0, .activate 0, .next, .next, .next] = some s ∧
    s.trace = a ++ Ev.activated 0 0 :: b ∧ Ev.assigned 0 ∉ a ∧ Ev.assigned 0 ∈ b :=
  ⟨_, [.created 0 0, .paused 0 0, .synced 0 0, .resumed 0 0], [.created 1 1, .assigned 0], rfl, by decide, by decide, by decide⟩

/-- **C70 is violated**: a partition can be activated after it was revoked, if the revocation comes while its store is being filled. -/
theorem C70_violated_activated_after_revoked : ∃ s a b, run St.init
      [.assign [0], .next, .next, .next, .next, .pause 0, .revoke [0], .next, .next, .next, .next, .next, .sync 0, .resume 0, .activate 0] = some s ∧
    s.op = none ∧ s.trace = a ++ Ev.activated 0 0 :: b ∧ Ev.revoked 0 ∈ a :=
  ⟨_, [.created 0 0, .assigned 0, .paused 0 0, .will 0, .cut 0 0, .revoked 0, .synced 0 0, .resumed 0 0], [], rfl, rfl, by decide, by decide⟩

/-- **C70 is violated**: `OnPartitionRevoked` is called although a handler of the partition is still running and another one is called afterwards ("invoked after
GKES has stopped processing"). -/
theorem C70_violated_handler_after_revoked : ∃ s a b c, run St.init
      [.assign [0], .next, .next, .next, .next, .pause 0, .sync 0, .resume 0, .activate 0, .grant 0, .grant 0, .start 0, .revoke [0], .next, .next, .next, .next, .next,
       .finish 0, .start 0, .finish 0, .stop 0] = some s ∧
    s.trace = a ++ Ev.started 0 0 :: (b ++ Ev.finished 0 0 :: Ev.started 0 0 :: c) ∧ Ev.finished 0 0 ∉ a ++ b ∧ Ev.revoked 0 ∈ b :=
  ⟨_, [.created 0 0, .assigned 0, .paused 0 0, .synced 0 0, .resumed 0 0, .activated 0 0, .grant 0 0, .grant 0 0], [.will 0, .cut 0 0, .revoked 0], [.finished 0 0], rfl,
   by decide, by decide, by decide⟩

/-! ### C71 -/

/-- The last pause or resume decides. -/
theorem resumed_between {p : Nat} {a b : List Ev} (h : pausedIn p (a ++ b) = false) (ha : pausedIn p a = true) : ∃ w, Ev.resumed w p ∈ b := by
  induction b using List.reverseRecOn with
  | nil => rw [List.append_nil] at h; rw [h] at ha; cases ha
  | append_singleton b e ih =>
    by_cases hb : pausedIn p (a ++ b) = false
    · obtain ⟨w, hw⟩ := ih hb
      exact ⟨w, List.mem_append_left _ hw⟩
    · rw [← List.append_assoc, pausedIn_snoc] at h
      cases e with
      | resumed w q =>
        by_cases hq : q = p
        · subst hq; exact ⟨w, by simp⟩
        · simp [hq] at h; exact absurd h hb
      | paused w q =>
        by_cases hq : q = p
        · simp [hq] at h
        · simp [hq] at h; exact absurd h hb
      | _ => exact absurd h hb

/-- **C71 (partial)** after a worker paused its partition, records of it are fetched only after some worker of the partition whose store was filled has resumed it.
Missing: that this was the worker which will get the records; see `C71_violated_stale_resume`; and the time before the pause: `C71_violated_before_pause`. -/
theorem C71_paused_partial {s : St} (hr : Reach s) {w p : Nat} {a b c : List Ev} (h : s.trace = a ++ .paused w p :: (b ++ .fetched p :: c)) :
    ∃ v, Ev.resumed v p ∈ b ∧ Ev.synced v p ∈ a ++ .paused w p :: b := by
  have ho : Ordered s.trace := before_all hr
  have hf := (before_all hr (a ++ .paused w p :: b) c (.fetched p) (by rw [h]; simp)).1
  obtain ⟨v, hv⟩ := resumed_between (p := p) (a := a ++ [.paused w p]) (b := b) (by simpa using hf) (by rw [pausedIn_snoc]; simp)
  refine ⟨v, hv, ?_⟩
  have hl : Ordered (a ++ .paused w p :: b) := by
    refine Ordered.left (b := .fetched p :: c) ?_
    have : a ++ .paused w p :: b ++ .fetched p :: c = s.trace := by rw [h]; simp
    rw [this]; exact ho
  exact hl.synced_of_resumed (by simp [hv])

/-- **C71 (partial)** so if the partition has only ever had one worker, its records are fetched after the pause only when its store was filled. -/
theorem C71_first_worker_partial {s : St} (hr : Reach s) {w p : Nat} (h1 : ∀ v, Ev.created v p ∈ s.trace → v = w) {a b : List Ev}
    (h : s.trace = a ++ .fetched p :: b) (hp : Ev.paused w p ∈ a) : Ev.synced w p ∈ a := by
  obtain ⟨x, y, hxy⟩ := List.append_of_mem hp
  subst hxy
  obtain ⟨v, h2, h3⟩ := C71_paused_partial hr (a := x) (b := y) (c := b) (w := w) (p := p) (by rw [h]; simp)
  have ho : Ordered s.trace := before_all hr
  rw [h] at ho
  have hl := ho.left
  have := h1 v (by rw [h]; exact List.mem_append_left _ (hl.created_of_paused (hl.paused_of_synced h3)))
  subst this; exact h3

/-- **C71** the pause ends: if a partition has a worker and was not paused again after a resume, its records can be fetched as soon as no rebalance is under way. -/
theorem C71_resumes {s : St} (hr : Reach s) {w p : Nat} {a b : List Ev} (h : s.trace = a ++ .resumed w p :: b) (hb : ∀ v, Ev.paused v p ∉ b) (ho : s.op = none)
    (hw : ∃ v, Ev.created v p ∈ s.trace ∧ Ev.cut v p ∉ s.trace) : ∃ s', step s (.fetch p) = some s' ∧ s'.trace = s.trace ++ [.fetched p] := by
  have I := inv_reach hr
  have hp : pausedIn p s.trace = false := by
    rw [h]
    clear h
    induction b using List.reverseRecOn with
    | nil => rw [pausedIn_snoc]; simp
    | append_singleton b e ih =>
      have ih := ih (fun v hm => hb v (List.mem_append_left _ hm))
      have e1 : a ++ .resumed w p :: (b ++ [e]) = a ++ .resumed w p :: b ++ [e] := by simp
      rw [e1, pausedIn_snoc]
      cases e with
      | paused v q =>
        by_cases hq : q = p
        · subst hq; exact absurd (by simp) (hb v)
        · simp [hq, ih]
      | resumed v q => by_cases hq : q = p <;> simp [hq, ih]
      | _ => exact ih
  have hnp : p ∉ s.paused := by rw [I.paused p, hp]; simp
  have hwk : s.worker p ≠ none := by
    intro hn
    obtain ⟨v, h1, h2⟩ := hw
    exact h2 (none_owner I hn v h1)
  exact ⟨_, by simp only [step]; rw [if_pos ⟨ho, hwk, hnp⟩], rfl⟩

/-- **C71 is violated**: records are fetched before the goroutine of the worker has paused the partition. -/
theorem C71_violated_before_pause : ∃ s, run St.init [.assign [0], .next, .next, .next, .next, .fetch 0, .pause 0] = some s ∧
    s.trace = [.created 0 0, .assigned 0, .fetched 0, .paused 0 0] := ⟨_, rfl, rfl⟩

/-- **C71 is violated**: the partition was revoked while its first worker was filling the store, and assigned again; when the first worker ends it resumes the
partition that the second worker has paused. -/
theorem C71_violated_stale_resume : ∃ s a b, run St.init
      [.assign [0], .next, .next, .next, .next, .pause 0, .revoke [0], .next, .next, .next, .next, .next, .assign [0], .next, .next, .next, .next, .pause 1, .sync 0,
       .resume 0, .fetch 0] = some s ∧
    s.trace = a ++ Ev.fetched 0 :: b ∧ Ev.paused 1 0 ∈ a ∧ Ev.synced 1 0 ∉ a ∧ Ev.cut 0 0 ∈ a ∧ Ev.cut 1 0 ∉ a :=
  ⟨_, [.created 0 0, .assigned 0, .paused 0 0, .will 0, .cut 0 0, .revoked 0, .created 1 0, .assigned 0, .paused 1 0, .synced 0 0, .resumed 0 0], [], rfl,
   by decide, by decide, by decide, by decide, by decide⟩

/-! ### The hypotheses can be met -/

/-- Two partitions, one of which is handed away and comes back. -/
def life : List Label :=
  [.assign [0, 1], .next, .next, .next, .next, .next, .next, .pause 0, .pause 1, .sync 1, .resume 1, .fetch 1, .grant 1, .activate 1, .start 1, .sync 0, .resume 0,
   .activate 0, .grant 1, .revoke [1], .next, .next, .next, .next, .next, .finish 1, .start 1, .finish 1, .stop 1, .assign [1], .next, .next, .next, .next, .pause 2,
   .sync 2, .resume 2, .fetch 1, .grant 2, .activate 2, .start 2]

/-- Its trace. -/
def lived : List Ev :=
  [.created 0 0, .created 1 1, .assigned 0, .assigned 1, .paused 0 0, .paused 1 1, .synced 1 1, .resumed 1 1, .fetched 1, .grant 1 1, .activated 1 1, .started 1 1,
   .synced 0 0, .resumed 0 0, .activated 0 0, .grant 1 1, .will 1, .cut 1 1, .revoked 1, .finished 1 1, .started 1 1, .finished 1 1, .created 2 1, .assigned 1,
   .paused 2 1, .synced 2 1, .resumed 2 1, .fetched 1, .grant 2 1, .activated 2 1, .started 2 1]

theorem life_reach : ∃ s, Reach s ∧ s.trace = lived ∧ s.op = none := by
  obtain ⟨s, hs⟩ : ∃ s, run St.init life = some s := Option.isSome_iff_exists.1 (by decide +kernel)
  have h1 : (run St.init life).map (fun s => (s.trace, s.op)) = some (s.trace, s.op) := by rw [hs]; rfl
  have h2 := Option.some.inj (h1.symm.trans (show _ = some (lived, none) by decide +kernel))
  exact ⟨s, reach_run .init hs, congrArg Prod.fst h2, congrArg Prod.snd h2⟩

/-- Every theorem of C70 and C71 has its hypotheses met by that run. -/
example : ∃ s, Reach s ∧ s.op = none ∧ s.trace = lived.take 3 ++ .assigned 1 :: lived.drop 4 ∧ s.trace = lived.take 10 ++ .activated 1 1 :: lived.drop 11 ∧
    s.trace = lived.take 20 ++ .started 1 1 :: lived.drop 21 ∧ s.trace = lived.take 17 ++ .cut 1 1 :: lived.drop 18 ∧
    s.trace = lived.take 18 ++ .revoked 1 :: lived.drop 19 ∧ s.trace = lived.take 24 ++ .paused 2 1 :: ([.synced 2 1, .resumed 2 1] ++ .fetched 1 :: lived.drop 28) ∧
    (lived.drop 18).count (.started 1 1) = 1 := by
  obtain ⟨s, h1, h2, h3⟩ := life_reach
  exact ⟨s, h1, h3, by rw [h2]; decide, by rw [h2]; decide, by rw [h2]; decide, by rw [h2]; decide, by rw [h2]; decide, by rw [h2]; decide, by decide⟩

/-- `C71_resumes`. -/
example : ∃ s, run St.init (life.take 11) = some s ∧ s.trace = lived.take 7 ++ .resumed 1 1 :: [] ∧ s.op = none ∧ Ev.created 1 1 ∈ s.trace ∧ Ev.cut 1 1 ∉ s.trace :=
  ⟨_, rfl, rfl, rfl, by decide, by decide⟩

/-- `C71_first_worker_partial`. -/
example : ∃ s, run St.init (life.take 12) = some s ∧ (∀ v, Ev.created v 1 ∈ s.trace → v = 1) ∧ s.trace = lived.take 8 ++ .fetched 1 :: [] ∧ Ev.paused 1 1 ∈ lived.take 8 := by
  refine ⟨_, rfl, ?_, rfl, by decide⟩
  intro v hv
  simpa [St.init] using hv

end Verif.Props.Observe

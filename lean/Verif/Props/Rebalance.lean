import Verif.Rebalance.Group
/-
Properties C28 to C35: the incremental rebalancer (`streams/group_state.go`, `streams/incr_rebalancer.go`).

The oracle `o : Sched` stands for everything Go leaves open: the iteration orders of maps and the random numbers.
-/
set_option linter.unusedSectionVars false
set_option linter.unusedSimpArgs false
namespace Verif.Props.Rebalance

open Verif.Rebalance

/-! ### Samples -/

/-- The order in which maps happen to be iterated: as built. -/
def asBuilt (r : Nat) : Sched where
  members := id
  parts := id
  ready := id
  full := id
  rnd := r
  members_perm := fun _ => .refl _
  parts_perm := fun _ => .refl _
  ready_perm := fun _ => .refl _
  full_perm := fun _ => .refl _

/-- The other way round. -/
def reversed (r : Nat) : Sched where
  members := List.reverse
  parts := List.reverse
  ready := List.reverse
  full := List.reverse
  rnd := r
  members_perm := List.reverse_perm
  parts_perm := List.reverse_perm
  ready_perm := List.reverse_perm
  full_perm := List.reverse_perm

/-- A member's report for topic `[116]`. -/
def rep (id : Nat) (owned : List Int) (preparing ready : List Int) (status : Int) : Input :=
  { id := id, owned := [([116], owned)],
    user := .ok { preparing := preparing.map fun p => ⟨p, [116]⟩, ready := ready.map fun p => ⟨p, [116]⟩,
                  status := status, leftAt := 0 } }

/-- Three members, six partitions: 4 and 5 have no owner, 3 is ready to move to member 3. -/
def sample : List Input := [rep 1 [0, 1] [] [] 0, rep 2 [2, 3] [] [] 0, rep 3 [] [] [3] 0]

/-! ### C28 -/

/-- C28: with at least one member that is not on its way out, every partition of the topic is planned for exactly one
member, and for that member once. -/
theorem C28_each_partition_one_member (o : Sched) (ins : List Input) (count : Nat) (topic : Bytes)
    (hn : (ins.map Input.id).Nodup) (ha : ∃ x ∈ ins, x.md.status ≠ inactiveMember) :
    (∀ p : Int, 0 ≤ p → p < count → ∃ x ∈ ins, p ∈ (balanceTopic o ins count topic).parts x.id ∧
      ∀ i, p ∈ (balanceTopic o ins count topic).parts i → i = x.id) ∧
    ∀ i, ((balanceTopic o ins count topic).parts i).Nodup := by
  obtain ⟨⟨cur, Ho, hc⟩, _, _, hnd⟩ := plan_spec o ins count topic hn ha
  refine ⟨?_, hnd⟩
  intro p h1 h2
  have key : ∃ x ∈ ins, cur p = some x.id := by
    cases h : ownerOf ins topic p with
    | none => obtain ⟨x, hx, e, _⟩ := Ho.free p ⟨h1, h2⟩ h; exact ⟨x, hx, e⟩
    | some d =>
      rcases Ho.kept p d h with e | ⟨x, hx, e, _⟩
      · obtain ⟨x, hx, hi, _⟩ := ownerOf_some h; exact ⟨x, hx, by rw [e, hi]⟩
      · exact ⟨x, hx, e⟩
  obtain ⟨x, hx, e⟩ := key
  refine ⟨x, hx, (hc p x.id).2 e, ?_⟩
  intro i hi
  rw [hc, e] at hi
  exact (Option.some.inj hi).symm

/-- C28: what is not a partition of the topic is planned only for a member if some member claims to own it. -/
theorem C28_nothing_invented (o : Sched) (ins : List Input) (count : Nat) (topic : Bytes)
    (hn : (ins.map Input.id).Nodup) (p : Int) (i : Nat) (hp : p ∈ (balanceTopic o ins count topic).parts i)
    (hr : ¬ (0 ≤ p ∧ p < (count : Int))) : ∃ x ∈ ins, p ∈ x.ownedOf topic := by
  by_cases ha : ∃ x ∈ ins, x.stays
  · obtain ⟨⟨cur, Ho, hc⟩, _⟩ := plan_spec o ins count topic hn ha
    cases h : ownerOf ins topic p with
    | none =>
      rw [hc, Ho.alien p hr h] at hp; simp at hp
    | some d => obtain ⟨x, hx, _, h⟩ := ownerOf_some h; exact ⟨x, hx, h⟩
  · rw [(plan_empty o ins count topic hn ha i).1] at hp; simp at hp

example : (sample.map Input.id).Nodup ∧ ∃ x ∈ sample, x.md.status ≠ inactiveMember := by decide

example : ([1, 2, 3].map fun i => (balanceTopic (asBuilt 0) sample 6 [116]).parts i) = [[1, 0], [2], [3, 5, 4]] ∧
    ([1, 2, 3].map fun i => (balanceTopic (reversed 0) sample 6 [116]).parts i) = [[1, 0], [2], [3, 4, 5]] := by decide

/-! ### C29 -/

/-- C29: a partition that somebody owns is planned for another member only if that member is active and reported it
as ready. -/
theorem C29_moved_only_when_ready (o : Sched) (ins : List Input) (count : Nat) (topic : Bytes)
    (hn : (ins.map Input.id).Nodup) (p : Int) (x : Input) (hx : x ∈ ins)
    (hp : p ∈ (balanceTopic o ins count topic).parts x.id) (hnot : p ∉ x.ownedOf topic)
    (howned : ∃ y ∈ ins, p ∈ y.ownedOf topic) :
    ∃ m, x.user = .ok m ∧ m.status = activeMember ∧ (⟨p, topic⟩ : TP) ∈ m.ready := by
  by_cases ha : ∃ x ∈ ins, x.stays
  · obtain ⟨⟨cur, Ho, hc⟩, _⟩ := plan_spec o ins count topic hn ha
    have hcur := (hc p x.id).1 hp
    cases h : ownerOf ins topic p with
    | none => obtain ⟨y, hy, h'⟩ := howned; exact absurd h' (ownerOf_none.1 h y hy)
    | some d =>
      rcases Ho.kept p d h with e | ⟨z, hz, e, hr⟩
      · exfalso
        obtain ⟨z, hz, hi, ho⟩ := ownerOf_some h
        rw [hcur] at e
        have : x = z := input_eq hn hx hz (by rw [hi]; exact Option.some.inj e)
        exact hnot (this ▸ ho)
      · rw [hcur] at e
        have : x = z := input_eq hn hx hz (Option.some.inj e)
        subst this
        unfold Input.readyTPs at hr
        split at hr
        · rename_i m hm
          split at hr
          · rename_i hs; exact ⟨m, hm, hs, hr⟩
          · simp at hr
        · simp at hr
  · rw [(plan_empty o ins count topic hn ha x.id).1] at hp; simp at hp

/-- C29, second half: a `Prepare` instruction goes to a member that is not inactive, for a partition of the topic that
another member owns. Missing: the member need not be active, it may also be defunct
(`C29_violated_defunct_prepares`). -/
theorem C29_prepare_sound_partial (o : Sched) (ins : List Input) (count : Nat) (topic : Bytes)
    (hn : (ins.map Input.id).Nodup) (i : Nat) (tp : TP)
    (h : tp ∈ ((balanceTopic o ins count topic).instr i).prepare) :
    tp.topic = topic ∧ (∃ x ∈ ins, x.id = i ∧ x.md.status ≠ inactiveMember) ∧
      ∃ y ∈ ins, y.id ≠ i ∧ tp.part ∈ y.ownedOf topic := by
  by_cases ha : ∃ x ∈ ins, x.stays
  · obtain ⟨_, P, _⟩ := plan_spec o ins count topic hn ha
    cases P with
    | none hnone _ => rw [show ((balanceTopic o ins count topic).instr i).prepare = [] from hnone i] at h; simp at h
    | one q m d hm hd p h1 h2 hne ho hs _ =>
      by_cases e : i = m.id
      · subst e
        rw [h1] at h
        simp only [List.mem_singleton] at h
        subst h
        obtain ⟨y, hy, hi, hy'⟩ := ownerOf_some ho
        exact ⟨rfl, ⟨m, hm, rfl, hs⟩, y, hy, by rw [hi]; exact hne, hy'⟩
      · rw [show ((balanceTopic o ins count topic).instr i).prepare = [] from h2 i e] at h; simp at h
  · rw [(plan_empty o ins count topic hn ha i).2] at h; simp at h

/-- C29: if no member reports the status defunct (or an unknown one), `Prepare` goes to active members only. -/
theorem C29_prepare_active_partial (o : Sched) (ins : List Input) (count : Nat) (topic : Bytes)
    (hn : (ins.map Input.id).Nodup)
    (hd : ∀ x ∈ ins, x.md.status = activeMember ∨ x.md.status = inactiveMember) (i : Nat) (tp : TP)
    (h : tp ∈ ((balanceTopic o ins count topic).instr i).prepare) :
    ∃ x ∈ ins, x.id = i ∧ x.md.status = activeMember := by
  obtain ⟨_, ⟨x, hx, hi, hs⟩, _⟩ := C29_prepare_sound_partial o ins count topic hn i tp h
  exact ⟨x, hx, hi, (hd x hx).resolve_right hs⟩

/-- A quiet group with a member without partitions. -/
def lopsided : List Input := [rep 1 [0, 1, 2] [] [] 0, rep 2 [] [] [] 0]

example : (⟨0, [116]⟩ : TP) ∈ ((balanceTopic (asBuilt 2) lopsided 3 [116]).instr 2).prepare := by decide

/-- C29 is violated: a defunct member is asked to prepare a partition (`streams/group_state.go:123-127` files every
status but inactive under the active members). -/
theorem C29_violated_defunct_prepares :
    ((balanceTopic (asBuilt 2) [rep 1 [0, 1, 2] [] [] activeMember, rep 2 [] [] [] defunct] 3 [116]).instr 2).prepare =
      [⟨0, [116]⟩] := by decide

example : (3 : Int) ∈ (balanceTopic (asBuilt 0) sample 6 [116]).parts 3 ∧ (3 : Int) ∉ (rep 3 [] [] [3] 0).ownedOf [116] ∧
    ∃ y ∈ sample, (3 : Int) ∈ y.ownedOf [116] := by decide

/-! ### C30 -/

/-- C30: a round asks for at most one partition of the topic to be prepared. -/
theorem C30_at_most_one_prepare (o : Sched) (ins : List Input) (count : Nat) (topic : Bytes)
    (hn : (ins.map Input.id).Nodup) :
    (∀ i, ((balanceTopic o ins count topic).instr i).prepare.length ≤ 1) ∧
    ∀ i j tp tp', tp ∈ ((balanceTopic o ins count topic).instr i).prepare →
      tp' ∈ ((balanceTopic o ins count topic).instr j).prepare → i = j ∧ tp = tp' := by
  by_cases ha : ∃ x ∈ ins, x.stays
  · obtain ⟨_, P, _⟩ := plan_spec o ins count topic hn ha
    cases P with
    | none hnone _ =>
      exact ⟨fun i => by rw [hnone]; simp, fun i j tp tp' h => by rw [hnone] at h; simp at h⟩
    | one q m d hm hd p h1 h2 hne ho hs _ =>
      have key : ∀ i tp, tp ∈ ((balanceTopic o ins count topic).instr i).prepare → i = m.id ∧ tp = ⟨p, topic⟩ := by
        intro i tp h
        by_cases e : i = m.id
        · subst e; rw [h1] at h; exact ⟨rfl, by simpa using h⟩
        · rw [h2 i e] at h; simp at h
      refine ⟨?_, ?_⟩
      · intro i
        by_cases e : i = m.id
        · rw [e, h1]; simp
        · rw [h2 i e]; simp
      · intro i j tp tp' h h'
        obtain ⟨a, b⟩ := key i tp h
        obtain ⟨c, d⟩ := key j tp' h'
        exact ⟨a.trans c.symm, b.trans d.symm⟩
  · have := plan_empty o ins count topic hn ha
    exact ⟨fun i => by rw [(this i).2]; simp, fun i j tp tp' h => by rw [(this i).2] at h; simp at h⟩

/-- C30: no preparation is asked for while an active member is preparing a partition or has one ready, or while a
partition has no owner. -/
theorem C30_none_while_moving (o : Sched) (ins : List Input) (count : Nat) (topic : Bytes)
    (hn : (ins.map Input.id).Nodup)
    (h : (∃ x ∈ ins, ∃ m, x.user = .ok m ∧ m.status = activeMember ∧ (m.preparing ≠ [] ∨ m.ready ≠ [])) ∨
      ∃ p : Int, 0 ≤ p ∧ p < count ∧ ∀ x ∈ ins, p ∉ x.ownedOf topic) (i : Nat) :
    ((balanceTopic o ins count topic).instr i).prepare = [] := by
  by_cases ha : ∃ x ∈ ins, x.stays
  · obtain ⟨_, P, _⟩ := plan_spec o ins count topic hn ha
    cases P with
    | none hnone _ => exact hnone i
    | one q m d hm hd p h1 h2 hne ho hs _ =>
      exfalso
      rcases h with ⟨x, hx, m', hu, hst, hm'⟩ | ⟨p, a, b, hp⟩
      · have := q.still x hx
        simp only [Input.moving, hu, hst, if_true, List.append_eq_nil_iff] at this
        rcases hm' with h | h
        · exact h this.1
        · exact h this.2
      · exact q.owned p ⟨a, b⟩ (ownerOf_none.2 hp)
  · exact (plan_empty o ins count topic hn ha i).2

example : ∃ x ∈ sample, ∃ m, x.user = .ok m ∧ m.status = activeMember ∧ (m.preparing ≠ [] ∨ m.ready ≠ []) :=
  ⟨rep 3 [] [] [3] 0, by decide, _, rfl, by decide, .inr (by decide)⟩

example : ((balanceTopic (asBuilt 2) lopsided 3 [116]).instr 2).prepare = [⟨0, [116]⟩] := by decide

/-! ### C31 -/

/-- C31: from any complete assignment to active members, cycles of rounds in which the requested preparation is carried
out lead within finitely many moves to an assignment in which the numbers of partitions differ by at most one; from then
on nothing changes owner and no preparation is requested. This holds whatever the orders and random numbers are. Missing:
groups in which a member has a partition ready that it owns already, see `C31_violated_stale` in `Verif/Props/Leave.lean`. -/
theorem C31_converges_partial {ms : List Mb} {count : Nat} (S : Settled ms count) (os : Nat → Sched × Sched × Sched)
    (topic : Bytes) :
    ∃ n, n ≤ sumsq ms ∧ ∀ k, n ≤ k →
      Settled (cycles os count topic ms k) count ∧
      (∀ m ∈ cycles os count topic ms k, ∀ m' ∈ cycles os count topic ms k,
        m.owned.length ≤ m'.owned.length + 1) ∧
      (∀ p, holder (cycles os count topic ms k) p = holder (cycles os count topic ms n) p) ∧
      ∀ o i, ((round o ((cycles os count topic ms k).map fun m => m.report topic) count topic).instr i).prepare = [] := by
  obtain ⟨n, hn, h⟩ := cycles_converge S os topic
  refine ⟨n, hn, fun k hk => ?_⟩
  obtain ⟨h1, h2, h3⟩ := h k hk
  exact ⟨h1, h2, h3, fun o i => settled_no_prepare h1 h2 o topic i⟩

/-- C31: a cycle moves at most one partition, and only from a member that has at least two more than the receiver. -/
theorem C31_cycle_moves_one {ms : List Mb} {count : Nat} (S : Settled ms count) (o : Sched × Sched × Sched)
    (topic : Bytes) :
    Settled (cycle o count topic ms) count ∧ ∃ f, cycle o count topic ms = ms.map f ∧
      (∀ m ∈ ms, (f m).id = m.id) ∧
      ((∀ m ∈ ms, ∀ p, p ∈ (f m).owned ↔ p ∈ m.owned) ∨
       ∃ d ∈ ms, ∃ r ∈ ms, ∃ p ∈ d.owned, r.owned.length + 2 ≤ d.owned.length ∧
        ∀ m ∈ ms, ∀ q, q ∈ (f m).owned ↔ if q = p then m = r else q ∈ m.owned) := by
  obtain ⟨h1, f, e, hid, _, C⟩ := cycle_spec S o topic
  refine ⟨h1, f, e, hid, ?_⟩
  cases C with
  | same _ h => exact .inl fun m hm p => (h m hm p).trans (holder_iff S hm p).symm
  | moved d r hd hr p ho hne hgap h =>
    refine .inr ⟨d, hd, r, hr, p, (holder_iff S hd p).2 ho, hgap, ?_⟩
    intro m hm q
    rw [h m hm]
    unfold setH
    split
    · constructor
      · intro e; exact mb_eq S.ids hm hr (Option.some.inj e).symm
      · rintro rfl; rfl
    · exact (holder_iff S hm q).symm

/-- C31: a new group, or one in which partitions are without an owner, is completely assigned after one round, and
nobody loses a partition. -/
theorem C31_unowned_assigned_first {ms : List Mb} {count : Nat} {own : Int → Option Nat}
    (M : Mid ms count own fun _ => []) (o : Sched) (topic : Bytes)
    (hfree : ∃ p : Int, 0 ≤ p ∧ p < count ∧ own p = none) :
    Settled (roundAll o count topic ms) count ∧
      ∀ m ∈ ms, ∀ p, p ∈ m.owned → ∃ m' ∈ roundAll o count topic ms, m'.id = m.id ∧ p ∈ m'.owned :=
  round_settles M o topic hfree

/-- Three members, all four partitions at the first. -/
def greedy : List Mb := [{ Mb.new 1 with owned := [0, 1, 2, 3] }, Mb.new 2, Mb.new 3]

theorem greedy_settled : Settled greedy 4 := by
  refine ⟨by decide, by decide, by decide, by decide, by decide, ?_, ?_⟩
  · intro p h1 h2
    refine ⟨{ Mb.new 1 with owned := [0, 1, 2, 3] }, by decide, ?_⟩
    have : p = 0 ∨ p = 1 ∨ p = 2 ∨ p = 3 := by omega
    rcases this with rfl | rfl | rfl | rfl <;> decide
  · intro m hm m' hm' p hp hp'
    simp only [greedy, List.mem_cons, List.not_mem_nil, or_false] at hm hm'
    rcases hm with rfl | rfl | rfl <;> rcases hm' with rfl | rfl | rfl <;> first | rfl | (simp [Mb.new] at hp hp')

example : (cycles (fun _ => (asBuilt 0, reversed 1, asBuilt 2)) 4 [116] greedy 2).map (fun m => m.owned.length) =
    [2, 1, 1] := by decide

/-- A group that has just formed. -/
example : Mid [Mb.new 1, Mb.new 2] 3 (fun _ => none) (fun _ => []) :=
  ⟨by decide, by decide, by decide, by decide, by decide, by decide, by simp [Mb.new], by simp⟩

example : (roundAll (asBuilt 0) 3 [116] [Mb.new 1, Mb.new 2]).map (fun m => m.owned.length) = [2, 1] := by decide

/-! ### C32 -/

/-- C32: a member that has announced to leave gets no partition it does not own already, as long as some member stays;
without one nobody gets anything. -/
theorem C32_leaving_gets_nothing_new (o : Sched) (ins : List Input) (count : Nat) (topic : Bytes)
    (hn : (ins.map Input.id).Nodup) (x : Input) (hx : x ∈ ins) (hs : x.md.status = inactiveMember) (p : Int)
    (hp : p ∈ (balanceTopic o ins count topic).parts x.id) : p ∈ x.ownedOf topic := by
  by_cases ha : ∃ x ∈ ins, x.stays
  · obtain ⟨⟨cur, Ho, hc⟩, _⟩ := plan_spec o ins count topic hn ha
    have hcur := (hc p x.id).1 hp
    cases h : ownerOf ins topic p with
    | none =>
      by_cases hr : 0 ≤ p ∧ p < (count : Int)
      · obtain ⟨z, hz, e, hst, _⟩ := Ho.free p hr h
        rw [hcur] at e
        have := input_eq hn hx hz (Option.some.inj e)
        exact absurd hs (this ▸ hst)
      · rw [Ho.alien p hr h] at hcur; simp at hcur
    | some d =>
      rcases Ho.kept p d h with e | ⟨z, hz, e, hr⟩
      · obtain ⟨z, hz, hi, ho⟩ := ownerOf_some h
        rw [hcur] at e
        have : x = z := input_eq hn hx hz (by rw [hi]; exact Option.some.inj e)
        exact this ▸ ho
      · exfalso
        rw [hcur] at e
        have : x = z := input_eq hn hx hz (Option.some.inj e)
        subst this
        unfold Input.readyTPs at hr
        unfold Input.md at hs
        split at hr
        · rename_i m hm
          rw [hm] at hs
          simp only at hs
          split at hr
          · rename_i hs'; rw [hs] at hs'; exact absurd hs' (by decide)
          · simp at hr
        · simp at hr
  · rw [(plan_empty o ins count topic hn ha x.id).1] at hp; simp at hp

/-- C32: a leaving member is not asked to prepare anything. -/
theorem C32_leaving_prepares_nothing (o : Sched) (ins : List Input) (count : Nat) (topic : Bytes)
    (hn : (ins.map Input.id).Nodup) (x : Input) (hx : x ∈ ins) (hs : x.md.status = inactiveMember) :
    ((balanceTopic o ins count topic).instr x.id).prepare = [] := by
  apply List.eq_nil_iff_forall_not_mem.2
  intro tp h
  obtain ⟨_, ⟨y, hy, hi, hst⟩, _⟩ := C29_prepare_sound_partial o ins count topic hn x.id tp h
  exact hst (input_eq hn hy hx hi ▸ hs)

/-- C32: the partitions of a leaving member are handed over: when nothing is in motion, the round asks a member that
stays to prepare one of the partitions of the leaving members, before any other move. -/
theorem C32_leaving_is_relieved (o : Sched) (ins : List Input) (count : Nat) (topic : Bytes)
    (hn : (ins.map Input.id).Nodup) (ha : ∃ x ∈ ins, x.md.status ≠ inactiveMember)
    (hu : ∀ x ∈ ins, ∀ y ∈ ins, ∀ p, p ∈ x.ownedOf topic → p ∈ y.ownedOf topic → x = y)
    (hall : ∀ p : Int, 0 ≤ p → p < count → ∃ x ∈ ins, p ∈ x.ownedOf topic)
    (hq : ∀ x ∈ ins, ∀ m, x.user = .ok m → m.status = activeMember → m.preparing = [] ∧ m.ready = [])
    (hl : ∃ x ∈ ins, x.md.status = inactiveMember ∧ x.ownedOf topic ≠ []) :
    ∃ m ∈ ins, m.md.status ≠ inactiveMember ∧ ∃ d ∈ ins, d.md.status = inactiveMember ∧ ∃ p ∈ d.ownedOf topic,
      ((balanceTopic o ins count topic).instr m.id).prepare = [⟨p, topic⟩] ∧
      ∀ i, i ≠ m.id → ((balanceTopic o ins count topic).instr i).prepare = [] := by
  have Q : Quiet ins count topic := by
    refine ⟨?_, ?_⟩
    · rintro p ⟨h1, h2⟩ hnone
      obtain ⟨x, hx, hp⟩ := hall p h1 h2
      exact ownerOf_none.1 hnone x hx hp
    · intro x hx
      unfold Input.moving
      split
      · rename_i m hm
        split
        · rename_i hs
          obtain ⟨a, b⟩ := hq x hx m hm hs
          simp [a, b]
        · rfl
      · rfl
  obtain ⟨l, hl1, hl2, hl3⟩ := hl
  obtain ⟨pl, hpl⟩ := List.exists_mem_of_ne_nil _ hl3
  have hol : ownerOf ins topic pl = some l.id := ownerOf_eq hl1 hpl fun y hy h => hu y hy l hl1 pl h hpl
  obtain ⟨_, P, _⟩ := plan_spec o ins count topic hn ha
  cases P with
  | none hnone hno => exact absurd hol ((hno Q).1 l hl1 (by unfold Input.stays; exact fun h => h hl2) pl)
  | one q m d hm hd p h1 h2 hne ho hs hw =>
    rcases hw with hw | ⟨_, hw, _⟩
    · refine ⟨m, hm, hs, d, hd, ?_, p, ?_, h1, h2⟩
      · unfold Input.stays at hw; exact Decidable.not_not.1 hw
      · obtain ⟨z, hz, hi, h⟩ := ownerOf_some ho
        exact input_eq hn hz hd hi ▸ h
    · exact absurd hol (hw l hl1 (by unfold Input.stays; exact fun h => h hl2) pl)

/-- A member on its way out. -/
def leaving : List Input := [rep 1 [0, 1] [] [] 1, rep 2 [2] [] [] 0, rep 3 [3] [] [] 0]

example : (leaving.map Input.id).Nodup ∧ (∃ x ∈ leaving, x.md.status ≠ inactiveMember) ∧
    (∃ x ∈ leaving, x.md.status = inactiveMember ∧ x.ownedOf [116] ≠ []) ∧
    ((balanceTopic (asBuilt 0) leaving 4 [116]).instr 2).prepare = [⟨1, [116]⟩] := by decide

/-- C32 is violated: a member that has left (status defunct) is given partitions
(`streams/group_state.go:123-127`). -/
theorem C32_violated_defunct_gets_partition :
    (balanceTopic (asBuilt 0) [rep 1 [0] [] [] activeMember, rep 2 [] [] [] defunct] 2 [116]).parts 2 = [1] := by decide

/-! ### C33 -/

/-- C33: in every sequence of calls the channel is closed at most once; when it is, the member has announced to leave
before and has received an assignment without partitions. -/
theorem C33_closed_once_when_left_and_empty (id : Nat) (ops : List Op) :
    (ops.foldl Mb.op (Mb.new id)).closes ≤ 1 ∧
    ((ops.foldl Mb.op (Mb.new id)).closes = 1 ↔
      ∃ a op b, ops = a ++ op :: b ∧ (∃ l ∈ a, l.isLeave) ∧ op.isEmptySync) := by
  have L := life id ops
  refine ⟨?_, ?_⟩
  · rw [L.closes]; split <;> omega
  · rw [L.closes, ← L.done]
    split <;> rename_i h <;> simp [h]

/-- C33: calling `GracefullyLeaveGroup` again changes nothing, not even the time of leaving. -/
theorem C33_leave_again_harmless (m : Mb) (t t' : Int) :
    (m.gracefullyLeave t).gracefullyLeave t' = m.gracefullyLeave t := by
  have e : inactiveMember ≠ activeMember := by decide
  unfold Mb.gracefullyLeave
  by_cases h : m.status = activeMember
  · simp [h, e]
  · simp [h]

/-- C33: an announced leave is never taken back. -/
theorem C33_stays_left (id : Nat) (ops ops' : List Op)
    (h : (ops.foldl Mb.op (Mb.new id)).status ≠ activeMember) :
    ((ops ++ ops').foldl Mb.op (Mb.new id)).status ≠ activeMember := by
  rw [(life id ops).left] at h
  rw [(life id (ops ++ ops')).left]
  obtain ⟨o, ho, hl⟩ := h
  exact ⟨o, by simp [ho], hl⟩

example : (([.leave 7, .sync [([116], [1])] ⟨[], []⟩, .leave 8, .sync [([116], [])] ⟨[], []⟩, .sync [] ⟨[], []⟩] :
    List Op).foldl Mb.op (Mb.new 3)).closes = 1 := by decide

/-! ### C34 -/

/-- C34: in every history of a group, with members joining, crashing, leaving, changing their reports in any way, and
taking up the rounds' plans in any order, no partition is ever owned by two members. -/
theorem C34_never_two_owners {count : Nat} {topic : Bytes} {g : Group} (h : GReach count topic g)
    (m m' : Mb) (hm : m ∈ g.members) (hm' : m' ∈ g.members) (p : Int) (h1 : p ∈ m.owned) (h2 : p ∈ m'.owned) :
    m = m' := (own_reach h).owned m hm m' hm' p h1 h2

/-- C34: a plan that is still to be taken up does not give a member what another one owns. -/
theorem C34_plan_waits_for_owner {count : Nat} {topic : Bytes} {g : Group} (h : GReach count topic g)
    (i : Nat) (ps : List Int) (is : Instr) (hi : g.pend i = some (ps, is)) (m : Mb) (hm : m ∈ g.members) (p : Int)
    (h1 : p ∈ ps) (h2 : p ∈ m.owned) : m.id = i := (own_reach h).mixed i ps is hi m hm p h1 h2

/-- C34: a partition that has no owner, for instance because its owner has given it up in the last round, is given to
exactly one member in the next round. -/
theorem C34_given_up_is_assigned {count : Nat} {topic : Bytes} {g : Group} (h : GReach count topic g) (o : Sched)
    {p : Int} (hp : 0 ≤ p ∧ p < (count : Int)) (hfree : ∀ m ∈ g.members, p ∉ m.owned)
    (ha : ∃ m ∈ g.members, m.status ≠ inactiveMember) (hpend : ∀ m ∈ g.members, g.pend m.id = none) :
    ∃ m ∈ g.members, m.status ≠ inactiveMember ∧
      (∃ ps is, (g.startRound o count topic).pend m.id = some (ps, is) ∧ p ∈ ps) ∧
      ∀ j ps is, (g.startRound o count topic).pend j = some (ps, is) → p ∈ ps → j = m.id := by
  obtain ⟨m, hm, hs, ps, is, h1, h2⟩ := free_planned (own_reach h) o count topic hp hfree ha
  refine ⟨m, hm, hs, ⟨ps, is, h1, h2⟩, ?_⟩
  intro j qs js hj hq
  exact (own_step (own_reach h) (.round g o hpend)).pends j m.id qs ps js is hj h1 p hq h2

/-- A member joins, a round, it takes up the plan. -/
def oneMember : Group :=
  { members := [(Mb.new 1).sync [116] ((round (asBuilt 0) [(Mb.new 1).report [116]] 2 [116]).parts 1)
      ((round (asBuilt 0) [(Mb.new 1).report [116]] 2 [116]).instr 1)]
    pend := fun _ => none }

example : GReach 2 [116] oneMember := by
  have h1 : GReach 2 [116] ⟨[Mb.new 1], fun _ => none⟩ := .step .init (.join _ 1 (by decide) rfl)
  have h2 := GReach.step h1 (.round _ (asBuilt 0) (by intro m _; rfl))
  have h3 := GReach.step h2 (.sync _ 1 _ _ rfl)
  have e : ((⟨[Mb.new 1], fun _ => none⟩ : Group).startRound (asBuilt 0) 2 [116]).pend 2 = none := rfl
  refine (congrArg (GReach 2 [116]) ?_).mp h3
  unfold oneMember
  congr 1
  funext i
  by_cases h : i = 1
  · simp [h]
  · simp [Group.startRound, Mb.new, h]

example : oneMember.members.map Mb.owned = [[1, 0]] := by decide

/-! ### C35 -/

/-- C35: the `Prepare` instructions start the preparation of exactly the named partitions that were not being prepared
already, each once, and all of them are then marked as being prepared, except those named in `Forget` too. -/
theorem C35_prepare_exactly_named (m : Mb) (parsed : List (Bytes × List Int)) (ins : Instr)
    (h : ¬ (m.status = inactiveMember ∧ ∀ e ∈ parsed, e.2 = [])) :
    (∀ tp, tp ∈ (m.parseSync parsed ins).2.prepare ↔ tp ∈ ins.prepare ∧ tp ∉ m.preparing) ∧
    (m.parseSync parsed ins).2.prepare.Nodup ∧
    (∀ tp, tp ∈ (m.parseSync parsed ins).1.preparing ↔ (tp ∈ m.preparing ∨ tp ∈ ins.prepare) ∧ tp ∉ ins.forget) ∧
    ∀ tp, tp ∈ (m.parseSync parsed ins).1.ready ↔ tp ∈ m.ready ∧ tp ∉ ins.forget := by
  have h' : ¬ (m.status = inactiveMember ∧ (parsed.all fun e => e.2.length = 0) = true) := by
    rintro ⟨h1, h2⟩
    refine h ⟨h1, fun e he => ?_⟩
    have := List.all_eq_true.1 h2 e he
    simpa using this
  unfold Mb.parseSync
  rw [if_neg h']
  obtain ⟨p1, p2, p3⟩ := prepareLoop_spec m.preparing ins.prepare
  obtain ⟨f1, f2⟩ := forgetLoop_sets (prepareLoop m.preparing ins.prepare).1 m.ready ins.forget 0
  refine ⟨p2, p3, ?_, f2⟩
  intro tp
  rw [f1, p1]

/-- C35, the `Forget` half: the named partitions are dropped from the member's sets (see
`C35_prepare_exactly_named`); the calls of `ForgetPreparedTopicPartition` are for named partitions, and if the
instruction names a single one, or if every goroutine runs before the loop goes on, they are for exactly the named
partitions that were being prepared or ready, each once. Missing: with several named partitions and other timings the
calls may miss some of them (`C35_violated_forget_misses`). -/
theorem C35_forget_named_partial (pr rd fs : List TP) (at' : Nat → Nat) (ht : Timing fs at') :
    (∀ c ∈ forgetCalls fs (forgetLoop pr rd 0 fs).2 at', ∃ tp ∈ fs, c = some tp) ∧
    ((fs.length ≤ 1 ∨ ∀ k, k < fs.length → at' k = k) →
      (∀ tp, some tp ∈ forgetCalls fs (forgetLoop pr rd 0 fs).2 at' ↔ tp ∈ fs ∧ (tp ∈ pr ∨ tp ∈ rd)) ∧
      (forgetCalls fs (forgetLoop pr rd 0 fs).2 at').Nodup) := by
  obtain ⟨h1, h2⟩ := forgetLoop_iters pr rd fs 0
  have hlt : ∀ k ∈ (forgetLoop pr rd 0 fs).2, k < fs.length := by
    intro k hk
    obtain ⟨i, tp, rfl, h, _⟩ := (h1 k).1 hk
    have := (List.getElem?_eq_some_iff.1 h).1
    omega
  refine ⟨?_, ?_⟩
  · intro c hc
    obtain ⟨k, hk, rfl⟩ := List.mem_map.1 hc
    have := (ht k (hlt k hk)).2
    exact ⟨fs[at' k], List.getElem_mem _, List.getElem?_eq_getElem this⟩
  · intro hh
    have hid : ∀ k, k < fs.length → at' k = k := by
      rcases hh with hh | hh
      · intro k hk; have := ht k hk; omega
      · exact hh
    have hcalls : forgetCalls fs (forgetLoop pr rd 0 fs).2 at' = (forgetLoop pr rd 0 fs).2.map fun k => fs[k]? := by
      unfold forgetCalls
      apply List.map_congr_left
      intro k hk
      rw [hid k (hlt k hk)]
    rw [hcalls]
    refine ⟨?_, ?_⟩
    · intro tp
      rw [List.mem_map]
      constructor
      · rintro ⟨k, hk, e⟩
        obtain ⟨i, tp', rfl, h, hm, _⟩ := (h1 k).1 hk
        rw [Nat.zero_add] at e
        rw [h] at e
        cases e
        exact ⟨List.mem_of_getElem? h, hm⟩
      · rintro ⟨hf, hm⟩
        -- the first occurrence
        obtain ⟨a, b, rfl, ha⟩ := List.eq_append_cons_of_mem hf
        refine ⟨a.length, (h1 _).2 ⟨a.length, tp, by omega, by simp, hm, ?_⟩, by simp⟩
        simpa using ha
    · refine List.Nodup.map_on ?_ h2
      intro x hx y hy e
      obtain ⟨i, tp, rfl, h, _, hn⟩ := (h1 x).1 hx
      obtain ⟨j, tp', rfl, h', _, hn'⟩ := (h1 y).1 hy
      rw [Nat.zero_add] at e ⊢
      rw [Nat.zero_add] at e ⊢
      rw [h, h'] at e
      cases e
      rcases Nat.lt_trichotomy i j with hij | hij | hij
      · exfalso; exact hn' (List.mem_take_iff_getElem.2 ⟨i, by
          have := (List.getElem?_eq_some_iff.1 h).1; omega, (List.getElem?_eq_some_iff.1 h).2⟩)
      · exact hij
      · exfalso; exact hn (List.mem_take_iff_getElem.2 ⟨j, by
          have := (List.getElem?_eq_some_iff.1 h').1; omega, (List.getElem?_eq_some_iff.1 h').2⟩)

/-- C35 is violated: with two partitions to forget, both ready, the goroutines of
`streams/incr_rebalancer.go:413-416` may both run after the loop has advanced; then the second partition is forgotten
twice and the first one never (its prepared store is kept). -/
theorem C35_violated_forget_misses :
    ∃ at', Timing [⟨0, [116]⟩, ⟨1, [116]⟩] at' ∧
      forgetCalls [⟨0, [116]⟩, ⟨1, [116]⟩] (forgetLoop [] [⟨0, [116]⟩, ⟨1, [116]⟩] 0 [⟨0, [116]⟩, ⟨1, [116]⟩]).2 at' =
        [some ⟨1, [116]⟩, some ⟨1, [116]⟩] := by
  refine ⟨fun _ => 1, ?_, by decide⟩
  intro k hk
  simp at hk ⊢
  omega

example : (({ Mb.new 1 with preparing := [⟨4, [116]⟩] }).parseSync [([116], [0])]
    ⟨[⟨4, [116]⟩, ⟨5, [116]⟩, ⟨5, [116]⟩], []⟩).2.prepare = [⟨5, [116]⟩] := by decide

example : Timing [⟨0, [116]⟩] id ∧ forgetCalls [⟨0, [116]⟩] (forgetLoop [] [⟨0, [116]⟩] 0 [⟨0, [116]⟩]).2 id =
    [some ⟨0, [116]⟩] := ⟨by intro k hk; simpa using hk, by decide⟩

end Verif.Props.Rebalance

import Verif.Rebalance.Leave
import Verif.Props.Rebalance
/-
C79: a graceful leave comes to its end. Members that leave give their partitions away one after the other and are then allowed to go.
-/
namespace Verif.Props.Leave

open Verif.Rebalance Verif.BTree
open Verif.Props.Rebalance (asBuilt reversed)

/-- What a leave should come to: the leaving members have no partitions, have closed their channel exactly once and are defunct, the others are still in the
group, nobody else is, and they have all the partitions. -/
structure Ended (before after : Grp) (count : Nat) : Prop where
  settled : Settled after.members count
  gone : ∀ m ∈ before.members, m.status = inactiveMember →
    ∃ m' ∈ after.left, m'.id = m.id ∧ m'.owned = [] ∧ m'.closes = m.closes + 1 ∧ m'.status = defunct
  stay : ∀ m ∈ before.members, m.status = activeMember → ∃ m' ∈ after.members, m'.id = m.id ∧ m'.closes = m.closes
  only : ∀ m' ∈ after.members, ∃ m ∈ before.members, m'.id = m.id ∧ m.status = activeMember

/-- The full claim: whatever partitions the members that stay have ready, a leave ends (and then stays ended). Entries of the ready list that the member owns
already are included: the code makes them. -/
def LeaveEnds : Prop := ∀ (g : Grp) (count : Nat) (topic : Bytes) (os : Nat → Sched × Sched × Sched) (own : Int → Option Nat) (rd : Nat → List TP),
  MidL g.members count own rd → Total own count → (∀ m ∈ g.members, m.status = activeMember → ∀ tp ∈ m.ready, tp.topic = topic ∧ own tp.part = some m.id) →
  ∃ n, ∀ k, n ≤ k → Ended g (g.cycles os count topic k) count

/-- **C79** (partial). If nobody that stays has anything ready or in preparation, the leave ends after at most one cycle more than the leaving members have
partitions, and it stays ended. This holds for any number of leaving members, whatever the orders and random numbers are. Missing: entries of the ready list
that belong to the member already, see `C79_violated_stale`. -/
theorem C79_ends_partial {g : Grp} {count : Nat} (L : Leaving g.members count) (os : Nat → Sched × Sched × Sched) (topic : Bytes) :
    ∀ k, held g.members count + 1 ≤ k → Ended g (g.cycles os count topic k) count := by
  intro k hk
  obtain ⟨h1, h2, h3, h4⟩ := cycles_leave L.mid.1 L.mid.2 os topic (n := k) (by omega)
  refine ⟨h1, fun m hm hs => ?_, h2, h4⟩
  obtain ⟨m', a1, a2, a3, a4, a5⟩ := h3 m hm hs
  exact ⟨m', a1, a2, a5, a4, a3⟩

/-- **C79** (from the call to the end; partial in the same sense). Some members of a settled group call `GracefullyLeaveGroup` while others stay: after at most
one cycle more than there are partitions those that called are out of the group, without partitions and with a channel that was closed exactly once, and the
others are settled again. -/
theorem C79_leave_partial {ms left : List Mb} {count : Nat} (S : Settled ms count) (now : Int) (who : Mb → Bool) (h : ∃ m ∈ ms, who m = false)
    (os : Nat → Sched × Sched × Sched) (topic : Bytes) :
    ∃ n, ∀ k, n ≤ k →
      let g := (Grp.mk (ms.map fun m => if who m then m.gracefullyLeave now else m) left).cycles os count topic k
      Settled g.members count ∧
      (∀ m ∈ ms, who m = true → ∃ m' ∈ g.left, m'.id = m.id ∧ m'.owned = [] ∧ m'.closes = m.closes + 1 ∧ m'.status = defunct) ∧
      (∀ m ∈ ms, who m = false → ∃ m' ∈ g.members, m'.id = m.id ∧ m'.closes = m.closes) ∧
      ∀ m' ∈ g.members, ∃ m ∈ ms, who m = false ∧ m'.id = m.id := by
  have L := leaving_of_settled S now who h
  have hst : ∀ m ∈ ms, m.gracefullyLeave now = { m with status := inactiveMember, leaveTime := now } := by
    intro m hm; unfold Mb.gracefullyLeave; rw [if_pos (S.act m hm).1]
  have hne : inactiveMember ≠ activeMember := by decide
  refine ⟨held (ms.map fun m => if who m then m.gracefullyLeave now else m) count + 1, fun k hk => ?_⟩
  have E := C79_ends_partial (g := Grp.mk _ left) L os topic k hk
  refine ⟨E.settled, ?_, ?_, ?_⟩
  · intro m hm hw
    have := E.gone _ (List.mem_map.2 ⟨m, hm, rfl⟩) (by rw [if_pos hw, hst m hm])
    rw [if_pos hw, hst m hm] at this
    exact this
  · intro m hm hw
    have hw' : ¬ who m = true := by simp [hw]
    have := E.stay _ (List.mem_map.2 ⟨m, hm, rfl⟩) (by rw [if_neg hw']; exact (S.act m hm).1)
    rw [if_neg hw'] at this
    exact this
  · intro m' hm'
    obtain ⟨x, hx, h1, h2⟩ := E.only m' hm'
    obtain ⟨m, hm, rfl⟩ := List.mem_map.1 hx
    by_cases hw : who m = true
    · rw [if_pos hw, hst m hm] at h2; exact absurd h2 hne
    · rw [if_neg hw] at h1; exact ⟨m, hm, by simpa using hw, h1⟩

/-- **C79** (one at a time). As long as a leaving member owns something, a cycle moves exactly one partition: one of a leaving member, to a member that
stays. Nobody that stays loses a partition, and nobody leaves with one. -/
theorem C79_one_at_a_time {g : Grp} {count : Nat} (L : Leaving g.members count) (o : Sched × Sched × Sched) (topic : Bytes)
    (h : ∃ m ∈ g.members, m.status = inactiveMember ∧ m.owned ≠ []) :
    ∃ d ∈ g.members, d.status = inactiveMember ∧ ∃ p ∈ d.owned, ∃ r ∈ g.members, r.status = activeMember ∧
      ∀ m' ∈ (g.cycle o count topic).members, ∃ m ∈ g.members, m'.id = m.id ∧ m'.status = m.status ∧
        ∀ q, q ∈ m'.owned ↔ if q = p then m = r else q ∈ m.owned := by
  obtain ⟨own', M', ht', R, hc⟩ := cycle_leave L.mid.1 L.mid.2 o topic
  rcases hc with ⟨d, hd, hds, p, hp, r, hr, hrs, rfl⟩ | ⟨hc, _⟩
  · refine ⟨d, hd, hds, p, (L.mid.1.has d hd p).2 hp, r, hr, hrs, ?_⟩
    intro m' hm'
    obtain ⟨m, hm, e1, e2⟩ := R.from' m' hm'
    refine ⟨m, hm, e1, e2, fun q => ?_⟩
    rw [M'.has m' hm']
    unfold setH
    split
    · constructor
      · intro e; exact mb_eq L.ids hm hr ((Option.some.inj e).trans e1).symm
      · rintro rfl; rw [e1]
    · rw [L.mid.1.has m hm, e1]
  · obtain ⟨m, hm, hs, hne⟩ := h
    exact absurd (hc m hm hs) hne

/-- **C79** (balance). In the end the members that stay share the partitions evenly, and nothing moves any more. -/
theorem C79_balanced_partial {g : Grp} {count : Nat} (L : Leaving g.members count) (os : Nat → Sched × Sched × Sched) (topic : Bytes) :
    ∃ n, ∀ k, n ≤ k → Ended g (g.cycles os count topic k) count ∧
      (∀ m ∈ (g.cycles os count topic k).members, ∀ m' ∈ (g.cycles os count topic k).members, m.owned.length ≤ m'.owned.length + 1) ∧
      ∀ p, holder (g.cycles os count topic k).members p = holder (g.cycles os count topic n).members p := by
  obtain ⟨n, h⟩ := cycles_even L.mid.1 L.mid.2 os topic
  refine ⟨n + (held g.members count + 1), fun k hk => ?_⟩
  obtain ⟨h1, h2, h3⟩ := h k (by omega)
  refine ⟨C79_ends_partial L os topic k (by omega), h2, fun p => ?_⟩
  rw [h3, (h _ (Nat.le_add_right n _)).2.2]

/-- **C79** (everybody leaves). If all members are leaving, whatever they own, prepare or have ready, one round ends the leave for all of them: they give up
everything at once and close their channels. -/
theorem C79_all_leave {g : Grp} (o : Sched) (count : Nat) (topic : Bytes) (hid : (g.members.map Mb.id).Nodup)
    (hs : ∀ m ∈ g.members, m.status = inactiveMember) :
    (g.round o count topic).members = [] ∧
    ∀ m ∈ g.members, ∃ m' ∈ (g.round o count topic).left, m'.id = m.id ∧ m'.owned = [] ∧ m'.closes = m.closes + 1 ∧ m'.status = defunct := by
  have hid' : ((g.members.map fun m => m.report topic).map Input.id).Nodup := by
    simpa [List.map_map, Function.comp_def, Mb.report] using hid
  have hno : ¬ ∃ x ∈ (g.members.map fun m => m.report topic), x.stays := by
    rintro ⟨x, hx, hst⟩
    obtain ⟨m, hm, rfl⟩ := List.mem_map.1 hx
    have := hs m hm
    simp [Input.stays, Mb.report, Input.md, this] at hst
  have hparts : ∀ i, (round o (g.members.map fun m => m.report topic) count topic).parts i = [] := by
    intro i
    have := (plan_empty o _ count topic hid' hno i).1
    simp [Rebalance.round, adjustCooperative, this]
  have key : ∀ m ∈ g.members, ∀ ins, (m.sync topic [] ins).id = m.id ∧ (m.sync topic [] ins).owned = [] ∧
      (m.sync topic [] ins).closes = m.closes + 1 ∧ (m.sync topic [] ins).status = defunct := by
    intro m hm ins
    simp [Mb.sync, Mb.parseSync, hs m hm, Mb.partitionsAssigned]
  constructor
  · apply List.eq_nil_iff_forall_not_mem.2
    intro m' hm'
    simp only [Grp.round, List.mem_filter, roundAll, List.mem_map] at hm'
    obtain ⟨⟨m, hm, rfl⟩, hst⟩ := hm'
    rw [hparts] at hst
    simp [(key m hm _).2.2.2] at hst
  · intro m hm
    refine ⟨m.sync topic [] ((round o (g.members.map fun m => m.report topic) count topic).instr m.id), ?_, key m hm _⟩
    simp only [Grp.round, List.mem_append, List.mem_filter, roundAll, List.mem_map]
    right
    refine ⟨⟨m, hm, by rw [hparts]⟩, by simp [(key m hm _).2.2.2]⟩

/-- Two leaving members, one of which owns something and prepares something else. -/
example : let g : Grp := ⟨[{ Mb.new 1 with owned := [0, 2], status := inactiveMember, preparing := [⟨1, [116]⟩] }, { Mb.new 2 with owned := [1], status := inactiveMember }], []⟩
    (g.members.map Mb.id).Nodup ∧ ∀ m ∈ g.members, m.status = inactiveMember := by
  decide

/-- Four members; the second and the third leave at time 7 (this is a case of `C79_leave_partial` and the others). -/
def four : List Mb :=
  [{ Mb.new 1 with owned := [0] }, { Mb.new 2 with owned := [1, 2] }, { Mb.new 3 with owned := [3] }, { Mb.new 4 with owned := [4] }]

theorem four_settled : Settled four 5 := by
  refine ⟨by decide, by decide, by decide, by decide, by decide, ?_, ?_⟩
  · intro p h1 h2
    have : p = 0 ∨ p = 1 ∨ p = 2 ∨ p = 3 ∨ p = 4 := by omega
    rcases this with rfl | rfl | rfl | rfl | rfl <;> decide
  · intro m hm m' hm' p hp hp'
    simp only [four, List.mem_cons, List.not_mem_nil, or_false] at hm hm'
    rcases hm with rfl | rfl | rfl | rfl <;> rcases hm' with rfl | rfl | rfl | rfl <;>
      first | rfl | (simp only [List.mem_cons, List.not_mem_nil, or_false] at hp hp'; omega)

def fourLeaving : List Mb := four.map fun m => if m.id == 2 || m.id == 3 then m.gracefullyLeave 7 else m

/-- The hypothesis of the theorems is met by any settled group some of whose members begin to leave. -/
theorem fourLeaving_leaving : Leaving fourLeaving 5 :=
  leaving_of_settled four_settled 7 (fun m => m.id == 2 || m.id == 3) ⟨{ Mb.new 1 with owned := [0] }, by decide, rfl⟩

example (os : Nat → Sched × Sched × Sched) : ∃ n, ∀ k, n ≤ k → Settled ((Grp.mk fourLeaving []).cycles os 5 [116] k).members 5 :=
  (C79_leave_partial four_settled 7 (fun m => m.id == 2 || m.id == 3) ⟨{ Mb.new 1 with owned := [0] }, by decide, rfl⟩ os [116]).imp
    fun _ h k hk => (h k hk).1

example : held fourLeaving 5 = 3 ∧
    ((Grp.mk fourLeaving []).cycles (fun _ => (asBuilt 0, reversed 1, asBuilt 2)) 5 [116] 4).members.map (fun m => (m.id, m.owned.length)) = [(1, 3), (4, 2)] ∧
    ((Grp.mk fourLeaving []).cycles (fun _ => (asBuilt 0, reversed 1, asBuilt 2)) 5 [116] 4).left.map (fun m => (m.id, m.closes)) = [(2, 1), (3, 1)] := by
  decide +kernel

/-! ### A ready entry that stays -/

/-- **C79** and C31 are violated: while a member that stays has a partition ready that it owns already, nothing ever moves. No member that owns something can
leave, whatever happens in whatever number of rounds; and the members keep exactly the partitions they have, however unequal. -/
theorem C79_stale_stuck {g : Grp} {count : Nat} {topic : Bytes} {own : Int → Option Nat} {rd : Nat → List TP} (M : MidL g.members count own rd)
    (ht : Total own count) (hr : ∀ m ∈ g.members, m.status = activeMember → ∀ q, (⟨q, topic⟩ : TP) ∈ m.ready → own q = some m.id)
    (hx : ∃ m ∈ g.members, m.status = activeMember ∧ m.ready ≠ []) (os : Nat → Sched × Sched × Sched) (n : Nat) :
    ∀ m ∈ g.members, m.status = activeMember ∨ m.owned ≠ [] → ∃ m' ∈ (g.cycles os count topic n).members,
      m'.id = m.id ∧ m'.status = m.status ∧ m'.closes = m.closes ∧ ∀ p, p ∈ m'.owned ↔ p ∈ m.owned :=
  (stale_cycles ⟨M, ht, hr, hx⟩ os n).2

/-- A group with four partitions. -/
def start : List Mb := [{ Mb.new 1 with owned := [0, 1, 2] }, Mb.new 2, { Mb.new 4 with owned := [3] }]

/-- What happens: in a round the second member is asked to prepare partition 2 (`asked`); the first member crashes, and the next round gives the orphaned
partition 2 to the second member, which is still preparing it (`inherited`); then the preparation is finished and reported (`finished`,
`streams/source_consumer.go:147-158`); then the third member begins to leave (`leaving`). -/
def asked : List Mb := roundAll (asBuilt 0) 4 [116] start
def inherited : List Mb := roundAll (asBuilt 0) 4 [116] (asked.filter fun m => m.id ≠ 1)
def finished : List Mb := inherited.map fun m => if m.id = 2 then m.partitionPrepared ⟨2, [116]⟩ else m
def leaving : List Mb := finished.map fun m => if m.id = 4 then m.gracefullyLeave 9 else m

theorem asked_eq : (asked.filter fun m => m.id = 2).map Mb.preparing = [[⟨2, [116]⟩]] := by decide +kernel

theorem finished_eq : finished = [{ Mb.new 2 with owned := [2, 0], ready := [⟨2, [116]⟩] }, { Mb.new 4 with owned := [1, 3] }] := by decide +kernel

theorem leaving_eq : leaving = [{ Mb.new 2 with owned := [2, 0], ready := [⟨2, [116]⟩] },
    { Mb.new 4 with owned := [1, 3], status := inactiveMember, leaveTime := 9 }] := by decide +kernel

theorem leaving_mid : MidL leaving 4 (holder leaving) (fun i => if i = 2 then [⟨2, [116]⟩] else []) ∧ Total (holder leaving) 4 := by
  rw [leaving_eq]
  refine midL_of_holder (by decide) (by decide) (by decide) (by decide) (by decide) ?_ ?_
  · intro p h1 h2
    have : p = 0 ∨ p = 1 ∨ p = 2 ∨ p = 3 := by omega
    rcases this with rfl | rfl | rfl | rfl <;> decide
  · intro m hm m' hm' p hp hp'
    simp only [List.mem_cons, List.not_mem_nil, or_false] at hm hm'
    rcases hm with rfl | rfl <;> rcases hm' with rfl | rfl <;>
      first | rfl | (simp only [List.mem_cons, List.not_mem_nil, or_false] at hp hp'; omega)

theorem leaving_mine : ∀ m ∈ leaving, m.status = activeMember → ∀ tp ∈ m.ready, tp.topic = [116] ∧ holder leaving tp.part = some m.id := by
  rw [leaving_eq]; decide

/-- **C79** is violated: the member that began to leave after this history waits for ever. -/
theorem C79_violated_stale : ¬ LeaveEnds ∧
    ∀ os n, ∃ m' ∈ ((Grp.mk leaving []).cycles os 4 [116] n).members, m'.id = 4 ∧ m'.status = inactiveMember ∧ m'.closes = 0 ∧ ∀ p, p ∈ m'.owned ↔ p = 1 ∨ p = 3 := by
  have hstuck : ∀ os n, ∃ m' ∈ ((Grp.mk leaving []).cycles os 4 [116] n).members,
      m'.id = 4 ∧ m'.status = inactiveMember ∧ m'.closes = 0 ∧ ∀ p, p ∈ m'.owned ↔ p = 1 ∨ p = 3 := by
    intro os n
    obtain ⟨m', h1, h2, h3, h4, h5⟩ := C79_stale_stuck (g := ⟨leaving, []⟩) leaving_mid.1 leaving_mid.2
      (fun m hm hs q hq => (leaving_mine m hm hs _ hq).2) (by rw [leaving_eq]; decide) os n
      { Mb.new 4 with owned := [1, 3], status := inactiveMember, leaveTime := 9 } (by rw [leaving_eq]; decide) (by decide)
    exact ⟨m', h1, h2, h3, h4, fun p => by rw [h5]; simp⟩
  refine ⟨fun h => ?_, hstuck⟩
  obtain ⟨n, hn⟩ := h ⟨leaving, []⟩ 4 [116] (fun _ => (asBuilt 0, asBuilt 0, asBuilt 0)) _ _ leaving_mid.1 leaving_mid.2 leaving_mine
  obtain ⟨m', h1, _, h3, _⟩ := hstuck (fun _ => (asBuilt 0, asBuilt 0, asBuilt 0)) n
  have := ((hn n (Nat.le_refl _)).settled.act m' h1).1
  rw [h3] at this
  exact absurd this (by decide)

/-- The same group without a leave, joined by an empty member. -/
def joined : List Mb := finished ++ [Mb.new 5, Mb.new 6]

/-- **C31** is violated: after the same history new members never get a partition, whatever happens in whatever number of rounds. -/
theorem C31_violated_stale (os : Nat → Sched × Sched × Sched) (n : Nat) : ∃ m' ∈ ((Grp.mk joined []).cycles os 4 [116] n).members, m'.id = 5 ∧ m'.owned = [] ∧
    ∃ m2 ∈ ((Grp.mk joined []).cycles os 4 [116] n).members, m2.id = 2 ∧ (0 : Int) ∈ m2.owned ∧ (2 : Int) ∈ m2.owned := by
  have e : joined = [{ Mb.new 2 with owned := [2, 0], ready := [⟨2, [116]⟩] }, { Mb.new 4 with owned := [1, 3] }, Mb.new 5, Mb.new 6] := by
    unfold joined; rw [finished_eq]; rfl
  have hm : MidL joined 4 (holder joined) (fun i => if i = 2 then [⟨2, [116]⟩] else []) ∧ Total (holder joined) 4 := by
    rw [e]
    refine midL_of_holder (by decide) (by decide) (by decide) (by decide) (by decide) ?_ ?_
    · intro p h1 h2
      have : p = 0 ∨ p = 1 ∨ p = 2 ∨ p = 3 := by omega
      rcases this with rfl | rfl | rfl | rfl <;> decide
    · intro m hm m' hm' p hp hp'
      simp only [List.mem_cons, List.not_mem_nil, or_false] at hm hm'
      rcases hm with rfl | rfl | rfl | rfl <;> rcases hm' with rfl | rfl | rfl | rfl <;>
        first | rfl | (simp only [List.mem_cons, List.not_mem_nil, or_false, Mb.new] at hp hp'; omega) | (simp [Mb.new] at hp hp')
  have hmine : ∀ m ∈ joined, m.status = activeMember → ∀ tp ∈ m.ready, holder joined tp.part = some m.id := by rw [e]; decide
  have key := C79_stale_stuck (g := ⟨joined, []⟩) (topic := [116]) hm.1 hm.2 (fun m hm hs q hq => hmine m hm hs _ hq) (by rw [e]; decide) os n
  obtain ⟨m', h1, h2, _, _, h5⟩ := key (Mb.new 5) (by rw [e]; decide) (.inl rfl)
  obtain ⟨m2, g1, g2, _, _, g5⟩ := key { Mb.new 2 with owned := [2, 0], ready := [⟨2, [116]⟩] } (by rw [e]; decide) (.inl rfl)
  exact ⟨m', h1, h2, List.eq_nil_iff_forall_not_mem.2 fun p hp => by simpa [Mb.new] using (h5 p).1 hp,
    m2, g1, g2, (g5 0).2 (by decide), (g5 2).2 (by decide)⟩

end Verif.Props.Leave

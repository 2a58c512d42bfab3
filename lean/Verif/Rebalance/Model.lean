import Verif.Base
import Verif.BTree.Model
/-
The incremental rebalancer: `streams/group_state.go` and the leader's half of
`streams/incr_rebalancer.go`.

Conventions. `int32` partitions are `Int` (no arithmetic is done on them). `MemberID` strings are `Nat`
(only compared for equality and order). `*incrGroupMember` pointers are the member ids, the structs they
point to are kept in `GS.mem`. The `btree.BTreeG[int32]` sets of partitions are duplicate free lists
(`insP`, `delP`): they are only asked for membership, for their size and for a random element, so their
order is not modelled. The trees of members are kept in order with the comparison functions of the code,
because there the keys change while the members are in the tree. Logging (including `printGroupState`,
190-205) is left out. Go's random map iteration and `rand.Intn` are the argument `Sched`.
-/
namespace Verif.Rebalance

/-- `TopicPartition`, `streams/topics.go:31-34`. -/
structure TP where
  part : Int
  topic : Bytes
  deriving DecidableEq, Repr

/-- `IncrGroupMemberMeta`, `streams/incr_rebalancer.go:63-68`; `status` is the integer of `MemberStatus`. -/
structure Meta where
  preparing : List TP
  ready : List TP
  status : Int
  leftAt : Int
  deriving DecidableEq, Repr

/-- `ActiveMember`, `streams/incr_rebalancer.go:48`. -/
def activeMember : Int := 0
/-- `InactiveMember`, `streams/incr_rebalancer.go:49`. -/
def inactiveMember : Int := 1
/-- `Defunct`, `streams/incr_rebalancer.go:50`. -/
def defunct : Int := 2

/-- The user data of a member as `json.Unmarshal` sees it in `streams/group_state.go:163-167`: absent,
not decodable (the struct may have been filled in partly), or decoded. -/
inductive UserData where
  | absent
  | bad (m : Meta)
  | ok (m : Meta)
  deriving DecidableEq, Repr

/-- What the leader knows about a member (`kmsg.JoinGroupResponseMember` and
`kmsg.ConsumerMemberMetadata`, read in `streams/group_state.go:96,134,163`). -/
structure Input where
  id : Nat
  owned : List (Bytes × List Int)
  user : UserData
  deriving DecidableEq, Repr

/-- The partitions of `topic` in the first entry for it: the loop with `break` of
`streams/group_state.go:134-158`. -/
def Input.ownedOf (i : Input) (topic : Bytes) : List Int :=
  match i.owned.find? fun e => e.1 = topic with
  | some e => e.2
  | none => []

/-- `IncrGroupMemberInstructions`, `streams/incr_rebalancer.go:53-56`. -/
structure Instr where
  prepare : List TP
  forget : List TP
  deriving DecidableEq, Repr

/-- `incrGroupMember`, `streams/incr_rebalancer.go:97-105` (the id is the index in `GS.mem`, the topic is
that of the group state). -/
structure M where
  md : Meta
  asg : List Int
  donatable : List Int
  donating : List Int
  instr : Instr
  deriving DecidableEq, Repr

/-- The struct literal of `streams/group_state.go:97-105`. -/
def M.fresh : M :=
  { md := { preparing := [], ready := [], status := activeMember, leftAt := 0 },
    asg := [], donatable := [], donating := [], instr := { prepare := [], forget := [] } }

/-- `groupState`, `streams/group_state.go:64-76`. `ready` lists the entries of the Go map. The map
`preparing` is only written, never read, and is left out; `members` are the ids in `ids`. -/
structure GS where
  mem : Nat → M
  ids : List Nat
  unassigned : List Int
  assigned : Int → Option Nat
  active : List Nat
  inactive : List Nat
  ready : List (TP × Nat)
  inReceivership : List Int
  inTransition : List Int
  count : Nat
  topic : Bytes

/-- `BTreeG[int32].ReplaceOrInsert` seen as a set operation (`streams/group_state.go:116,150,177`). -/
def insP (p : Int) (l : List Int) : List Int := if p ∈ l then l else p :: l

/-- `BTreeG[int32].Delete` seen as a set operation (`streams/group_state.go:115,253`). -/
def delP (p : Int) (l : List Int) : List Int := l.filter fun q => q ≠ p

/-- Assignment to a Go map of members (`streams/group_state.go:174,292`). -/
def putKV {K : Type} [DecidableEq K] (k : K) (v : Nat) (l : List (K × Nat)) : List (K × Nat) :=
  (k, v) :: l.filter fun e => e.1 ≠ k

/-- `delete` on a Go map of members (`streams/group_state.go:229`). -/
def delK {K : Type} [DecidableEq K] (k : K) (l : List (K × Nat)) : List (K × Nat) :=
  l.filter fun e => e.1 ≠ k

/-- Update of the struct of one member (Go: writes through the pointer). (`streams/group_state.go:78-260`.) -/
def updM (f : Nat → M) (i : Nat) (g : M → M) : Nat → M := fun j => if j = i then g (f j) else f j

/-- `activeAndPendingAssignments`, `streams/incr_rebalancer.go:125-129`. -/
def M.pending (m : M) : Nat :=
  m.donatable.length + m.donating.length + m.md.preparing.length + m.md.ready.length

/-- `incrGroupActiveLess`, `streams/group_state.go:36-49`. -/
def activeLess (mem : Nat → M) (a b : Nat) : Bool :=
  if (mem a).pending ≠ (mem b).pending then decide ((mem a).pending < (mem b).pending)
  else if (mem a).donatable.length + (mem a).donating.length
      ≠ (mem b).donatable.length + (mem b).donating.length then
    decide ((mem a).donatable.length + (mem a).donating.length
      < (mem b).donatable.length + (mem b).donating.length)
  else decide (a < b)

/-- `incrGroupInactiveLess`, `streams/group_state.go:27-33`. -/
def inactiveLess (mem : Nat → M) (a b : Nat) : Bool :=
  if (mem a).md.leftAt - (mem b).md.leftAt ≠ 0 then
    decide ((mem a).md.leftAt - (mem b).md.leftAt < 0)
  else decide (a < b)

/-- `withoutPartition`, `streams/group_state.go:54-62`. -/
def withoutPartition (tps : List TP) (p : Int) : List TP := tps.filter fun tp => tp.part ≠ p

/-- `containsTopicPartition`, `streams/incr_rebalancer.go:82-90`. -/
def containsTP (p : Int) (topic : Bytes) (tps : List TP) : Bool := tps.any fun c => c = ⟨p, topic⟩

/-- `isReadyFor`, `streams/incr_rebalancer.go:74-76`. -/
def Meta.isReadyFor (m : Meta) (p : Int) (topic : Bytes) : Bool := containsTP p topic m.ready

/-- `isPreparingFor`, `streams/incr_rebalancer.go:78-80`. -/
def Meta.isPreparingFor (m : Meta) (p : Int) (topic : Bytes) : Bool := containsTP p topic m.preparing

/-- `isPreparingOrReadyFor`, `streams/incr_rebalancer.go:70-72`. -/
def Meta.isPreparingOrReadyFor (m : Meta) (p : Int) (topic : Bytes) : Bool :=
  m.isReadyFor p topic || m.isPreparingFor p topic

/-! ### Building the group state -/

/-- `initReceivership`, `streams/group_state.go:161-188`. -/
def initReceivership (gs : GS) (i : Input) : GS :=
  match i.user with
  | .absent => gs
  | .bad m => { gs with mem := updM gs.mem i.id fun x => { x with md := m } }
  | .ok m =>
    let gs := { gs with mem := updM gs.mem i.id fun x => { x with md := m } }
    if m.status = activeMember then
      { gs with
        ready := m.ready.foldl (fun r tp => putKV tp i.id r) gs.ready
        inReceivership := (m.preparing ++ m.ready).foldl (fun r tp => insP tp.part r) gs.inReceivership }
    else
      { gs with mem := updM gs.mem i.id fun x =>
          { x with instr := { x.instr with forget := x.instr.forget ++ m.preparing ++ m.ready } } }

/-- One iteration of the inner loop of `initAssignments`, `streams/group_state.go:136-152`. -/
def initOwned (id : Nat) (gs : GS) (p : Int) : GS :=
  let gs := { gs with unassigned := delP p gs.unassigned }
  match gs.assigned p with
  | some _ => gs
  | none =>
    { gs with
      assigned := fun q => if q = p then some id else gs.assigned q
      mem := updM gs.mem id fun x => { x with asg := insP p x.asg, donatable := insP p x.donatable } }

/-- `initAssignments`, `streams/group_state.go:133-160`. -/
def initAssignments (gs : GS) (i : Input) : GS := (i.ownedOf gs.topic).foldl (initOwned i.id) gs

/-- The callback given to `EachMember`, `streams/group_state.go:96-110`. -/
def addMember (gs : GS) (i : Input) : GS :=
  let gs := { gs with
    ids := gs.ids ++ [i.id]
    mem := updM gs.mem i.id fun _ => M.fresh }
  initAssignments (initReceivership gs i) i

/-- The body of the loop over the partitions in receivership, `streams/group_state.go:113-119`. -/
def freeze (gs : GS) (p : Int) : GS :=
  match gs.assigned p with
  | some d => { gs with mem := updM gs.mem d fun x =>
      { x with donatable := delP p x.donatable, donating := insP p x.donating } }
  | none => gs

/-- The body of the loop inserting the members in the trees, `streams/group_state.go:122-128`. -/
def insertMember (gs : GS) (i : Nat) : GS :=
  if (gs.mem i).md.status = inactiveMember then
    { gs with inactive := (BTree.replaceOrInsert (inactiveLess gs.mem) i gs.inactive).1 }
  else
    { gs with active := (BTree.replaceOrInsert (activeLess gs.mem) i gs.active).1 }

/-- The initial value in `newGroupState`, `streams/group_state.go:79-94`. -/
def emptyState (count : Nat) (topic : Bytes) : GS :=
  { mem := fun _ => M.fresh, ids := [], unassigned := (List.range count).map Int.ofNat,
    assigned := fun _ => none, active := [], inactive := [], ready := [], inReceivership := [],
    inTransition := [], count := count, topic := topic }

/-- The choices made by Go's map iteration and by `rand.Intn` in one call of `balanceTopic`: the order in
which `range` visits the members (122), the unassigned partitions (269), the ready entries (289) and the
fully ready partitions (295) of `streams/group_state.go`, and the random index (304). -/
structure Sched where
  members : List Nat → List Nat
  parts : List Int → List Int
  ready : List (TP × Nat) → List (TP × Nat)
  full : List (Int × Nat) → List (Int × Nat)
  rnd : Nat
  members_perm : ∀ l, (members l).Perm l
  parts_perm : ∀ l, (parts l).Perm l
  ready_perm : ∀ l, (ready l).Perm l
  full_perm : ∀ l, (full l).Perm l

/-- `newGroupState`, `streams/group_state.go:78-131`. The loop 113-119 treats every partition separately,
its order does not matter. -/
def newGroupState (o : Sched) (ins : List Input) (count : Nat) (topic : Bytes) : GS :=
  let gs := ins.foldl addMember (emptyState count topic)
  let gs := gs.inReceivership.foldl freeze gs
  (o.members gs.ids).foldl insertMember gs

/-! ### Balancing -/

/-- `assignToActiveMember`, `streams/group_state.go:226-241`. -/
def assignToActiveMember (gs : GS) (p : Int) (r : Nat) : GS :=
  let active := (BTree.delete (activeLess gs.mem) r gs.active).1
  let mem := updM gs.mem r fun x =>
    { x with
      asg := insP p x.asg
      donatable := insP p x.donatable
      md := { x.md with
        preparing := withoutPartition x.md.preparing p
        ready := withoutPartition x.md.ready p }
      instr := { x.instr with prepare := withoutPartition x.instr.prepare p } }
  { gs with
    ready := delK ⟨p, gs.topic⟩ gs.ready
    mem := mem
    active := (BTree.replaceOrInsert (activeLess mem) r active).1
    inReceivership := insP p gs.inReceivership
    inTransition := insP p gs.inTransition }

/-- `instructActiveMemberToPrepareFor`, `streams/group_state.go:243-248`. -/
def instructToPrepare (gs : GS) (p : Int) (r : Nat) : GS :=
  let active := (BTree.delete (activeLess gs.mem) r gs.active).1
  let mem := updM gs.mem r fun x =>
    { x with instr := { x.instr with prepare := x.instr.prepare ++ [⟨p, gs.topic⟩] } }
  { gs with mem := mem, active := (BTree.replaceOrInsert (activeLess mem) r active).1 }

/-- `unassignFromDonor`, `streams/group_state.go:250-263` (both branches do the same). -/
def unassignFromDonor (gs : GS) (p : Int) (d : Nat) : GS :=
  { gs with mem := updM gs.mem d fun x =>
      { x with asg := delP p x.asg, donatable := delP p x.donatable, donating := insP p x.donating } }

/-- The recipient chosen in `distributeUnassigned`, `streams/group_state.go:272-280`: the first member in
ascending order that prepares or is ready, otherwise the minimum. -/
def chooseRecipient (gs : GS) (p : Int) : Option Nat :=
  match gs.active.find? fun c => (gs.mem c).md.isPreparingOrReadyFor p gs.topic with
  | some c => some c
  | none => gs.active.head?

/-- The loop body of `distributeUnassigned`, `streams/group_state.go:269-282`. `none` cannot occur, the
function returns early when there is no active member (266-268). -/
def distributeOne (gs : GS) (p : Int) : GS :=
  match chooseRecipient gs p with
  | some r => assignToActiveMember gs p r
  | none => gs

/-- `distributeUnassigned`, `streams/group_state.go:265-284`. -/
def distributeUnassigned (o : Sched) (gs : GS) : GS := (o.parts gs.unassigned).foldl distributeOne gs

/-- The map `fullyReady`, `streams/group_state.go:288-294`. -/
def fullyReady (o : Sched) (gs : GS) : List (Int × Nat) :=
  (o.ready gs.ready).foldl
    (fun f e => if (gs.mem e.2).md.isReadyFor e.1.part gs.topic then putKV e.1.part e.2 f else f) []

/-- The loop body of `deliverScheduledPartitionMoves`, `streams/group_state.go:295-300`. -/
def deliverOne (gs : GS) (e : Int × Nat) : GS :=
  match gs.assigned e.1 with
  | some d => assignToActiveMember (unassignFromDonor gs e.1 d) e.1 e.2
  | none => gs

/-- `deliverScheduledPartitionMoves`, `streams/group_state.go:286-301`. -/
def deliverMoves (o : Sched) (gs : GS) : GS := (o.full (fullyReady o gs)).foldl deliverOne gs

/-- `randomPartition`, `streams/group_state.go:303-316`: `rand.Intn` panics for an empty set, the
callers exclude that. -/
def randomPartition (o : Sched) (m : M) : Int :=
  (m.donatable[o.rnd % m.donatable.length]?).getD 0

/-- `donatePartition`, `streams/group_state.go:336-346`: taking the donor out of the tree and putting it
back. -/
def donatePartition (o : Sched) (gs : GS) (d r : Nat) : GS :=
  let del := BTree.delete (activeLess gs.mem) d gs.active
  let p := randomPartition o (gs.mem d)
  let active := match del.2 with
    | some _ => (BTree.replaceOrInsert (activeLess gs.mem) d del.1).1
    | none => del.1
  instructToPrepare { gs with active := active } p r

/-- The search of the first loop of `schedulePartitionMoves` for an inactive member that still has
something to donate, with `memberAt`: `streams/group_state.go:318-330,355-363`. -/
def inactiveDonor (gs : GS) : Option Nat :=
  gs.inactive.find? fun d => (gs.mem d).donatable.length ≠ 0

/-- `isImbalanced`, `streams/group_state.go:385-412`. -/
def isImbalanced (gs : GS) : Option (Nat × Nat) :=
  if gs.active.length < 2 then none
  else
    let target := gs.count / gs.active.length
    match gs.active.getLast?, gs.active.head? with
    | some d, some r =>
      if (gs.mem d).donatable.length > 1
          ∧ ((gs.mem r).pending < target ∨ (gs.mem d).pending > target + 1) then some (d, r)
      else none
    | _, _ => none

/-- The first loop of `schedulePartitionMoves`, `streams/group_state.go:355-370`, with the budget left. A
donation does not change the donor, so the position reached in the list of inactive members is the same
in each iteration. -/
def scheduleInactive (o : Sched) : Nat → GS → GS × Nat
  | 0, gs => (gs, 0)
  | b + 1, gs =>
    match inactiveDonor gs, gs.active.head? with
    | some d, some r => scheduleInactive o b (donatePartition o gs d r)
    | _, _ => (gs, b + 1)

/-- The second loop of `schedulePartitionMoves`, `streams/group_state.go:372-382`. -/
def scheduleActive (o : Sched) : Nat → GS → GS
  | 0, gs => gs
  | b + 1, gs =>
    match isImbalanced gs with
    | some (d, r) => scheduleActive o b (donatePartition o gs d r)
    | none => gs

/-- `schedulePartitionMoves`, `streams/group_state.go:348-383`; a budget that is not positive is 0. The
random index is the same for all moves of a call; the only budget in use is 1
(`streams/incr_rebalancer.go:281`), for which there is at most one. -/
def scheduleMoves (o : Sched) (budget : Nat) (gs : GS) : GS :=
  if gs.active.length = 0 then gs
  else
    let x := scheduleInactive o budget gs
    scheduleActive o x.2 x.1

/-- `balance`, `streams/group_state.go:207-224`. -/
def balance (o : Sched) (shifts : Nat) (gs : GS) : GS :=
  let gs := distributeUnassigned o gs
  let gs := deliverMoves o gs
  scheduleMoves o (shifts - gs.inReceivership.length - gs.inTransition.length) gs

/-- The budget, `streams/incr_rebalancer.go:281`. -/
def budget : Nat := 1

/-- What a round of the leader yields for one topic: for every member its partitions and its
instructions. `streams/incr_rebalancer.go:178-236`. -/
structure Plan where
  parts : Nat → List Int
  instr : Nat → Instr

/-- `balanceTopic`, `streams/incr_rebalancer.go:178-202` (without an active member nothing is added to the
plan), with the instructions collected in `Balance` (159-167). -/
def balanceTopic (o : Sched) (ins : List Input) (count : Nat) (topic : Bytes) : Plan :=
  let gs := newGroupState o ins count topic
  if gs.active.length = 0 then
    { parts := fun _ => [], instr := fun i => (gs.mem i).instr }
  else
    let gs := balance o budget gs
    { parts := fun i => if i ∈ gs.inactive ++ gs.active then (gs.mem i).asg else []
      instr := fun i => (gs.mem i).instr }

/-- `BalancePlan.AdjustCooperative` of `github.com/twmb/franz-go` (called in
`streams/incr_rebalancer.go:174`; external code, modelled by its documented behaviour): a partition that
is planned for a member that does not own it yet, while a member owning it loses it, is taken out of the
plan. -/
def adjustCooperative (ins : List Input) (topic : Bytes) (pl : Plan) : Plan :=
  { pl with parts := fun i => (pl.parts i).filter fun p =>
      ins.any (fun x => x.id = i && decide (p ∈ x.ownedOf topic)) ||
      ! ins.any (fun x => decide (p ∈ x.ownedOf topic) && decide (p ∉ pl.parts x.id)) }

/-- `Balance`, `streams/incr_rebalancer.go:148-176`, for one topic (`Source.Topic`; an event source
consumes a single topic). -/
def round (o : Sched) (ins : List Input) (count : Nat) (topic : Bytes) : Plan :=
  adjustCooperative ins topic (balanceTopic o ins count topic)

end Verif.Rebalance

import Verif.Worker.Model
/-
Invariants of the partition worker.
-/
set_option linter.unusedSimpArgs false
namespace Verif.Worker

/-! ### Parts of the state -/

/-- The event that waits for a slot. -/
def slotIt : Push → List It
  | .slot it _ => [it]
  | _ => []

/-- The event that has a slot and waits to be added to the pool. -/
def addIt : Push → List It
  | .add it _ => [it]
  | _ => []

/-- The event that was added to the pool and waits to be sent to the worker. -/
def putIt : Push → List It
  | .put it _ => [it]
  | _ => []

/-- The records of the batch that are still to come. -/
def rest : Push → List (Option Nat)
  | .next r => r
  | .inter r => r
  | .slot _ b => b.getD []
  | .add _ b => b.getD []
  | .put _ b => b.getD []
  | _ => []

/-- The event at the worker. -/
def wkIt : Wk → List It
  | .assign it => [it]
  | .run it => [it]
  | _ => []

def wkWait : Wk → List It
  | .assign it => [it]
  | _ => []

def wkRun : Wk → List It
  | .run it => [it]
  | _ => []

/-- The events that hold a slot. -/
def live (s : PW) : List It := addIt s.push ++ putIt s.push ++ s.evq ++ s.ijq ++ wkIt s.wk ++ s.pend

/-- The events without a decision about their producer, in order. -/
def undecided (s : PW) : List It := s.buf ++ addIt s.push ++ slotIt s.push

/-! ### The steps as a relation -/

/-- The steps of the worker and of the components that serve it, with an application that completes every event; not: new input, revocation, and
asynchronous jobs that return without completing their event. -/
def internal : Label → Bool
  | .offer _ => false
  | .interject => false
  | .revoke => false
  | .async _ b => b
  | _ => true

/-- The steps, with what they require and what they change. -/
inductive St (c : Cfg) (s : PW) : Bool → PW → Prop where
  | offer (recs) : s.revoked = false → s.sending = none → St c s false { s with sending := some recs, fetched := s.fetched ++ recs }
  | sendClosed {recs} : s.sending = some recs → s.push = .closed → St c s true { s with sending := none, panic := true, dropped := true }
  | send {recs} : s.sending = some recs → s.push ≠ .closed → s.input.length < 4 →
      St c s true { s with sending := none, input := s.input ++ [recs] }
  | interject : s.ijIn = [] → s.push ≠ .unborn → St c s false { s with ijIn := [s.nextTag], nextTag := s.nextTag + 1 }
  | ready (wm) : s.wk = .boot → St c s true { s with wk := .idle, push := .idle, highest := wm, wm := wm }
  | revoke : St c s false { s with revoked := true }
  | drop {recs input} : s.push = .idle → s.input = recs :: input → s.revoked = true →
      St c s true { s with input := input, dropped := true }
  | take {recs input} : s.push = .idle → s.input = recs :: input → s.revoked = false →
      St c s true { s with input := input, waiter := s.waiter + recs.length, push := .next recs }
  | ijLost {ij ijIn back p'} : (s.push = .idle ∧ back = none ∧ p' = .idle ∨ ∃ r, s.push = .inter r ∧ back = some r ∧ p' = .next r) →
      s.ijIn = ij :: ijIn → s.revoked = true → St c s true { s with ijIn := ijIn, lost := s.lost ++ [ij], push := p' }
  | ijSched {ij ijIn back} : (s.push = .idle ∧ back = none ∨ ∃ r, s.push = .inter r ∧ back = some r) →
      s.ijIn = ij :: ijIn → s.revoked = false → St c s true { s with
        ijIn := ijIn, waiter := s.waiter + 1, nextId := s.nextId + 1, sched := s.sched ++ [⟨s.nextId, none, ij⟩]
        push := .slot ⟨s.nextId, none, ij⟩ back }
  | stop : s.push = .idle → s.revoked = true → St c s true { s with push := .stop }
  | record {off r} : s.push = .next (some off :: r) → s.highest ≤ off → St c s true { s with
        push := .slot ⟨s.nextId, some off, 0⟩ (some r), nextId := s.nextId + 1, sched := s.sched ++ [⟨s.nextId, some off, 0⟩] }
  | stale {off r} : s.push = .next (some off :: r) → ¬ s.highest ≤ off → St c s true { s with push := .inter r, waiter := s.waiter - 1 }
  | noRecord {r} : s.push = .next (none :: r) → St c s true { s with push := .inter r, waiter := s.waiter - 1 }
  | batchEnd : s.push = .next [] → St c s true { s with push := .idle }
  | noInter {r} : s.push = .inter r → s.ijIn = [] → St c s true { s with push := .next r }
  | acquire {it back} : s.push = .slot it back → s.slots < c.maxPending →
      St c s true { s with slots := s.slots + 1, accepted := s.accepted ++ [it], push := .add it back }
  | poolAdd {it back} : s.push = .add it back → St c s true { s with buf := s.buf ++ [it], push := .put it back }
  | putEv {it back} : s.push = .put it back → it.off.isSome = true → s.evq.length < c.ecap →
      St c s true { s with evq := s.evq ++ [it], push := afterPut it back }
  | putIj {it back} : s.push = .put it back → it.off = none → s.ijq.length < 1 →
      St c s true { s with ijq := s.ijq ++ [it], push := afterPut it back }
  | refuse {it buf} : s.buf = it :: buf → s.revoked = true →
      St c s true { s with buf := buf, prod := upd s.prod it.id (some false), waiter := s.waiter - 1 }
  | give {it buf} (k : Nat) : s.buf = it :: buf → s.revoked = false → k ≤ 1 → St c s true { s with
      buf := buf, prod := upd s.prod it.id (some true), waiter := s.waiter + k, roots := s.roots + k }
  | handle {it evq} : s.wk = .idle → s.evq = it :: evq → St c s true { s with evq := evq, wk := .assign it }
  | handleIj {it ijq} : s.wk = .idle → s.ijq = it :: ijq → St c s true { s with ijq := ijq, wk := .assign it }
  | jobDone {it jobs} : s.jobs = (it, true) :: jobs → takesJobs s.wk = true → s.slots ≠ 0 → St c s true { s with
      slots := s.slots - 1, done := s.done ++ [it.id], released := s.released ++ [it.id], jobs := jobs, pend := s.pend.erase it }
  | jobMore {it jobs} : s.jobs = (it, false) :: jobs → takesJobs s.wk = true → St c s true { s with jobs := jobs }
  | gotEv {it off} : s.wk = .assign it → s.prod it.id = some true → it.off = some off →
      St c s true { s with wk := .run it, highest := off + 1, offered := s.offered ++ [off] }
  | gotIj {it} : s.wk = .assign it → s.prod it.id = some true → it.off = none → St c s true { s with wk := .run it }
  | gotNil {it} : s.wk = .assign it → s.prod it.id = some false → s.slots ≠ 0 → St c s true { s with
      wk := .idle, slots := s.slots - 1, released := s.released ++ [it.id]
      lost := if it.off.isSome then s.lost else s.lost ++ [it.tag]
      refused := s.refused || it.off.isSome }
  | retDone {it} : s.wk = .run it → (it, true) ∉ s.jobs → s.slots ≠ 0 → St c s true { s with
      slots := s.slots - 1, done := s.done ++ [it.id], released := s.released ++ [it.id], wk := .idle
      answered := s.answered ++ tagOf it }
  | retMore {it} : s.wk = .run it → St c s true { s with wk := .idle, pend := s.pend ++ [it], answered := s.answered ++ tagOf it }
  | async {it} (b) : (it ∈ s.pend ∨ s.wk = .run it) → (it, true) ∉ s.jobs → St c s b { s with jobs := s.jobs ++ [(it, b)] }
  | finalize {i} : i ∈ s.done → i ∉ s.fin → St c s true { s with fin := s.fin ++ [i], waiter := s.waiter - 1 }
  | root : s.roots ≠ 0 → St c s true { s with roots := s.roots - 1, waiter := s.waiter - 1 }
  | stopSend : s.push = .stop → s.wk = .idle → St c s true { s with push := .wait, waiting := true }
  | waited : s.waiting = true → s.waiter = 0 → St c s true { s with waiting := false, signal := true }
  | finish : s.signal = true → s.wk = .idle → s.push = .wait → St c s true { s with wk := .stopped, push := .closed, signal := false }

theorem st_of_step {c : Cfg} {s s' : PW} {l : Label} (h : step c s l = some s') : St c s (internal l) s' := by
  cases l with
  | offer recs =>
    unfold step at h; simp only at h; split at h
    · cases h
    · rename_i hh; cases h
      rw [not_or, not_not] at hh
      exact .offer recs (by simpa using hh.1) hh.2
  | send =>
    unfold step at h; simp only at h; split at h
    · rename_i hs; split at h
      · rename_i hp; cases h; exact .sendClosed hs hp
      · rename_i hp; split at h
        · rename_i hi; cases h; exact .send hs hp hi
        · cases h
    · cases h
  | interject =>
    unfold step at h; simp only at h; split at h
    · rename_i hh; cases h; exact .interject hh.1 hh.2
    · cases h
  | ready wm =>
    unfold step at h; simp only at h; split at h
    · rename_i hh; cases h; exact .ready wm hh
    · cases h
  | revoke => unfold step at h; cases h; exact .revoke
  | take =>
    unfold step at h; simp only at h; split at h
    · rename_i hp hi; split at h
      · rename_i hr; cases h; exact .drop hp hi hr
      · rename_i hr; cases h; exact .take hp hi (by simpa using hr)
    · cases h
  | takeIj =>
    unfold step at h; simp only at h; split at h
    · rename_i ij ijIn hp hi
      unfold schedIj at h
      split at h
      · rename_i hr; cases h; exact .ijLost (back := none) (.inl ⟨hp, rfl, rfl⟩) hi hr
      · rename_i hr; cases h; exact .ijSched (.inl ⟨hp, rfl⟩) hi (by simpa using hr)
    · cases h
  | stop =>
    unfold step at h; simp only at h; split at h
    · rename_i hh; cases h; exact .stop hh.1 hh.2
    · cases h
  | record =>
    unfold step at h; simp only at h; split at h
    · rename_i r rs hp
      split at h
      · split at h
        · rename_i hh; cases h; exact .record hp hh
        · rename_i hh; cases h; exact .stale hp hh
      · cases h; exact .noRecord hp
    · rename_i hp; cases h; exact .batchEnd hp
    · cases h
  | inter =>
    unfold step at h; simp only at h; split at h
    · rename_i rs ij ijIn hp hi
      unfold schedIj at h
      split at h
      · rename_i hr; cases h; exact .ijLost (back := some rs) (.inr ⟨rs, hp, rfl, rfl⟩) hi hr
      · rename_i hr; cases h; exact .ijSched (.inr ⟨rs, hp, rfl⟩) hi (by simpa using hr)
    · rename_i hp hi; cases h; exact .noInter hp hi
    · cases h
  | acquire =>
    unfold step at h; simp only at h; split at h
    · rename_i hp; split at h
      · rename_i hs; cases h; exact .acquire hp hs
      · cases h
    · cases h
  | poolAdd =>
    unfold step at h; simp only at h; split at h
    · rename_i hp; cases h; exact .poolAdd hp
    · cases h
  | put =>
    unfold step at h; simp only at h; split at h
    · rename_i hp; split at h
      · rename_i ho; split at h
        · rename_i hl; cases h; exact .putEv hp ho hl
        · cases h
      · rename_i ho; split at h
        · rename_i hl; cases h; exact .putIj hp (by simpa using ho) hl
        · cases h
    · cases h
  | assign root =>
    unfold step at h; simp only at h; split at h
    · rename_i hb; split at h
      · rename_i hr; cases h; exact .refuse hb hr
      · rename_i hr; cases h
        cases root with
        | true => exact .give 1 hb (by simpa using hr) (by omega)
        | false => exact .give 0 hb (by simpa using hr) (by omega)
    · cases h
  | handle =>
    unfold step at h; simp only at h; split at h
    · rename_i hw he; cases h; exact .handle hw he
    · cases h
  | handleIj =>
    unfold step at h; simp only at h; split at h
    · rename_i hw he; cases h; exact .handleIj hw he
    · cases h
  | job =>
    unfold step at h; simp only at h; split at h
    · rename_i it b jobs hj
      split at h
      · rename_i ht
        split at h
        · rename_i hb
          subst hb
          obtain ⟨s1, h1, rfl⟩ := Option.map_eq_some_iff.1 h
          unfold completeEv at h1
          split at h1
          · cases h1
          · rename_i hs; cases h1; exact .jobDone hj ht hs
        · rename_i hb
          have hb : b = false := by simpa using hb
          subst hb
          cases h; exact .jobMore hj ht
      · cases h
    · cases h
  | got =>
    unfold step at h; simp only at h; split at h
    · rename_i it hw
      split at h
      · rename_i hp; split at h
        · rename_i ho; cases h; exact .gotEv hw hp ho
        · rename_i ho; cases h; exact .gotIj hw hp ho
      · rename_i hp; split at h
        · cases h
        · rename_i hs; cases h; exact .gotNil hw hp hs
      · cases h
    · cases h
  | ret b =>
    unfold step at h; simp only at h; split at h
    · rename_i it hw
      split at h
      · split at h
        · cases h
        · rename_i hj
          obtain ⟨s1, h1, rfl⟩ := Option.map_eq_some_iff.1 h
          unfold completeEv at h1
          split at h1
          · cases h1
          · rename_i hs; cases h1; exact .retDone hw hj hs
      · cases h; exact .retMore hw
    · cases h
  | async it b =>
    unfold step at h; simp only at h; split at h
    · rename_i hh; cases h; exact .async b hh.1 hh.2
    · cases h
  | finalize i =>
    unfold step at h; simp only at h; split at h
    · rename_i hh; cases h; exact .finalize hh.1 hh.2
    · cases h
  | root =>
    unfold step at h; simp only at h; split at h
    · cases h
    · rename_i hh; cases h; exact .root hh
  | stopSend =>
    unfold step at h; simp only at h; split at h
    · rename_i hh; cases h; exact .stopSend hh.1 hh.2
    · cases h
  | waited =>
    unfold step at h; simp only at h; split at h
    · rename_i hh; cases h; exact .waited hh.1 hh.2
    · cases h
  | finish =>
    unfold step at h; simp only at h; split at h
    · rename_i hh; cases h; exact .finish hh.1 hh.2.1 hh.2.2
    · cases h

/-! ### Identity and producers -/

structure InvA (s : PW) : Prop where
  ids : s.sched.map It.id = List.range s.nextId
  acc : s.sched = s.accepted ++ slotIt s.push
  dec : ∃ pre, s.sched = pre ++ undecided s ∧ ∀ i, s.prod i ≠ none ↔ i ∈ pre.map It.id
  rev : ∀ i, s.prod i = some false → s.revoked = true
  ord : ∀ i j, s.prod i = some false → s.prod j = some true → j < i
  born : s.push = .unborn ↔ s.wk = .boot

theorem afterPut_cases (it : It) (b : Option (List (Option Nat))) :
    slotIt (afterPut it b) = [] ∧ addIt (afterPut it b) = [] ∧ putIt (afterPut it b) = [] ∧ afterPut it b ≠ .unborn ∧
    rest (afterPut it b) = b.getD [] := by
  cases b with
  | none => exact ⟨rfl, rfl, rfl, by simp [afterPut], rfl⟩
  | some r =>
    have : afterPut it (some r) = if it.off.isSome then .inter r else .next r := rfl
    rw [this]
    split <;> exact ⟨rfl, rfl, rfl, by simp, rfl⟩

section
variable {c : Cfg}

theorem invA_init : InvA PW.init :=
  { ids := rfl, acc := rfl, dec := ⟨[], rfl, by simp [PW.init]⟩, rev := by simp [PW.init], ord := by simp [PW.init],
    born := by simp [PW.init] }

/-- Steps that leave identities and producers alone. -/
theorem invA_frame {s s' : PW} (I : InvA s) (h1 : s'.sched = s.sched) (h2 : s'.nextId = s.nextId) (h3 : s'.accepted = s.accepted)
    (h4 : s'.buf = s.buf) (h5 : addIt s'.push = addIt s.push) (h6 : slotIt s'.push = slotIt s.push)
    (h7 : s'.prod = s.prod) (h8 : s.revoked = true → s'.revoked = true) (h9 : s'.push = .unborn ↔ s'.wk = .boot) : InvA s' :=
  { ids := by rw [h1, h2]; exact I.ids
    acc := by rw [h1, h3, h6]; exact I.acc
    dec := by
      obtain ⟨pre, k1, k2⟩ := I.dec
      refine ⟨pre, ?_, ?_⟩
      · unfold undecided at *; rw [h1, h4, h5, h6]; exact k1
      · rw [h7]; exact k2
    rev := by rw [h7]; exact fun i hi => h8 (I.rev i hi)
    ord := by rw [h7]; exact I.ord
    born := h9 }

theorem range_snoc_lt {l : List It} {n : Nat} (h : l.map It.id = List.range n) {it : It} (hm : it ∈ l) : it.id < n := by
  have : it.id ∈ l.map It.id := List.mem_map.2 ⟨it, hm, rfl⟩
  rw [h] at this
  exact List.mem_range.1 this

/-- Scheduling a new event. -/
theorem invA_sched {s s' : PW} (I : InvA s) {it : It} (hid : it.id = s.nextId) (hp : slotIt s.push = []) (hp' : addIt s.push = [])
    (h1 : s'.sched = s.sched ++ [it]) (h2 : s'.nextId = s.nextId + 1) (h3 : s'.accepted = s.accepted)
    (h4 : s'.buf = s.buf) (h5 : addIt s'.push = []) (h6 : slotIt s'.push = [it])
    (h7 : s'.prod = s.prod) (h8 : s'.revoked = s.revoked) (h9 : s'.push = .unborn ↔ s'.wk = .boot) : InvA s' :=
  { ids := by rw [h1, h2, List.map_append, I.ids, List.range_succ]; simp [hid]
    acc := by rw [h1, h3, h6, I.acc, hp]; simp
    dec := by
      obtain ⟨pre, k1, k2⟩ := I.dec
      refine ⟨pre, ?_, ?_⟩
      · unfold undecided at *; rw [h1, h4, h5, h6, k1, hp, hp']; simp
      · rw [h7]; exact k2
    rev := by rw [h7, h8]; exact I.rev
    ord := by rw [h7]; exact I.ord
    born := h9 }

/-- Removing the first undecided event. -/
theorem invA_assign {s : PW} (I : InvA s) {it : It} {buf : List It} (hb : s.buf = it :: buf) :
    ∃ pre, s.sched = pre ++ it :: (buf ++ addIt s.push ++ slotIt s.push) ∧ (∀ i, s.prod i ≠ none ↔ i ∈ pre.map It.id) ∧
      (∀ i, s.prod i ≠ none → i < it.id) := by
  obtain ⟨pre, k1, k2⟩ := I.dec
  unfold undecided at k1
  rw [hb] at k1
  refine ⟨pre, by simpa using k1, k2, ?_⟩
  intro i hi
  have hs : (s.sched.map It.id).Pairwise (· < ·) := by rw [I.ids]; exact List.pairwise_lt_range
  rw [k1] at hs
  simp only [List.map_append, List.append_assoc, List.map_cons, List.cons_append, List.pairwise_append] at hs
  exact hs.2.2 _ ((k2 i).1 hi) _ (by simp)

theorem invA_step {s s' : PW} (I : InvA s) {e : Bool} (h : St c s e s') : InvA s' := by
  have nb : ∀ {p : Push}, s.push = p → p ≠ .unborn → s.wk ≠ .boot := by
    intro p h1 h2 h3; exact h2 (h1 ▸ I.born.2 h3)
  have nu : ∀ {w : Wk}, s.wk = w → w ≠ .boot → s.push ≠ .unborn := by
    intro p h1 h2 h3; exact h2 (h1 ▸ I.born.1 h3)
  have same : ∀ {p' : Push}, addIt p' = addIt s.push → slotIt p' = slotIt s.push → p' ≠ .unborn → s.wk ≠ .boot →
      InvA { s with push := p' } := fun h1 h2 h3 h4 =>
    invA_frame I rfl rfl rfl rfl h1 h2 rfl id ⟨fun h => absurd h h3, fun h => absurd h h4⟩
  cases h with
  | ready wm hw =>
    have hp := I.born.2 hw
    exact invA_frame I rfl rfl rfl rfl (by rw [hp]; rfl) (by rw [hp]; rfl) rfl id (by simp)
  | revoke => exact invA_frame I rfl rfl rfl rfl rfl rfl rfl (fun _ => rfl) I.born
  | take hp hi hr =>
    exact invA_frame I rfl rfl rfl rfl (by rw [hp]; rfl) (by rw [hp]; rfl) rfl id
      ⟨by simp, fun h => absurd h (nb hp (by simp))⟩
  | ijLost hp hi hr =>
    rcases hp with ⟨hp, _, rfl⟩ | ⟨r, hp, _, rfl⟩
    · exact invA_frame I rfl rfl rfl rfl (by rw [hp]) (by rw [hp]) rfl id ⟨by simp, fun h => absurd h (nb hp (by simp))⟩
    · exact invA_frame I rfl rfl rfl rfl (by rw [hp]; rfl) (by rw [hp]; rfl) rfl id ⟨by simp, fun h => absurd h (nb hp (by simp))⟩
  | ijSched hp hi hr =>
    have h1 : slotIt s.push = [] ∧ addIt s.push = [] ∧ s.wk ≠ .boot := by
      rcases hp with ⟨hp, _⟩ | ⟨r, hp, _⟩
      · exact ⟨by rw [hp]; rfl, by rw [hp]; rfl, nb hp (by simp)⟩
      · exact ⟨by rw [hp]; rfl, by rw [hp]; rfl, nb hp (by simp)⟩
    exact invA_sched I rfl h1.1 h1.2.1 rfl rfl rfl rfl rfl rfl rfl rfl ⟨by simp, fun h => absurd h h1.2.2⟩
  | record hp hh =>
    exact invA_sched I rfl (by rw [hp]; rfl) (by rw [hp]; rfl) rfl rfl rfl rfl rfl rfl rfl rfl
      ⟨by simp, fun h => absurd h (nb hp (by simp))⟩
  | stale hp _ =>
    exact invA_frame I rfl rfl rfl rfl (by rw [hp]; rfl) (by rw [hp]; rfl) rfl id
      ⟨by simp, fun h => absurd h (nb hp (by simp))⟩
  | noRecord hp =>
    exact invA_frame I rfl rfl rfl rfl (by rw [hp]; rfl) (by rw [hp]; rfl) rfl id
      ⟨by simp, fun h => absurd h (nb hp (by simp))⟩
  | stop hp _ => exact same (by rw [hp]; rfl) (by rw [hp]; rfl) (by simp) (nb hp (by simp))
  | batchEnd hp => exact same (by rw [hp]; rfl) (by rw [hp]; rfl) (by simp) (nb hp (by simp))
  | noInter hp _ => exact same (by rw [hp]; rfl) (by rw [hp]; rfl) (by simp) (nb hp (by simp))
  | @acquire it back hp hs =>
    obtain ⟨pre, k1, k2⟩ := I.dec
    exact
      { ids := I.ids
        acc := by show s.sched = (s.accepted ++ [it]) ++ []; rw [I.acc, hp]; simp [slotIt]
        dec := ⟨pre, by rw [k1]; simp [undecided, hp, slotIt, addIt], k2⟩
        rev := I.rev
        ord := I.ord
        born := ⟨by simp, fun h => absurd h (nb hp (by simp))⟩ }
  | @poolAdd it back hp =>
    obtain ⟨pre, k1, k2⟩ := I.dec
    exact
      { ids := I.ids
        acc := by show s.sched = s.accepted ++ []; rw [I.acc, hp]; simp [slotIt]
        dec := ⟨pre, by rw [k1]; simp [undecided, hp, slotIt, addIt], k2⟩
        rev := I.rev
        ord := I.ord
        born := ⟨by simp, fun h => absurd h (nb hp (by simp))⟩ }
  | @putEv it back hp _ _ =>
    obtain ⟨a1, a2, a3, a4, a5⟩ := afterPut_cases it back
    exact invA_frame I rfl rfl rfl rfl (by rw [hp]; exact a2) (by rw [hp]; exact a1) rfl id
            ⟨fun h => absurd h a4, fun h => absurd h (nb hp (by simp))⟩
  | @putIj it back hp _ _ =>
    obtain ⟨a1, a2, a3, a4, a5⟩ := afterPut_cases it back
    exact invA_frame I rfl rfl rfl rfl (by rw [hp]; exact a2) (by rw [hp]; exact a1) rfl id
            ⟨fun h => absurd h a4, fun h => absurd h (nb hp (by simp))⟩
  | @refuse it buf hb hr =>
    obtain ⟨pre, k1, k2, k3⟩ := invA_assign I hb
    exact
      { ids := I.ids
        acc := I.acc
        dec := by
          refine ⟨pre ++ [it], by show s.sched = _; rw [k1]; simp [undecided], ?_⟩
          intro i
          show upd s.prod it.id (some false) i ≠ none ↔ _
          unfold upd
          by_cases e : i = it.id
          · simp [e]
          · simp only [e, if_false, List.map_append, List.map_cons, List.map_nil, List.mem_append, List.mem_singleton, or_false]
            exact k2 i
        rev := fun _ _ => hr
        ord := by
          intro i j
          show upd s.prod it.id (some false) i = _ → upd s.prod it.id (some false) j = _ → _
          unfold upd
          intro h1 h2
          by_cases e2 : j = it.id
          · simp [e2] at h2
          · simp only [e2, if_false] at h2
            by_cases e1 : i = it.id
            · rw [e1]; exact k3 j (by rw [h2]; simp)
            · simp only [e1, if_false] at h1
              exact I.ord i j h1 h2
        born := I.born }
  | @give it buf k hb hr _ =>
    obtain ⟨pre, k1, k2, k3⟩ := invA_assign I hb
    have hno : ∀ i, s.prod i ≠ some false := fun i hi => by rw [I.rev i hi] at hr; cases hr
    exact
      { ids := I.ids
        acc := I.acc
        dec := by
          refine ⟨pre ++ [it], by show s.sched = _; rw [k1]; simp [undecided], ?_⟩
          intro i
          show upd s.prod it.id (some true) i ≠ none ↔ _
          unfold upd
          by_cases e : i = it.id
          · simp [e]
          · simp only [e, if_false, List.map_append, List.map_cons, List.map_nil, List.mem_append, List.mem_singleton, or_false]
            exact k2 i
        rev := by
          intro i
          show upd s.prod it.id (some true) i = _ → _
          unfold upd
          by_cases e1 : i = it.id
          · simp [e1]
          · simp only [e1, if_false]; exact fun h1 => absurd h1 (hno i)
        ord := by
          intro i j
          show upd s.prod it.id (some true) i = _ → _
          unfold upd
          by_cases e1 : i = it.id
          · simp [e1]
          · simp only [e1, if_false]; exact fun h1 => absurd h1 (hno i)
        born := I.born }
  | handle hw _ => exact invA_frame I rfl rfl rfl rfl rfl rfl rfl id ⟨fun h => absurd h (nu hw (by simp)), by simp⟩
  | handleIj hw _ => exact invA_frame I rfl rfl rfl rfl rfl rfl rfl id ⟨fun h => absurd h (nu hw (by simp)), by simp⟩
  | gotEv hw _ _ => exact invA_frame I rfl rfl rfl rfl rfl rfl rfl id ⟨fun h => absurd h (nu hw (by simp)), by simp⟩
  | gotIj hw _ _ => exact invA_frame I rfl rfl rfl rfl rfl rfl rfl id ⟨fun h => absurd h (nu hw (by simp)), by simp⟩
  | gotNil hw _ _ => exact invA_frame I rfl rfl rfl rfl rfl rfl rfl id ⟨fun h => absurd h (nu hw (by simp)), by simp⟩
  | retDone hw _ _ => exact invA_frame I rfl rfl rfl rfl rfl rfl rfl id ⟨fun h => absurd h (nu hw (by simp)), by simp⟩
  | retMore hw => exact invA_frame I rfl rfl rfl rfl rfl rfl rfl id ⟨fun h => absurd h (nu hw (by simp)), by simp⟩
  | stopSend hp hw =>
    exact invA_frame I rfl rfl rfl rfl (by rw [hp]; rfl) (by rw [hp]; rfl) rfl id
      ⟨by simp, fun h => by rw [hw] at h; cases h⟩
  | finish _ _ hp => exact invA_frame I rfl rfl rfl rfl (by rw [hp]; rfl) (by rw [hp]; rfl) rfl id (by simp)
  | _ => exact invA_frame I rfl rfl rfl rfl rfl rfl rfl id I.born

theorem invA_reach {s : PW} (h : Reach c s) : InvA s := by
  induction h with
  | init => exact invA_init
  | step l _ hs ih => exact invA_step ih (st_of_step hs)

/-! ### Slots -/

def ids (l : List It) (i : Nat) : Nat := (l.map It.id).count i

theorem ids_append (l m : List It) (i : Nat) : ids (l ++ m) i = ids l i + ids m i := by simp [ids]
theorem ids_nil (i : Nat) : ids [] i = 0 := rfl
theorem ids_cons (it : It) (l : List It) (i : Nat) : ids (it :: l) i = ids l i + if it.id = i then 1 else 0 := by
  simp [ids, List.count_cons]
theorem ids_erase {it : It} {l : List It} (h : it ∈ l) (i : Nat) : ids (l.erase it) i + (if it.id = i then 1 else 0) = ids l i := by
  have := (List.perm_cons_erase h).map It.id
  unfold ids
  rw [this.count_eq]
  simp [List.count_cons]
theorem ids_pos {it : It} {l : List It} (h : it ∈ l) : 0 < ids l it.id :=
  List.count_pos_iff.2 (List.mem_map.2 ⟨it, h, rfl⟩)

structure InvB (c : Cfg) (s : PW) : Prop where
  cnt : ∀ i, ids (live s) i + s.released.count i = ids s.accepted i
  slots : s.slots = (live s).length
  cap : s.slots ≤ c.maxPending
  sub : ∀ it ∈ live s, it ∈ s.accepted
  j1 : ∀ it, (it, true) ∈ s.jobs → it ∈ s.pend ∨ s.wk = .run it
  j2 : (s.jobs.filter (·.2)).Nodup
  tru : ∀ it ∈ wkRun s.wk ++ s.pend, s.prod it.id = some true
  dn : ∀ i ∈ s.done, i ∈ s.released ∧ s.prod i = some true
  rel : ∀ i ∈ s.released, i ∈ s.done ∨ s.prod i = some false
  evs : ∀ it ∈ s.evq, it.off.isSome = true
  ijs : ∀ it ∈ s.ijq, it.off = none
  fin : s.fin.Nodup ∧ ∀ i ∈ s.fin, i ∈ s.done

theorem invB_init : InvB c PW.init := by
  constructor <;> simp [PW.init, live, addIt, putIt, wkIt, wkRun, ids]

/-- Steps that move nothing. -/
theorem invB_frame {s s' : PW} (I : InvB c s) (h1 : live s' = live s) (h2 : s'.released = s.released)
    (h3 : s'.accepted = s.accepted) (h4 : s'.slots = s.slots) (h5 : s'.jobs = s.jobs) (h6 : s'.pend = s.pend)
    (h7 : s'.wk = s.wk) (h8 : s'.prod = s.prod) (h9 : s'.done = s.done) (h10 : s'.evq = s.evq) (h11 : s'.ijq = s.ijq)
    (h12 : s'.fin = s.fin) : InvB c s' :=
  { cnt := by rw [h1, h2, h3]; exact I.cnt
    slots := by rw [h1, h4]; exact I.slots
    cap := by rw [h4]; exact I.cap
    sub := by rw [h1, h3]; exact I.sub
    j1 := by rw [h5, h6, h7]; exact I.j1
    j2 := by rw [h5]; exact I.j2
    tru := by rw [h6, h7, h8]; exact I.tru
    dn := by rw [h9, h2, h8]; exact I.dn
    rel := by rw [h9, h2, h8]; exact I.rel
    evs := by rw [h10]; exact I.evs
    ijs := by rw [h11]; exact I.ijs
    fin := by rw [h12, h9]; exact I.fin }

theorem live_push {s s' : PW} (h1 : addIt s'.push = addIt s.push) (h2 : putIt s'.push = putIt s.push) (h3 : s'.evq = s.evq)
    (h4 : s'.ijq = s.ijq) (h5 : s'.wk = s.wk) (h6 : s'.pend = s.pend) : live s' = live s := by
  unfold live; rw [h1, h2, h3, h4, h5, h6]

/-- The pusher moves on without touching an event that holds a slot. -/
theorem invB_push {s s' : PW} (I : InvB c s) (h1 : addIt s'.push = addIt s.push) (h1' : putIt s'.push = putIt s.push)
    (h2 : s'.released = s.released)
    (h3 : s'.accepted = s.accepted) (h4 : s'.slots = s.slots) (h5 : s'.jobs = s.jobs) (h6 : s'.pend = s.pend)
    (h7 : s'.wk = s.wk) (h8 : s'.prod = s.prod) (h9 : s'.done = s.done) (h10 : s'.evq = s.evq) (h11 : s'.ijq = s.ijq)
    (h12 : s'.fin = s.fin) : InvB c s' :=
  invB_frame I (live_push h1 h1' h10 h11 h7 h6) h2 h3 h4 h5 h6 h7 h8 h9 h10 h11 h12

theorem accepted_sched {s : PW} (A : InvA s) {it : It} (h : it ∈ s.accepted) : it ∈ s.sched := by
  rw [A.acc]; exact List.mem_append.2 (.inl h)

theorem sched_inj {s : PW} (A : InvA s) {a b : It} (ha : a ∈ s.sched) (hb : b ∈ s.sched) (h : a.id = b.id) : a = b := by
  have : (s.sched.map It.id).Nodup := by rw [A.ids]; exact List.nodup_range
  exact List.inj_on_of_nodup_map this ha hb h

/-- An event that waits for a decision has none. -/
theorem undecided_prod {s : PW} (A : InvA s) {it : It} (h : it ∈ undecided s) : s.prod it.id = none := by
  obtain ⟨pre, k1, k2⟩ := A.dec
  by_contra hc
  have h1 := (k2 it.id).1 hc
  have hn : (s.sched.map It.id).Nodup := by rw [A.ids]; exact List.nodup_range
  rw [k1, List.map_append, List.nodup_append] at hn
  exact hn.2.2 _ h1 _ (List.mem_map.2 ⟨it, h, rfl⟩) rfl

theorem cnt_le_one {s : PW} (A : InvA s) (i : Nat) : ids s.accepted i ≤ 1 := by
  have : (s.accepted.map It.id).Nodup := by
    have h1 : (s.sched.map It.id).Nodup := by rw [A.ids]; exact List.nodup_range
    rw [A.acc, List.map_append] at h1
    exact (List.nodup_append.1 h1).1
  exact List.nodup_iff_count_le_one.1 this i

theorem prod_mono {s s' : PW} (A : InvA s) {i : Nat} {b : Bool} {e : Bool} (h : St c s e s') (hp : s.prod i = some b) : s'.prod i = some b := by
  cases h with
  | @refuse it buf hb hr =>
    have := undecided_prod A (it := it) (by unfold undecided; rw [hb]; simp)
    show upd s.prod it.id _ i = _
    unfold upd
    rw [if_neg (by rintro rfl; rw [this] at hp; cases hp)]
    exact hp
  | @give it buf k hb hr _ =>
    have := undecided_prod A (it := it) (by unfold undecided; rw [hb]; simp)
    show upd s.prod it.id _ i = _
    unfold upd
    rw [if_neg (by rintro rfl; rw [this] at hp; cases hp)]
    exact hp
  | _ => exact hp

theorem invB_step {s s' : PW} (A : InvA s) (I : InvB c s) {e : Bool} (h : St c s e s') : InvB c s' := by
  have pm : ∀ {i b}, s.prod i = some b → s'.prod i = some b := fun hp => prod_mono A h hp
  cases h with
  | ready wm hw =>
    have hp := A.born.2 hw
    refine { I with cnt := ?_, slots := ?_, sub := ?_, j1 := ?_, tru := ?_ }
    · intro i; have := I.cnt i; simpa [live, hp, hw, addIt, putIt, wkIt] using this
    · have := I.slots; simpa [live, hp, hw, addIt, putIt, wkIt] using this
    · have := I.sub; simpa [live, hp, hw, addIt, putIt, wkIt] using this
    · have := I.j1; simpa [hw] using this
    · have := I.tru; simpa [hw, wkRun] using this
  | take hp hi hr => exact invB_push I (by rw [hp]; rfl) (by rw [hp]; rfl) rfl rfl rfl rfl rfl rfl rfl rfl rfl rfl rfl
  | ijLost hp hi hr =>
    rcases hp with ⟨hp, _, rfl⟩ | ⟨r, hp, _, rfl⟩
    · exact invB_push I (by rw [hp]) (by rw [hp]) rfl rfl rfl rfl rfl rfl rfl rfl rfl rfl rfl
    · exact invB_push I (by rw [hp]; rfl) (by rw [hp]; rfl) rfl rfl rfl rfl rfl rfl rfl rfl rfl rfl rfl
  | ijSched hp hi hr =>
    have h1 : addIt s.push = [] ∧ putIt s.push = [] := by
      rcases hp with ⟨hp, _⟩ | ⟨r, hp, _⟩ <;> exact ⟨by rw [hp]; rfl, by rw [hp]; rfl⟩
    exact invB_push I h1.1.symm h1.2.symm rfl rfl rfl rfl rfl rfl rfl rfl rfl rfl rfl
  | stop hp _ => exact invB_push I (by rw [hp]; rfl) (by rw [hp]; rfl) rfl rfl rfl rfl rfl rfl rfl rfl rfl rfl rfl
  | record hp _ => exact invB_push I (by rw [hp]; rfl) (by rw [hp]; rfl) rfl rfl rfl rfl rfl rfl rfl rfl rfl rfl rfl
  | stale hp _ => exact invB_push I (by rw [hp]; rfl) (by rw [hp]; rfl) rfl rfl rfl rfl rfl rfl rfl rfl rfl rfl rfl
  | noRecord hp => exact invB_push I (by rw [hp]; rfl) (by rw [hp]; rfl) rfl rfl rfl rfl rfl rfl rfl rfl rfl rfl rfl
  | batchEnd hp => exact invB_push I (by rw [hp]; rfl) (by rw [hp]; rfl) rfl rfl rfl rfl rfl rfl rfl rfl rfl rfl rfl
  | noInter hp _ => exact invB_push I (by rw [hp]; rfl) (by rw [hp]; rfl) rfl rfl rfl rfl rfl rfl rfl rfl rfl rfl rfl
  | stopSend hp _ => exact invB_push I (by rw [hp]; rfl) (by rw [hp]; rfl) rfl rfl rfl rfl rfl rfl rfl rfl rfl rfl rfl
  | finish _ hw hp =>
    refine { I with cnt := ?_, slots := ?_, sub := ?_, j1 := ?_, tru := ?_ }
    · intro i; have := I.cnt i; simpa [live, hp, hw, addIt, putIt, wkIt] using this
    · have := I.slots; simpa [live, hp, hw, addIt, putIt, wkIt] using this
    · have := I.sub; simpa [live, hp, hw, addIt, putIt, wkIt] using this
    · have := I.j1; simpa [hw] using this
    · have := I.tru; simpa [hw, wkRun] using this
  | @acquire it back hp hs =>
    refine { I with cnt := ?_, slots := ?_, cap := by show s.slots + 1 ≤ _; omega, sub := ?_ }
    · intro i
      have := I.cnt i
      simp only [live, hp, addIt, putIt, ids_append, ids_nil, ids_cons] at this ⊢
      omega
    · have := I.slots
      simp only [live, hp, addIt, putIt, List.length_append, List.length_nil, List.length_cons] at this ⊢
      omega
    · intro x hx
      have := I.sub x
      simp only [live, hp, addIt, putIt, List.mem_append, List.mem_singleton, List.not_mem_nil, false_or] at this hx ⊢
      tauto
  | @poolAdd it back hp =>
    refine { I with cnt := ?_, slots := ?_, sub := ?_ }
    · intro i; have := I.cnt i; simpa [live, hp, addIt, putIt] using this
    · have := I.slots; simpa [live, hp, addIt, putIt] using this
    · have := I.sub; simpa [live, hp, addIt, putIt] using this
  | @putEv it back hp ho hl =>
    obtain ⟨a1, a2, a3, a4, a5⟩ := afterPut_cases it back
    have hA : addIt (Push.put it back) = [] := rfl
    have hP : putIt (Push.put it back) = [it] := rfl
    refine { I with cnt := ?_, slots := ?_, sub := ?_, evs := ?_ }
    · intro i
      have := I.cnt i
      simp only [live, hp, a2, a3, hA, hP, ids_append, ids_nil, ids_cons] at this ⊢
      omega
    · have := I.slots
      simp only [live, hp, a2, a3, hA, hP, List.length_append, List.length_nil, List.length_cons] at this ⊢
      omega
    · intro x hx
      have := I.sub x
      simp only [live, hp, a2, a3, hA, hP, List.mem_append, List.mem_singleton, List.not_mem_nil, false_or] at this hx ⊢
      tauto
    · intro x hx
      rcases List.mem_append.1 hx with hx | hx
      · exact I.evs x hx
      · rw [List.mem_singleton] at hx; rw [hx]; exact ho
  | @putIj it back hp ho hl =>
    obtain ⟨a1, a2, a3, a4, a5⟩ := afterPut_cases it back
    have hA : addIt (Push.put it back) = [] := rfl
    have hP : putIt (Push.put it back) = [it] := rfl
    refine { I with cnt := ?_, slots := ?_, sub := ?_, ijs := ?_ }
    · intro i
      have := I.cnt i
      simp only [live, hp, a2, a3, hA, hP, ids_append, ids_nil, ids_cons] at this ⊢
      omega
    · have := I.slots
      simp only [live, hp, a2, a3, hA, hP, List.length_append, List.length_nil, List.length_cons] at this ⊢
      omega
    · intro x hx
      have := I.sub x
      simp only [live, hp, a2, a3, hA, hP, List.mem_append, List.mem_singleton, List.not_mem_nil, false_or] at this hx ⊢
      tauto
    · intro x hx
      rcases List.mem_append.1 hx with hx | hx
      · exact I.ijs x hx
      · rw [List.mem_singleton] at hx; rw [hx]; exact ho
  | refuse hb hr =>
    exact { I with
      tru := fun x hx => pm (I.tru x hx)
      dn := fun i hi => ⟨(I.dn i hi).1, pm (I.dn i hi).2⟩
      rel := fun i hi => (I.rel i hi).imp id pm }
  | give k hb hr _ =>
    exact { I with
      tru := fun x hx => pm (I.tru x hx)
      dn := fun i hi => ⟨(I.dn i hi).1, pm (I.dn i hi).2⟩
      rel := fun i hi => (I.rel i hi).imp id pm }
  | @handle it evq hw he =>
    refine { I with cnt := ?_, slots := ?_, sub := ?_, j1 := ?_, tru := ?_, evs := ?_ }
    · intro i
      have := I.cnt i
      simp only [live, hw, he, wkIt, ids_append, ids_nil, ids_cons] at this ⊢
      omega
    · have := I.slots
      simp only [live, hw, he, wkIt, List.length_append, List.length_nil, List.length_cons] at this ⊢
      omega
    · intro x hx
      have := I.sub x
      simp only [live, hw, he, wkIt, List.mem_append, List.mem_singleton, List.mem_cons, List.not_mem_nil, or_false] at this hx ⊢
      tauto
    · have := I.j1; simpa [hw] using this
    · have := I.tru; simpa [hw, wkRun] using this
    · intro x hx; exact I.evs x (by rw [he]; simp [show x ∈ evq from hx])
  | @handleIj it ijq hw he =>
    refine { I with cnt := ?_, slots := ?_, sub := ?_, j1 := ?_, tru := ?_, ijs := ?_ }
    · intro i
      have := I.cnt i
      simp only [live, hw, he, wkIt, ids_append, ids_nil, ids_cons] at this ⊢
      omega
    · have := I.slots
      simp only [live, hw, he, wkIt, List.length_append, List.length_nil, List.length_cons] at this ⊢
      omega
    · intro x hx
      have := I.sub x
      simp only [live, hw, he, wkIt, List.mem_append, List.mem_singleton, List.mem_cons, List.not_mem_nil, or_false] at this hx ⊢
      tauto
    · have := I.j1; simpa [hw] using this
    · have := I.tru; simpa [hw, wkRun] using this
    · intro x hx; exact I.ijs x (by rw [he]; simp [show x ∈ ijq from hx])
  | @jobDone it jobs hj ht hs =>
    have hnr : s.wk ≠ .run it := by intro hw; rw [hw] at ht; cases ht
    have hpd : it ∈ s.pend := (I.j1 it (by rw [hj]; simp)).resolve_right hnr
    have hnd : (it, true) ∉ jobs := by
      have := I.j2
      rw [hj] at this
      simp only [List.filter_cons, if_true, List.nodup_cons, List.mem_filter] at this
      exact fun hc => this.1 ⟨hc, trivial⟩
    refine { I with cnt := ?_, slots := ?_, cap := ?_, sub := ?_, j1 := ?_, j2 := ?_, tru := ?_, dn := ?_, rel := ?_, fin := ?_ }
    · intro i
      have h1 := I.cnt i
      have h2 := ids_erase hpd i
      simp only [live, ids_append, List.count_append, List.count_cons, List.count_nil, beq_iff_eq] at h1 ⊢
      omega
    · have h1 := I.slots
      have h2 := List.length_erase_of_mem hpd
      have h3 := List.length_pos_of_mem hpd
      simp only [live, List.length_append] at h1 ⊢
      omega
    · have := I.cap; show s.slots - 1 ≤ _; omega
    · intro x hx
      have := I.sub x
      simp only [live, List.mem_append] at this hx ⊢
      rcases hx with hx | hx
      · exact this (.inl hx)
      · exact this (.inr (List.mem_of_mem_erase hx))
    · intro x hx
      have hx : (x, true) ∈ jobs := hx
      have hne : x ≠ it := by rintro rfl; exact hnd hx
      rcases I.j1 x (by rw [hj]; simp [hx]) with h | h
      · exact .inl ((List.mem_erase_of_ne hne).2 h)
      · exact .inr h
    · have := I.j2
      rw [hj] at this
      simp only [List.filter_cons, if_true, List.nodup_cons] at this
      exact this.2
    · intro x hx
      refine I.tru x ?_
      rcases List.mem_append.1 hx with hx | hx
      · exact List.mem_append.2 (.inl hx)
      · exact List.mem_append.2 (.inr (List.mem_of_mem_erase hx))
    · intro i hi
      rcases List.mem_append.1 hi with hi | hi
      · exact ⟨List.mem_append.2 (.inl (I.dn i hi).1), (I.dn i hi).2⟩
      · rw [List.mem_singleton] at hi
        rw [hi]
        exact ⟨by simp, I.tru it (by simp [hpd])⟩
    · intro i hi
      rcases List.mem_append.1 hi with hi | hi
      · exact (I.rel i hi).imp (fun h => List.mem_append.2 (.inl h)) id
      · exact .inl (List.mem_append.2 (.inr hi))
    · exact ⟨I.fin.1, fun i hi => List.mem_append.2 (.inl (I.fin.2 i hi))⟩
  | jobMore hj ht =>
    refine { I with j1 := ?_, j2 := ?_ }
    · intro x hx; exact I.j1 x (by rw [hj]; simp [show (x, true) ∈ _ from hx])
    · have := I.j2; rw [hj] at this; simpa using this
  | @gotEv it off hw hp ho =>
    refine { I with cnt := ?_, slots := ?_, sub := ?_, j1 := ?_, tru := ?_ }
    · intro i; have := I.cnt i; simpa [live, hw, wkIt] using this
    · have := I.slots; simpa [live, hw, wkIt] using this
    · have := I.sub; simpa [live, hw, wkIt] using this
    · intro x hx; exact .inl ((I.j1 x hx).resolve_right (by rw [hw]; simp))
    · intro x hx
      simp only [wkRun, List.singleton_append, List.mem_cons] at hx
      rcases hx with rfl | hx
      · exact hp
      · exact I.tru x (List.mem_append.2 (.inr hx))
  | @gotIj it hw hp ho =>
    refine { I with cnt := ?_, slots := ?_, sub := ?_, j1 := ?_, tru := ?_ }
    · intro i; have := I.cnt i; simpa [live, hw, wkIt] using this
    · have := I.slots; simpa [live, hw, wkIt] using this
    · have := I.sub; simpa [live, hw, wkIt] using this
    · intro x hx; exact .inl ((I.j1 x hx).resolve_right (by rw [hw]; simp))
    · intro x hx
      simp only [wkRun, List.singleton_append, List.mem_cons] at hx
      rcases hx with rfl | hx
      · exact hp
      · exact I.tru x (List.mem_append.2 (.inr hx))
  | @gotNil it hw hp hs =>
    refine { I with cnt := ?_, slots := ?_, cap := ?_, sub := ?_, j1 := ?_, tru := ?_, dn := ?_, rel := ?_ }
    · intro i
      have h1 := I.cnt i
      simp only [live, hw, wkIt, ids_append, ids_nil, ids_cons, List.count_append, List.count_cons, List.count_nil, beq_iff_eq] at h1 ⊢
      omega
    · have h1 := I.slots
      simp only [live, hw, wkIt, List.length_append, List.length_nil, List.length_cons] at h1 ⊢
      omega
    · have := I.cap; show s.slots - 1 ≤ _; omega
    · intro x hx
      have := I.sub x
      simp only [live, hw, wkIt, List.mem_append, List.mem_singleton, List.not_mem_nil, or_false] at this hx ⊢
      tauto
    · intro x hx; exact .inl ((I.j1 x hx).resolve_right (by rw [hw]; simp))
    · have := I.tru; simpa [hw, wkRun] using this
    · intro i hi; exact ⟨List.mem_append.2 (.inl (I.dn i hi).1), (I.dn i hi).2⟩
    · intro i hi
      rcases List.mem_append.1 hi with hi | hi
      · exact I.rel i hi
      · rw [List.mem_singleton] at hi; rw [hi]; exact .inr hp
  | @retDone it hw hj hs =>
    refine { I with cnt := ?_, slots := ?_, cap := ?_, sub := ?_, j1 := ?_, tru := ?_, dn := ?_, rel := ?_, fin := ?_ }
    · intro i
      have h1 := I.cnt i
      simp only [live, hw, wkIt, ids_append, ids_nil, ids_cons, List.count_append, List.count_cons, List.count_nil, beq_iff_eq] at h1 ⊢
      omega
    · have h1 := I.slots
      simp only [live, hw, wkIt, List.length_append, List.length_nil, List.length_cons] at h1 ⊢
      omega
    · have := I.cap; show s.slots - 1 ≤ _; omega
    · intro x hx
      have := I.sub x
      simp only [live, hw, wkIt, List.mem_append, List.mem_singleton, List.not_mem_nil, or_false] at this hx ⊢
      tauto
    · intro x hx
      rcases I.j1 x hx with h | h
      · exact .inl h
      · rw [hw] at h; cases h; exact absurd hx hj
    · intro x hx; exact I.tru x (by simp only [wkRun, List.nil_append] at hx; exact List.mem_append.2 (.inr hx))
    · intro i hi
      rcases List.mem_append.1 hi with hi | hi
      · exact ⟨List.mem_append.2 (.inl (I.dn i hi).1), (I.dn i hi).2⟩
      · rw [List.mem_singleton] at hi
        rw [hi]
        exact ⟨by simp, I.tru it (by simp [hw, wkRun])⟩
    · intro i hi
      rcases List.mem_append.1 hi with hi | hi
      · exact (I.rel i hi).imp (fun h => List.mem_append.2 (.inl h)) id
      · exact .inl (List.mem_append.2 (.inr hi))
    · exact ⟨I.fin.1, fun i hi => List.mem_append.2 (.inl (I.fin.2 i hi))⟩
  | @retMore it hw =>
    refine { I with cnt := ?_, slots := ?_, sub := ?_, j1 := ?_, tru := ?_ }
    · intro i
      have h1 := I.cnt i
      simp only [live, hw, wkIt, ids_append, ids_nil, ids_cons] at h1 ⊢
      omega
    · have h1 := I.slots
      simp only [live, hw, wkIt, List.length_append, List.length_nil, List.length_cons] at h1 ⊢
      omega
    · intro x hx
      have := I.sub x
      simp only [live, hw, wkIt, List.mem_append, List.mem_singleton, List.not_mem_nil, or_false] at this hx ⊢
      tauto
    · intro x hx
      rcases I.j1 x hx with h | h
      · exact .inl (List.mem_append.2 (.inl h))
      · rw [hw] at h; cases h; exact .inl (by simp)
    · intro x hx
      have := I.tru x
      simp only [wkRun, hw, List.mem_append, List.mem_singleton, List.nil_append, List.not_mem_nil, false_or] at hx this
      exact this hx.symm
  | @async it _ hi hj =>
    refine { I with j1 := ?_, j2 := ?_ }
    · intro x hx
      rcases List.mem_append.1 hx with hx | hx
      · exact I.j1 x hx
      · simp only [List.mem_singleton, Prod.mk.injEq] at hx
        rw [hx.1]; exact hi
    · show (List.filter _ (s.jobs ++ [(it, e)])).Nodup
      rw [List.filter_append, List.nodup_append]
      refine ⟨I.j2, ?_, ?_⟩
      · cases e <;> simp
      · rintro x hx y hy rfl
        simp only [List.mem_filter, List.mem_singleton] at hx hy
        obtain ⟨rfl, hb⟩ := hy
        simp only at hb
        subst hb
        exact hj hx.1
  | @finalize i hd hf =>
    refine { I with fin := ?_ }
    refine ⟨?_, ?_⟩
    · rw [List.nodup_append]
      refine ⟨I.fin.1, by simp, ?_⟩
      rintro a ha b hb rfl
      rw [List.mem_singleton] at hb
      exact hf (hb ▸ ha)
    · intro a ha
      rcases List.mem_append.1 ha with ha | ha
      · exact I.fin.2 a ha
      · rw [List.mem_singleton] at ha; rw [ha]; exact hd
  | _ => exact { I with }

theorem invB_reach {s : PW} (h : Reach c s) : InvB c s := by
  induction h with
  | init => exact invB_init
  | step l hr hs ih => exact invB_step (invA_reach hr) ih (st_of_step hs)

end
end Verif.Worker

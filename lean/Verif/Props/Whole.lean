import Verif.Whole.Check
import Verif.Whole.Count
import Verif.Props.Fleet
/-
Properties C96 and C97: consumers with all goroutines of their workers and of their pools. For every number of consumers and of transactional producers,
all capacities, every interleaving, every application and every source topic with increasing offsets.
-/
namespace Verif.Whole
open Verif.Eos (Ev Pool)
open Verif.Effects (Inc)
open Verif.Worker (PW It)

variable {c : Eos.Cfg} {ecap : Nat} {src : Nat → List Nat} {w w' : Group}

/-! ### Runs that meet the hypotheses -/

def demoSrc : Nat → List Nat := fun tp => if tp = 5 then [10, 12, 17] else []

def demoCfg : Eos.Cfg := ⟨2, 1, 10, 20⟩

/-- Worker `j` of consumer `k` gets the record at `o` and its handler is called. -/
def recv (k j o : Nat) : List Act :=
  [.fetch k j [some o], .own k j .send, .own k j .take, .own k j .record, .own k j .acquire, .own k j .poolAdd, .forward k j,
   .pool k .give, .pool k .check, .own k j .put, .own k j .inter, .own k j .record, .own k j .handle, .own k j .got]

/-- The transaction on deck is closed and its commit begins. -/
def flush (k : Nat) : List Act := [.pool k .tick, .pool k .tryFlush, .pool k .swapIn, .pool k .take, .pool k (.beginCommit [5]), .wait k]

/-- The transaction ends. -/
def endIt (k : Nat) : List Act := [.endTxn k [5], .pool k .release, .pool k .release, .pool k .giveBack]

/-- A worker that was revoked ends. -/
def leave (k j : Nat) : List Act := [.own k j .stop, .own k j .stopSend, .own k j .waited, .own k j .finish]

/-- Consumer 0 handles 10 and loses the partition while the transaction is open. When its worker has ended consumer 1 gets the partition and
handles 12. -/
def demo : List Act :=
  [.start, .start, .assign 0 5 0, .ready 0 0 (-1)] ++ recv 0 0 10 ++ [.emit 0 0 ⟨0, some 10, 0⟩ 100, .own 0 0 (.ret true), .revoke 0 5] ++
    flush 0 ++ [.wait 0] ++ endIt 0 ++ leave 0 0 ++ [.assign 1 5 11, .ready 1 0 11] ++ recv 1 0 12 ++
    [.emit 1 0 ⟨0, some 12, 0⟩ 200, .own 1 0 (.ret true)] ++ flush 1 ++ [.wait 1] ++ endIt 1

theorem demo_src : ∀ tp, (demoSrc tp).Pairwise (· < ·) := by
  intro tp; unfold demoSrc; split <;> decide

/-! ### C96: the parts fit together -/

/-- **C96** (refinement). In a group every worker is in a state of the worker model, every pool in one of the pool model, and the group, with the
insides of its workers left out, is in a state of the group model. So what was proved there holds here. -/
theorem C96_refines (hsrc : ∀ tp, (src tp).Pairwise (· < ·)) (h : Reach c ecap src w) :
    (∀ k j, Worker.Reach (wcfg c ecap) (w.wks k j)) ∧ (∀ k, Eos.Reach c (w.inst k).pool) ∧
    ∃ W : Fleet.World, Fleet.Reach c src W ∧ W.n = w.n ∧ W.inst = w.inst ∧ W.dead = w.dead ∧ W.log = w.log ∧
      ∀ k tp l, W.work k tp = some l → ∃ j, w.cur k tp = some j ∧ (w.wks k j).wk ≠ .boot :=
  ⟨(base_reach h).wr, (base_reach h).pr, abs src w, refines hsrc h, rfl, rfl, rfl, rfl, by
    intro k tp l hl
    change (w.cur k tp).bind _ = some l at hl
    obtain ⟨j, h1, h2⟩ := Option.bind_eq_some_iff.1 hl
    refine ⟨j, h1, fun hb => ?_⟩
    unfold todo at h2; rw [if_pos hb] at h2; cases h2⟩

/-- **C96** (end to end). For every source record below an offset record in the commit log there is a worker of its partition that called the handler
with it; the event was completed, and its transaction was committed. -/
theorem C96_handled (hn : 0 < c.poolSize) (hsrc : ∀ tp, (src tp).Pairwise (· < ·)) (h : Reach c ecap src w) {tp x o : Nat}
    (hx : x ∈ w.log tp) (ho : o ∈ src tp) (hlt : o < x) :
    ∃ k j it, j < w.nw k ∧ w.part k j = tp ∧ it.off = some o ∧ o ∈ (w.wks k j).offered ∧ it.id ∈ (w.wks k j).done ∧
      (w.inst k).Committed (w.ev k j it) := by
  have B := base_reach h
  have L := link_reach hn h
  have R := refines hsrc h
  obtain ⟨k, e, he, hp, heo⟩ := Fleet.C93_not_skipped hn hsrc R (tp := tp) (x := x) hx ho hlt
  have he' : (w.inst k).Committed e := he
  have hd : e.id ∈ (w.inst k).pool.done := (Fleet.C93_atomic hn R k e).2 he
  obtain ⟨g, h1, h2⟩ := id he'
  obtain ⟨q1, q2, it, q3, q4, q5⟩ := event_worker L h1
  have hoff : it.off = some o := by rw [← heo, q5]; rfl
  have hdn : it.id ∈ (w.wks k (owner e)).done := by
    rw [q5] at hd
    exact ((L k).dn _ _).1 hd
  exact ⟨k, owner e, it, q1, q2.trans hp, hoff, done_offered (B.wr _ _) (asc_of hsrc B _ _) q3 hoff hdn, hdn, by rw [← q5]; exact he'⟩

/-- **C96** (no event is refused). Whatever a worker's goroutines can do is not held up by the pool, except that they wait for the producer of an event:
the pool accepts each completion. -/
theorem C96_completes (hn : 0 < c.poolSize) (h : Reach c ecap src w) {k j : Nat} (hk : w.alive k = true) (hj : j < w.nw k) {l : Worker.Label}
    (hl : own l = true) (hg : l ≠ .got) {s : PW} (hs : Worker.step (wcfg c ecap) (w.wks k j) l = some s) :
    (step c ecap src w (.own k j l)).isSome := by
  have B := base_reach h
  have L := link_reach hn h
  have hr : w.ready k j l = true := by cases l <;> first | rfl | exact absurd rfl hg
  simp only [step]
  rw [if_pos ⟨hk, hj, hl, hr⟩, hs]
  simp only [Option.bind_some]
  split
  · rfl
  · rename_i it hit
    have IA := Worker.invA_reach (B.wr k j)
    have IB := Worker.invB_reach (B.wr k j)
    have hrun : (w.wks k j).wk = .run it ∨ it ∈ (w.wks k j).pend := by
      cases l with
      | ret b =>
        cases b
        · simp [completes] at hit
        · simp only [completes] at hit
          cases hw : (w.wks k j).wk <;> rw [hw] at hit <;> simp at hit
          subst hit; exact .inl rfl
      | job =>
        simp only [completes] at hit
        split at hit
        · rename_i it' r hjob
          cases hit
          exact (IB.j1 it (by rw [hjob]; simp)).symm
        · cases hit
      | _ => simp [completes] at hit
    have hpr : (w.wks k j).prod it.id = some true := by
      refine IB.tru it (List.mem_append.2 ?_)
      rcases hrun with h | h
      · left; rw [h]; simp [Worker.wkRun]
      · exact .inr h
    have hlive : it ∈ Worker.live (w.wks k j) := by
      unfold Worker.live
      rcases hrun with h | h
      · rw [h]; simp [Worker.wkIt]
      · simp [h]
    have hsched : it ∈ (w.wks k j).sched := by
      rw [IA.acc]; exact List.mem_append.2 (.inl (IB.sub it hlive))
    have hnd : it.id ∉ (w.wks k j).done := by
      intro hd
      have := List.count_pos_iff.2 (IB.dn _ hd).1
      have h2 := IB.cnt it.id
      have h3 := Worker.cnt_le_one IA it.id
      have h4 := Worker.ids_pos hlive
      omega
    have hadd : w.ev k j it ∈ (w.inst k).pool.added.map Prod.fst := ((L k).ad _).2 ⟨j, it, hj, ⟨hsched, hpr⟩, rfl⟩
    have hdn : (w.ev k j it).id ∉ (w.inst k).pool.done := fun hh => hnd (((L k).dn j it.id).1 hh)
    obtain ⟨q, hq⟩ := Option.isSome_iff_exists.1 ((L k).as j it hrun)
    have hq' : (w.inst k).pool.asg (w.ev k j it).id = some q := hq
    simp only [Eos.step, hq']
    rw [if_pos ⟨hadd, hdn⟩]
    rfl

/-- **C96** (events reach the pool). The pool takes the next event of a worker from its channel whenever its goroutine is at that place and no commit holds
the locks of the nodes; it decides about each event once. -/
theorem C96_forwards (hn : 0 < c.poolSize) (h : Reach c ecap src w) {k j : Nat} (hk : w.alive k = true) (hj : j < w.nw k) {it : It} {buf : List It}
    (hb : (w.wks k j).buf = it :: buf) (hf : (w.inst k).pool.fwd = .idle) (hc : ∀ p rest, (w.inst k).pool.com ≠ .relinq p rest) :
    (step c ecap src w (.forward k j)).isSome ∧ (w.wks k j).prod it.id = none := by
  have B := base_reach h
  have L := link_reach hn h
  have IA := Worker.invA_reach (B.wr k j)
  have hnone : (w.wks k j).prod it.id = none := by
    by_contra hne
    obtain ⟨pre, h1, h2⟩ := IA.dec
    have hm := (h2 it.id).1 hne
    have hnd : ((w.wks k j).sched.map It.id).Nodup := by rw [IA.ids]; exact List.nodup_range
    rw [h1, List.map_append, List.nodup_append] at hnd
    exact hnd.2.2 _ hm _ (List.mem_map.2 ⟨it, by unfold Worker.undecided; rw [hb]; simp, rfl⟩) rfl
  refine ⟨?_, hnone⟩
  simp only [step]
  rw [if_pos ⟨hk, hj⟩, hb]
  cases hr : (w.wks k j).revoked with
  | true => simp [hf, Worker.step, hb, hr]
  | false =>
    have hid : (w.ev k j it).id ∉ (w.inst k).pool.added.map (fun a => a.1.id) := by
      intro hm
      obtain ⟨⟨d, g⟩, hd, hdi⟩ := List.mem_map.1 hm
      obtain ⟨_, _, it', q3, q4, q5⟩ := event_worker L hd
      simp only at hdi
      rw [q5] at hdi
      obtain ⟨e1, e2⟩ := pair_inj hdi
      rw [e1, e2] at q4
      rw [q4] at hnone; cases hnone
    have : ∃ p, Eos.step c (w.inst k).pool (.add (w.ev k j it)) = some p := by
      simp only [Eos.step, hf]
      cases hcc : (w.inst k).pool.com with
      | relinq p rest => exact absurd hcc (hc p rest)
      | _ => exact ⟨_, if_neg hid⟩
    obtain ⟨p, hp⟩ := this
    simp [hp, Worker.step, hb, hr]

/-- **C96** (the calls of `Done`). Each event that the pool passes while committing is one that its worker has completed and that was not passed before, so
its waiter goes down by one; at the end of a transaction the waiter of each worker goes down by the number of partitions that it entered there. -/
theorem C96_done (hn : 0 < c.poolSize) (h : Reach c ecap src w) {k : Nat} {q : Nat} {fl : Bool} {rest : List Nat} :
    (∀ e es p, (w.inst k).pool.com = .fin q (e :: es) fl rest → Eos.step c (w.inst k).pool .wait = some p →
      number e ∈ (w.wks k (owner e)).done ∧ number e ∉ (w.wks k (owner e)).fin) ∧
    (∀ es, (w.inst k).pool.com = .fin q es fl rest → ∀ j,
      ((rootEvs ((w.inst k).pool.nodes q).evs).countP fun e => owner e = j) ≤ (w.wks k j).roots ∧
      (rooted (wcfg c ecap) (w.wks k) (rootEvs ((w.inst k).pool.nodes q).evs) j).waiter =
        (w.wks k j).waiter - (((rootEvs ((w.inst k).pool.nodes q).evs).countP fun e => owner e = j : Nat) : Int)) := by
  have B := base_reach h
  have L := link_reach hn h
  refine ⟨fun e es p hc hp => finalize_ok hn (B.pr k) (L k) hc hp, fun es hc j => ?_⟩
  have hok := roots_ok hn (B.pr k) (L k) hc
  refine ⟨hok j, ?_⟩
  rw [rooted_spec _ _ hok j]

/-- **C96** (the waiter). The counter of a worker's revocation waiter is at any time the number of records of the current batch that are not yet looked at,
of its events that were neither refused nor passed by the pool, and of the open transactions that it entered first. So it is never negative. -/
theorem C96_waiter (hn : 0 < c.poolSize) (h : Reach c ecap src w) (k j : Nat) :
    (w.wks k j).waiter = (Worker.rest (w.wks k j).push).length +
      ((w.wks k j).sched.countP fun it => decide (it.id ∉ (w.wks k j).fin ∧ (w.wks k j).prod it.id ≠ some false)) + w.entered k j ∧
    0 ≤ (w.wks k j).waiter := by
  have B := base_reach h
  have L := link_reach hn h
  have hw := (Worker.invC_reach (B.wr k j)).w
  rw [(L k).rt j, ← entered_eq hn B L] at hw
  exact ⟨hw, by rw [hw]; omega⟩

/-- The hypotheses of C96 in the run of above: at its end 13 is an offset record; before the second record is completed its event is at the worker,
before the commit the pool passes it; in the middle consumer 0 is revoked with an open transaction in its waiter. -/
example : ∃ w, Reach demoCfg 2 demoSrc w ∧ 13 ∈ w.log 5 ∧ 12 ∈ demoSrc 5 ∧ w.log 5 = [11, 13] ∧ (w.wks 1 0).offered = [12] ∧
    (w.wks 0 0).wk = .stopped := by
  have hd : ∃ w, run demoCfg 2 demoSrc (Group.init demoCfg) demo = some w ∧ 13 ∈ w.log 5 ∧ 12 ∈ demoSrc 5 ∧ w.log 5 = [11, 13] ∧
      (w.wks 1 0).offered = [12] ∧ (w.wks 0 0).wk = .stopped :=
    ⟨_, rfl, by decide +kernel, by decide +kernel, by decide +kernel, by decide +kernel, by decide +kernel⟩
  obtain ⟨w, h1, h2⟩ := hd
  exact ⟨w, run_reach .init h1, h2⟩

example : ∃ w, Reach demoCfg 2 demoSrc w ∧ w.alive 0 = true ∧ 0 < w.nw 0 ∧ (w.wks 0 0).wk = .run ⟨0, some 10, 0⟩ ∧
    (Worker.step (wcfg demoCfg 2) (w.wks 0 0) (.ret true)).isSome ∧ (w.wks 0 0).waiter = 2 ∧ w.entered 0 0 = 1 := by
  have hd : ∃ w, run demoCfg 2 demoSrc (Group.init demoCfg) (demo.take 19) = some w ∧ w.alive 0 = true ∧ 0 < w.nw 0 ∧
      (w.wks 0 0).wk = .run ⟨0, some 10, 0⟩ ∧ (Worker.step (wcfg demoCfg 2) (w.wks 0 0) (.ret true)).isSome ∧ (w.wks 0 0).waiter = 2 ∧
      w.entered 0 0 = 1 :=
    ⟨_, rfl, by decide +kernel, by decide +kernel, by decide +kernel, by decide +kernel, by decide +kernel, by decide +kernel⟩
  obtain ⟨w, h1, h2⟩ := hd
  exact ⟨w, run_reach .init h1, h2⟩

example : ∃ w, Reach demoCfg 2 demoSrc w ∧ w.alive 0 = true ∧ (w.wks 0 0).buf = [⟨0, some 10, 0⟩] ∧ (w.inst 0).pool.fwd = .idle ∧
    (w.inst 0).pool.com = .idle := by
  have hd : ∃ w, run demoCfg 2 demoSrc (Group.init demoCfg) (demo.take 10) = some w ∧ w.alive 0 = true ∧ (w.wks 0 0).buf = [⟨0, some 10, 0⟩] ∧
      (w.inst 0).pool.fwd = .idle ∧ (w.inst 0).pool.com = .idle :=
    ⟨_, rfl, by decide +kernel, by decide +kernel, by decide +kernel, by decide +kernel⟩
  obtain ⟨w, h1, h2⟩ := hd
  exact ⟨w, run_reach .init h1, h2⟩

example : ∃ w, Reach demoCfg 2 demoSrc w ∧ (w.inst 0).pool.com = .fin 0 [⟨0, 5, some 10⟩] false [] ∧
    (Eos.step demoCfg (w.inst 0).pool .wait).isSome ∧ (w.wks 0 0).waiter = 2 ∧ (w.wks 0 0).revoked = true := by
  have hd : ∃ w, run demoCfg 2 demoSrc (Group.init demoCfg) (demo.take 27) = some w ∧ (w.inst 0).pool.com = .fin 0 [⟨0, 5, some 10⟩] false [] ∧
      (Eos.step demoCfg (w.inst 0).pool .wait).isSome ∧ (w.wks 0 0).waiter = 2 ∧ (w.wks 0 0).revoked = true :=
    ⟨_, rfl, by decide +kernel, by decide +kernel, by decide +kernel, by decide +kernel⟩
  obtain ⟨w, h1, h2⟩ := hd
  exact ⟨w, run_reach .init h1, h2⟩

/-! ### C97: a worker that has ended leaves nothing open -/

/-- **C97**, in part (completed). Every event that a worker was given a producer for is completed when the worker has ended, and its transaction has ended, or
is the one that is being committed. Missing: that the transaction has ended (see `C97_violated`). -/
theorem C97_completed_partial (hn : 0 < c.poolSize) (h : Reach c ecap src w) {k j : Nat} (hs : (w.wks k j).wk = .stopped) {e : Ev} {g : Nat}
    (he : (e, g) ∈ (w.inst k).pool.added) (ho : owner e = j) :
    e.id ∈ (w.inst k).pool.done ∧ (g < (w.inst k).pool.ended.length ∨ g = (w.inst k).pool.ended.length) := by
  have B := base_reach h
  have L := link_reach hn h
  have hp := passed_of_stopped hn B L hs he ho
  obtain ⟨_, _, it, q3, q4, q5⟩ := event_worker L he
  rw [ho] at q3 q4 q5
  have hf := (stopped_facts (B.wr k j) hs).2.2.2 it q3 q4
  have hd := (Worker.invB_reach (B.wr k j)).fin.2 _ hf
  refine ⟨by rw [q5]; exact ((L k).dn j it.id).2 hd, ?_⟩
  obtain ⟨g', h1, h2⟩ := hp
  obtain ⟨_, rfl⟩ := pool_unique hn (B.pr k) h1 he rfl
  rcases h2 with h2 | ⟨h2, _⟩
  · exact .inl h2
  · exact .inr h2

/-- **C97**, in part (committed). When a worker has ended, each transaction that has events of its partition from it alone has ended, and its records there are
committed. Missing: transactions in which an earlier worker of the same consumer has events of the partition too. -/
theorem C97_committed_partial (hn : 0 < c.poolSize) (h : Reach c ecap src w) {k j : Nat} (hs : (w.wks k j).wk = .stopped) {e : Ev} {g : Nat}
    (he : (e, g) ∈ (w.inst k).pool.added)
    (hall : ∀ e', (e', g) ∈ (w.inst k).pool.added → e'.part = e.part → owner e' = j) :
    g ∈ (w.inst k).pool.ended.map Prod.fst ∧ (e.off ≠ none → (w.inst k).Committed e) := by
  have B := base_reach h
  have L := link_reach hn h
  have hlt := ended_of_stopped hn B L hs he hall
  have hg : g ∈ (w.inst k).pool.ended.map Prod.fst := by rw [(Eos.C04_in_order hn (B.pr k)).1, List.mem_range]; exact hlt
  refine ⟨hg, fun hne => ?_⟩
  obtain ⟨o, hoff⟩ := Option.ne_none_iff_exists'.1 hne
  exact ⟨g, he, Marks.committed_of_ended hn (B.pr k) he hg hoff⟩

/-- **C97**, in part (orderly hand-over). If a worker is made only when all workers for its partition have ended, a worker that has ended leaves nothing open: all
transactions with its events have ended and its records are committed. -/
theorem C97_orderly_partial (hn : 0 < c.poolSize) (h : Neat c ecap src w) {k j : Nat} (hs : (w.wks k j).wk = .stopped) {e : Ev} {g : Nat}
    (he : (e, g) ∈ (w.inst k).pool.added) (ho : owner e = j) :
    g ∈ (w.inst k).pool.ended.map Prod.fst ∧ (e.off ≠ none → (w.inst k).Committed e) := by
  have B := base_reach h.reach
  have L := link_reach hn h.reach
  have hlt := ended_alone hn B L (alone_neat hn h).own hs he ho
  have hg : g ∈ (w.inst k).pool.ended.map Prod.fst := by rw [(Eos.C04_in_order hn (B.pr k)).1, List.mem_range]; exact hlt
  refine ⟨hg, fun hne => ?_⟩
  obtain ⟨o, hoff⟩ := Option.ne_none_iff_exists'.1 hne
  exact ⟨g, he, Marks.committed_of_ended hn (B.pr k) he hg hoff⟩

/-- **C97**, in part (exactly once). With such a hand-over, and if each worker that starts has read the newest offset record, every source record below the newest
offset record was committed as exactly one event, of one worker, whose handler was called with it; what readers see for it, from all
consumers, is what was produced for this event. -/
theorem C97_once_partial (hn : 0 < c.poolSize) (hsrc : ∀ tp, (src tp).Pairwise (· < ·)) (h : Neat c ecap src w) {tp o : Nat}
    (ho : o ∈ src tp) (hw : o < w.newest tp) :
    ∃ k j it, k < w.n ∧ w.part k j = tp ∧ it.off = some o ∧ o ∈ (w.wks k j).offered ∧ (w.inst k).Committed (w.ev k j it) ∧
      Effects.effectsAt ((List.range w.n).map w.inst) tp o = (w.inst k).made (w.ev k j it) ∧
      ∀ k' e', e'.part = tp → e'.off = some o → (w.inst k').Committed e' → k' = k ∧ e' = w.ev k j it := by
  have B := base_reach h.reach
  have L := link_reach hn h.reach
  have hc := calm_neat hn hsrc h
  obtain ⟨k, e, h1, h2, h3, h4, h5, h6⟩ := Fleet.C94_once_partial hn hsrc hc (tp := tp) ho hw
  have h4' : (w.inst k).Committed e := h4
  have hd : e.id ∈ (w.inst k).pool.done := (Fleet.C93_atomic hn hc.reach k e).2 h4
  obtain ⟨g, a1, a2⟩ := id h4'
  obtain ⟨q1, q2, it, q3, q4, q5⟩ := event_worker L a1
  have hoff : it.off = some o := by rw [← h3, q5]; rfl
  have hdn : it.id ∈ (w.wks k (owner e)).done := by
    rw [q5] at hd; exact ((L k).dn _ _).1 hd
  refine ⟨k, owner e, it, h1, q2.trans h2, hoff, done_offered (B.wr _ _) (asc_of hsrc B _ _) q3 hoff hdn, ?_, ?_, ?_⟩
  · rw [← q5]; exact h4'
  · rw [← q5]; exact h5
  · rw [← q5]; exact h6

/-- The run of above is such a run: the hand-over to consumer 1 is made when the worker of consumer 0 has ended. -/
example : ∃ w, Neat demoCfg 2 demoSrc w ∧ (w.wks 0 0).wk = .stopped ∧ (⟨0, 5, some 10⟩, 0) ∈ (w.inst 0).pool.added ∧
    owner ⟨0, 5, some 10⟩ = 0 ∧ w.newest 5 = 13 ∧ Effects.effectsAt ((List.range w.n).map w.inst) 5 12 = [200] ∧ w.n = 2 := by
  have hd : ∃ w, runB demoCfg 2 demoSrc (Group.init demoCfg) demo = some w ∧ (w.wks 0 0).wk = .stopped ∧
      (⟨0, 5, some 10⟩, 0) ∈ (w.inst 0).pool.added ∧ owner ⟨0, 5, some 10⟩ = 0 ∧ w.newest 5 = 13 ∧
      Effects.effectsAt ((List.range w.n).map w.inst) 5 12 = [200] ∧ w.n = 2 :=
    ⟨_, rfl, by decide +kernel, by decide +kernel, by decide +kernel, by decide +kernel, by decide +kernel, by decide +kernel⟩
  obtain ⟨w, h1, h2⟩ := hd
  exact ⟨w, runB_neat .init h1, h2⟩

/-- Consumer 0 handles 10, loses the partition, gets it again and handles 10 once more, in the same transaction, and loses the partition again. The commit has
passed the event of the second worker only. -/
def again : List Act :=
  [.start, .assign 0 5 0, .ready 0 0 (-1)] ++ recv 0 0 10 ++ [.own 0 0 (.ret true), .revoke 0 5, .assign 0 5 0, .ready 0 1 (-1)] ++ recv 0 1 10 ++
    [.own 0 1 (.ret true), .revoke 0 5] ++ flush 0 ++ [.wait 0]

/-- **C97 is violated.** A partition that comes back to a consumer while the transaction with the events of its former worker is open: the new worker's
events join that transaction, which is not entered into the new worker's waiter. The new worker ends before the transaction does; if the
process dies now its record was never committed. -/
theorem C97_violated : ∃ w, run demoCfg 2 demoSrc (Group.init demoCfg) (again ++ leave 0 1) = some w ∧ (w.wks 0 1).wk = .stopped ∧
    (w.wks 0 1).offered = [10] ∧ (⟨Nat.pair 1 0, 5, some 10⟩, 0) ∈ (w.inst 0).pool.added ∧ (w.inst 0).pool.ended = [] ∧ w.log 5 = [] ∧
    (step demoCfg 2 demoSrc w (.crash 0)).isSome := by
  have hd : ((run demoCfg 2 demoSrc (Group.init demoCfg) (again ++ leave 0 1)).any fun w => decide ((w.wks 0 1).wk = .stopped ∧
      (w.wks 0 1).offered = [10] ∧ (⟨Nat.pair 1 0, 5, some 10⟩, 0) ∈ (w.inst 0).pool.added ∧ (w.inst 0).pool.ended = [] ∧ w.log 5 = [] ∧
      (step demoCfg 2 demoSrc w (.crash 0)).isSome)) = true := by decide +kernel
  obtain ⟨h, h'⟩ := (Option.any_eq_true_iff_get _ _).1 hd
  exact ⟨_, (Option.some_get h).symm, of_decide_eq_true h'⟩

end Verif.Whole

import Verif.Props.Rest
import Verif.Props.Whole
/-
Property C102: a partition that was fetched to its end is handled to its end. It puts C93, C96, C97 and C98 together. For every number of consumers and of transactional
producers, all capacities, every interleaving and every application that completes its events; without interjections in the consumer (C65 shows what these can do).
-/
namespace Verif.Whole
open Verif.Eos (Ev Pool)
open Verif.Effects (Inc)
open Verif.Worker (PW It)

variable {c : Eos.Cfg} {ecap : Nat} {src : Nat → List Nat} {w w' : Group} {k : Nat}

/-- Worker `j` of consumer `k` has been handed all records that the partition has from the offset on at which the client began to fetch. -/
def FetchedAll (src : Nat → List Nat) (w : Group) (k j : Nat) : Prop :=
  (w.wks k j).fetched.filterMap id = (src (w.part k j)).filter fun o => w.start k j ≤ o

/-- Some worker of the partition called the handler with the record at `o`, the event was completed, and its transaction was committed. -/
def HandledBy (w : Group) (tp o : Nat) : Prop :=
  ∃ k j it, j < w.nw k ∧ w.part k j = tp ∧ it.off = some o ∧ o ∈ (w.wks k j).offered ∧ it.id ∈ (w.wks k j).done ∧ (w.inst k).Committed (w.ev k j it)

theorem handledBy_of (hn : 0 < c.poolSize) (hsrc : ∀ tp, (src tp).Pairwise (· < ·)) (h : Reach c ecap src w) {tp o : Nat} {e : Ev}
    (he : (w.inst k).Committed e) (hp : e.part = tp) (heo : e.off = some o) : HandledBy w tp o := by
  have B := base_reach h
  have L := link_reach hn h
  have R := refines hsrc h
  have hd : e.id ∈ (w.inst k).pool.done := (Fleet.C93_atomic hn R k e).2 he
  obtain ⟨g, h1, h2⟩ := id he
  obtain ⟨q1, q2, it, q3, q4, q5⟩ := event_worker L h1
  have hoff : it.off = some o := by rw [← heo, q5]; rfl
  have hdn : it.id ∈ (w.wks k (owner e)).done := by
    rw [q5] at hd
    exact ((L k).dn _ _).1 hd
  exact ⟨k, owner e, it, q1, q2.trans hp, hoff, done_offered (B.wr _ _) (asc_of hsrc B _ _) q3 hoff hdn, hdn, by rw [← q5]; exact he⟩

/-- **C102** (at rest). When a consumer is at rest, and its worker for a partition has been handed the partition to its end, every record of the partition, from
the very first one on, was handled by some worker and its transaction was committed, whatever happened before: crashes, reassignments, consumers that had the
partition at the same time. -/
theorem C102_rest (hn : 0 < c.poolSize) (hsrc : ∀ tp, (src tp).Pairwise (· < ·)) (h : Reach c ecap src w) (S : Settled c w k) {tp j : Nat}
    (hc : w.cur k tp = some j) (hb : (w.wks k j).wk ≠ .boot) (hf : FetchedAll src w k j) {o : Nat} (ho : o ∈ src tp) : HandledBy w tp o := by
  have B := base_reach h
  obtain ⟨hj, hp, hr⟩ := (B.cu k tp j).1 hc
  obtain ⟨-, -, -, hoff, hcom⟩ := S.idle j hj hb hr
  by_cases hwm : (w.wks k j).wm ≤ (o : Int)
  · have hst := (B.rd k j hb).2
    have hmem : o ∈ (w.wks k j).offered := by
      rw [hoff, List.mem_filter]
      refine ⟨?_, by simpa using hwm⟩
      rw [hf, List.mem_filter, hp]
      exact ⟨ho, by simp only [decide_eq_true_eq]; omega⟩
    obtain ⟨it, hit, hco⟩ := hcom o hmem
    exact handledBy_of hn hsrc h hco hp hit
  · have hw : (abs src w).work k tp = some (((src tp).filter fun o => (w.wks k j).wm.toNat ≤ o).drop ((decided (w.wks k j)).filterMap It.off).length) := by
      change (w.cur k tp).bind _ = _
      rw [hc, Option.bind_some, todo, if_neg hb]
    rcases Fleet.C93_covered hn hsrc (refines hsrc h) hw ho with ⟨k', e, h1, h2, h3⟩ | ⟨e, g, h1, h2, h3⟩ | h1
    · exact handledBy_of hn hsrc h (k := k') h1 h2 h3
    · exact handledBy_of hn hsrc h ((S.events e g h1).2.2 (by rw [h3]; simp)) h2 h3
    · have := (List.mem_filter.1 (List.mem_of_mem_drop h1)).2
      simp only [decide_eq_true_eq] at this
      omega

/-- **C102** (exactly once). If partitions are handed over in an orderly way (a worker is made when all others of its partition have ended, and reads the newest offset
record), then each record of the partition was committed as exactly one event, of one worker of one consumer, and what readers see for it, from all consumers, is what was
produced for this event; and the newest offset record is above all of them. -/
theorem C102_once (hn : 0 < c.poolSize) (hsrc : ∀ tp, (src tp).Pairwise (· < ·)) (h : Neat c ecap src w) (S : Settled c w k) {tp j : Nat}
    (hc : w.cur k tp = some j) (hb : (w.wks k j).wk ≠ .boot) (hf : FetchedAll src w k j) {o : Nat} (ho : o ∈ src tp) :
    o < w.newest tp ∧
    ∃ k' j' it, k' < w.n ∧ w.part k' j' = tp ∧ it.off = some o ∧ o ∈ (w.wks k' j').offered ∧ (w.inst k').Committed (w.ev k' j' it) ∧
      Effects.effectsAt ((List.range w.n).map w.inst) tp o = (w.inst k').made (w.ev k' j' it) ∧
      ∀ k'' e', e'.part = tp → e'.off = some o → (w.inst k'').Committed e' → k'' = k' ∧ e' = w.ev k' j' it := by
  obtain ⟨k', j', it, -, h2, h3, -, -, h6⟩ := C102_rest hn hsrc h.reach S hc hb hf ho
  obtain ⟨last, O⟩ := Fleet.once_calm hn hsrc (calm_neat hn hsrc h)
  have hlow : o < w.newest tp := O.low tp o ⟨k', w.ev k' j' it, h6, h2, h3⟩
  exact ⟨hlow, C97_once_partial hn hsrc h ho hlow⟩

theorem worker_fetched {cw : Worker.Cfg} {s s' : PW} {b : Bool} (h : Worker.step cw s (.assign b) = some s') : s'.fetched = s.fetched := by
  simp only [Worker.step] at h
  (repeat' split at h) <;> first | (cases h; done) | (simp only [Option.some.injEq] at h; subst h; rfl)

/-- What was fetched stays, and a worker keeps its partition and where it began. -/
theorem goes_fetched (B : Base c ecap src w) (h : Goes c ecap src w w') {j : Nat} (hj : j < w.nw k) :
    (w.wks k j).fetched <+: (w'.wks k j).fetched ∧ w'.part k j = w.part k j ∧ w'.start k j = w.start k j ∧ j < w'.nw k := by
  have one : ∀ {k0 j0 : Nat} {s : PW}, (w.wks k0 j0).fetched <+: s.fetched → (w.wks k j).fetched <+: ((w.set k0 j0 s).wks k j).fetched := by
    intro k0 j0 s hs
    rw [set_wks]
    split
    · rename_i e; rw [e.1, e.2]; exact hs
    · exact List.prefix_refl _
  have all : ∀ {k0 : Nat} {g : Nat → PW}, Dones (wcfg c ecap) (w.wks k0) g → (w.wks k j).fetched <+: ((w.setAll k0 g).wks k j).fetched := by
    intro k0 g hg
    change _ <+: (Eos.upd w.wks k0 g k j).fetched
    by_cases hk : k = k0
    · subst hk; rw [upd_self, (hg j).2.1.fetched]; exact List.prefix_refl _
    · rw [upd_other _ _ hk]; exact List.prefix_refl _
  cases h with
  | start => exact ⟨List.prefix_refl _, rfl, rfl, hj⟩
  | crash => exact ⟨List.prefix_refl _, rfl, rfl, hj⟩
  | @assign k0 tp f ha hc =>
    refine ⟨List.prefix_refl _, ?_, ?_, ?_⟩
    · dsimp only
      rw [upd2, if_neg (by rintro ⟨rfl, rfl⟩; omega)]
    · dsimp only
      rw [upd2, if_neg (by rintro ⟨rfl, rfl⟩; omega)]
    · dsimp only
      by_cases hk : k = k0
      · subst hk; rw [upd_self]; omega
      · rw [upd_other _ _ hk]; exact hj
  | revoke ha hc => exact ⟨one (List.prefix_refl _), rfl, rfl, hj⟩
  | fetch ha hj0 hp hs =>
    refine ⟨one ?_, rfl, rfl, hj⟩
    simp only [Worker.step] at hs
    (repeat' split at hs) <;> first | (cases hs; done) | (simp only [Option.some.injEq] at hs; subst hs; exact List.prefix_append _ _)
  | ready => exact ⟨one (List.prefix_refl _), rfl, rfl, hj⟩
  | own ha hj0 ho hr hc hs => exact ⟨one (by rw [(mild_own (B.wr _ _) ho hs).fetched]; exact List.prefix_refl _), rfl, rfl, hj⟩
  | complete ha hj0 ho hc hs hp => exact ⟨one (by rw [(mild_own (B.wr _ _) ho hs).fetched]; exact List.prefix_refl _), rfl, rfl, hj⟩
  | refuse ha hj0 hb hr hs => exact ⟨one (by rw [worker_fetched hs]; exact List.prefix_refl _), rfl, rfl, hj⟩
  | add ha hj0 hb hr hp hs => exact ⟨one (by rw [worker_fetched hs]; exact List.prefix_refl _), rfl, rfl, hj⟩
  | emit => exact ⟨List.prefix_refl _, rfl, rfl, hj⟩
  | pass => exact ⟨all (dones_finalized _ _ _), rfl, rfl, hj⟩
  | endTxn => exact ⟨all (dones_rooted _ _ _), rfl, rfl, hj⟩
  | pool => exact ⟨List.prefix_refl _, rfl, rfl, hj⟩

theorem fetchedAll_step (hr : Reach c ecap src w) {a : Act} (h : step c ecap src w a = some w') {j : Nat} (hj : j < w.nw k) (hf : FetchedAll src w k j) :
    FetchedAll src w' k j ∧ j < w'.nw k := by
  obtain ⟨h1, h2, h3, h4⟩ := goes_fetched (base_reach hr) (goes_of_step h) hj
  refine ⟨?_, h4⟩
  unfold FetchedAll at *
  have hp := (base_reach (.step a hr h)).ft k j
  rw [h2, h3] at hp ⊢
  refine hp.eq_of_length_le ?_
  rw [← hf]
  exact (h1.filterMap id).length_le

theorem fetchedAll_calm (hr : Reach c ecap src w) {n j : Nat} (h : Calm c ecap src k w n w') (hj : j < w.nw k) (hf : FetchedAll src w k j) :
    FetchedAll src w' k j ∧ j < w'.nw k := by
  induction h with
  | start => exact ⟨hf, hj⟩
  | next a hc _ hs ih => exact fetchedAll_step (calm_reach hr hc) hs ih.2 ih.1
  | aside a hc _ hs ih => exact fetchedAll_step (calm_reach hr hc) hs ih.2 ih.1

/-- **C102**. From every state in which a worker has been handed its partition to the end, every schedule that goes on as long as something can happen in its consumer comes
to a state in which, unless the partition was revoked meanwhile (or the worker has not been able to start), all records of the partition have been handled. -/
theorem C102_completes (hn : 0 < c.poolSize) (hp : 0 < c.pending) (hm : 0 < c.max) (he : 0 < ecap) (hsrc : ∀ tp, (src tp).Pairwise (· < ·))
    (h : Reach c ecap src w) (hk : w.alive k = true) (ok : (w.inst k).pool.com ≠ .stopped) (hij : ∀ j, (w.wks k j).nextTag = 0)
    {j : Nat} (hj : j < w.nw k) (hf : FetchedAll src w k j) :
    ∃ N, ∀ n w', Calm c ecap src k w n w' →
      n ≤ N ∧ ((∃ a w'', internal c w' k a = true ∧ step c ecap src w' a = some w'') ∨
        ∀ tp, w'.cur k tp = some j → (w'.wks k j).wk ≠ .boot → ∀ o ∈ src tp, HandledBy w' tp o) := by
  obtain ⟨N, hN⟩ := C98_completes hn hp hm he hsrc h hk ok hij
  refine ⟨N, fun n w' hc => ⟨(hN n w' hc).1, ?_⟩⟩
  rcases (hN n w' hc).2 with h1 | S
  · exact .inl h1
  · exact .inr fun tp hcur hb o ho => C102_rest hn hsrc (calm_reach h hc) S hcur hb (fetchedAll_calm h hc hj hf).1 ho

/-- As `demo` (see C96); then consumer 1 handles 17, the last record. -/
def toTheEnd : List Act := demo ++ recv 1 0 17 ++ [.emit 1 0 ⟨1, some 17, 0⟩ 300, .own 1 0 (.ret true)] ++ flush 1 ++ [.wait 1] ++ endIt 1

/-- The consumer is at rest then, the hand-over was orderly, and its worker has been handed the partition to its end. -/
example : ∃ w, Neat demoCfg 2 demoSrc w ∧ Settled demoCfg w 1 ∧ w.cur 1 5 = some 0 ∧ (w.wks 1 0).wk ≠ .boot ∧ FetchedAll demoSrc w 1 0 ∧ demoSrc 5 = [10, 12, 17] ∧
    w.newest 5 = 18 ∧ Effects.effectsAt ((List.range w.n).map w.inst) 5 17 = [300] := by
  have hd : ((runB demoCfg 2 demoSrc (Group.init demoCfg) toTheEnd).any fun w => decide (w.nw 1 = 1 ∧ w.cur 1 5 = some 0 ∧ (w.wks 1 0).wk = .idle ∧
      (w.wks 1 0).fetched = [some 12, some 17] ∧ w.start 1 0 = 11 ∧ w.part 1 0 = 5 ∧ (w.inst 1).pool.added = [(⟨0, 5, some 12⟩, 0), (⟨1, 5, some 17⟩, 1)] ∧
      (w.inst 1).pool.done = [0, 1] ∧ (w.inst 1).pool.ended = [(0, true), (1, true)] ∧ (w.inst 1).pool.com = .idle ∧ (w.inst 1).pool.cq = [] ∧
      (w.inst 1).pool.fwd = .idle ∧ (w.wks 1 0).slots = 0 ∧ (w.wks 1 0).waiter = 0 ∧ (w.wks 1 0).wm = 11 ∧ (w.wks 1 0).offered = [12, 17] ∧
      (w.wks 1 0).revoked = false ∧ w.newest 5 = 18 ∧ Effects.effectsAt ((List.range w.n).map w.inst) 5 17 = [300])) = true := by decide +kernel
  obtain ⟨h, h'⟩ := (Option.any_eq_true_iff_get _ _).1 hd
  obtain ⟨w1, w2, w3, w4, w5, w6, w7, w8, w9, w10, w11, w12, w13, w14, w15, w16, w17, w18, w19⟩ := of_decide_eq_true h'
  have hrun := (Option.some_get h).symm
  generalize Option.get _ h = w at *
  refine ⟨w, runB_neat .init hrun, ?_, w2, by rw [w3]; simp, ?_, rfl, w18, w19⟩
  · have c12 : (w.inst 1).Committed ⟨0, 5, some 12⟩ := ⟨0, by rw [w7]; simp, by rw [w9]; simp⟩
    have c17 : (w.inst 1).Committed ⟨1, 5, some 17⟩ := ⟨1, by rw [w7]; simp, by rw [w9]; simp⟩
    refine ⟨fun e g he => ?_, ⟨w10, w11, w12⟩, fun j hj hb hr => ?_, fun j hj hb hr => ?_, fun j hj hb => ?_⟩
    · rw [w7] at he
      simp only [List.mem_cons, Prod.mk.injEq, List.not_mem_nil, or_false] at he
      rcases he with ⟨rfl, rfl⟩ | ⟨rfl, rfl⟩
      · exact ⟨by rw [w8]; simp, by rw [w9]; simp, fun _ => c12⟩
      · exact ⟨by rw [w8]; simp, by rw [w9]; simp, fun _ => c17⟩
    · obtain rfl : j = 0 := by omega
      rw [w17] at hr; cases hr
    · obtain rfl : j = 0 := by omega
      refine ⟨w3, w13, w14, by rw [w16, w4, w15]; decide, fun o ho => ?_⟩
      rw [w16] at ho
      simp only [List.mem_cons, List.not_mem_nil, or_false] at ho
      rcases ho with rfl | rfl
      · exact ⟨⟨0, some 12, 0⟩, rfl, by unfold Group.ev; rw [w6]; exact c12⟩
      · exact ⟨⟨1, some 17, 0⟩, rfl, by unfold Group.ev; rw [w6]; exact c17⟩
    · obtain rfl : j = 0 := by omega
      rw [w3] at hb; cases hb
  · unfold FetchedAll
    rw [w4, w5, w6]; decide

/-- Before that: the last record has been handed to the worker of consumer 1, which is running the handler; what is left happens by itself. -/
example : ∃ w, Reach demoCfg 2 demoSrc w ∧ w.alive 1 = true ∧ (w.inst 1).pool.com ≠ .stopped ∧ (∀ j, (w.wks 1 j).nextTag = 0) ∧ 0 < w.nw 1 ∧ FetchedAll demoSrc w 1 0 ∧
    (w.wks 1 0).wk = .run ⟨1, some 17, 0⟩ ∧ w.log 5 = [11, 13] := by
  have hd : ((run demoCfg 2 demoSrc (Group.init demoCfg) (demo ++ recv 1 0 17)).any fun w => decide (w.alive 1 = true ∧ (w.inst 1).pool.com = .idle ∧ w.nw 1 = 1 ∧
      (w.wks 1 0).nextTag = 0 ∧ (w.wks 1 0).fetched = [some 12, some 17] ∧ w.start 1 0 = 11 ∧ w.part 1 0 = 5 ∧ (w.wks 1 0).wk = .run ⟨1, some 17, 0⟩ ∧
      w.log 5 = [11, 13])) = true := by decide +kernel
  obtain ⟨h, h'⟩ := (Option.any_eq_true_iff_get _ _).1 hd
  obtain ⟨w1, w2, w3, w4, w5, w6, w7, w8, w9⟩ := of_decide_eq_true h'
  have hr := run_reach .init (Option.some_get h).symm
  generalize Option.get _ h = w at *
  refine ⟨w, hr, w1, by rw [w2]; simp, fun j => ?_, by omega, ?_, w8, w9⟩
  · cases j with
    | zero => exact w4
    | succ j => rw [(base_reach hr).un 1 (j + 1) (by omega)]; rfl
  · unfold FetchedAll
    rw [w5, w6, w7]; decide

end Verif.Whole

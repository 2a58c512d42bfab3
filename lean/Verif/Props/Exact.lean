import Verif.Exact.Proofs
/-
C01: exactly-once effects of a source partition, across crashes and restarts.
-/
namespace Verif.Exact
open Verif.Eos

/-! ### Specification

The effects of handling a list of events in order, written without the pool and the worker: `out` collects the records, `st`
is the state that the next handler sees. -/

/-- One event handled on a state and the records so far. -/
def handleOne {S X : Type} (a : App S X) (q : S × List Nat) (x : X) : S × List Nat :=
  ((a.handle q.1 x).foldl a.apply q.1, q.2 ++ a.handle q.1 x)

/-- All events handled once, in order, from the initial state. -/
def handleAll {S X : Type} (a : App S X) (xs : List X) : S × List Nat := xs.foldl (handleOne a) (a.s0, [])

theorem handle_fold {S X : Type} (a : App S X) (xs : List X) (s : S) (out : List Nat) :
    xs.foldl (handleOne a) (s, out) = ((effects a s xs).foldl a.apply s, out ++ effects a s xs) := by
  induction xs generalizing s out with
  | nil => simp [effects]
  | cons x xs ih => simp [effects, handleOne, ih, List.foldl_append]

theorem handleAll_eq {S X : Type} (a : App S X) (xs : List X) :
    handleAll a xs = ((effects a a.s0 xs).foldl a.apply a.s0, effects a a.s0 xs) := by
  unfold handleAll; rw [handle_fold]; simp

variable {S X : Type} {c : Cfg} {a : App S X} {tp : Nat} {src : List (Nat × X)}

theorem takeWhile_sorted {l : List (Nat × X)} (h : (l.map Prod.fst).Pairwise (· < ·)) (K : Nat) :
    (l.filter fun r => r.1 < K) <+: l := by
  have := filter_split (k := fun q : Nat × X => q.1) (h.imp (fun h => Nat.le_of_lt h)) K
  exact ⟨_, this.symm⟩

/-- **C01.** In every state of every execution, with any crashes and restarts, any batching, any other partitions in the same
producers: the records of the partition that read-committed readers see are exactly those of handling a prefix of the source
log, each record once and in offset order. The prefix is the part below the watermark that the commit log shows at that moment. -/
theorem C01_exactly_once (hn : 0 < c.poolSize) (hsrc : (src.map Prod.fst).Pairwise (· < ·)) {w : World S X}
    (h : WReach c a tp src w) :
    ∃ pre post, src = pre ++ post ∧
      w.visible tp = (handleAll a (pre.map Prod.snd)).2 ∧
      (∀ r ∈ pre, r.1 < w.watermark tp) ∧ (∀ r ∈ post, w.watermark tp ≤ r.1) := by
  obtain ⟨hd, cl, ql, em, I⟩ := inv_reach hn hsrc h
  refine ⟨src.filter fun r => r.1 < w.watermark tp, src.filter fun r => w.watermark tp ≤ r.1, ?_, ?_, ?_, ?_⟩
  · exact filter_split (k := fun q : Nat × X => q.1) (hsrc.imp (fun h => Nat.le_of_lt h)) _
  · rw [handleAll_eq]; exact visible_of_inv hn hsrc I
  · intro r hr; simpa using (List.mem_filter.1 hr).2
  · intro r hr; simpa using (List.mem_filter.1 hr).2

/-- **C01** (recovery). The store that a new incarnation restores is the state after handling the visible prefix, so the next
handler sees the state that it would have seen without the crash. -/
theorem C01_restored_state (hn : 0 < c.poolSize) (hsrc : (src.map Prod.fst).Pairwise (· < ·)) {w w' : World S X}
    (h : WReach c a tp src w) (hs : wstep c a tp src w .crash = some w') :
    ∃ pre post, src = pre ++ post ∧ w'.st = (handleAll a (pre.map Prod.snd)).1 ∧ w'.next = post ∧
      w'.visible tp = w.visible tp ∧ w'.watermark tp = w.watermark tp := by
  obtain ⟨hd, cl, ql, em, I⟩ := inv_reach hn hsrc h
  unfold wstep at hs
  simp only [Option.some.injEq] at hs
  subst hs
  refine ⟨src.filter fun r => r.1 < w.watermark tp, src.filter fun r => w.watermark tp ≤ r.1, ?_, ?_, rfl, ?_, rfl⟩
  · exact filter_split (k := fun q : Nat × X => q.1) (hsrc.imp (fun h => Nat.le_of_lt h)) _
  · rw [handleAll_eq]
    show (w.visible tp).foldl a.apply a.s0 = _
    rw [visible_of_inv hn hsrc I]
  · show w.visible tp ++ [] = _
    rw [List.append_nil]

/-- **C01** (local order). The handlers of one incarnation run one after the other in offset order, each on the state that the
events before it left: the local store is always the state of handling the visible prefix of the start of the incarnation, then
the finished events, then a part of the records of the running handler. -/
theorem C01_local_state (hn : 0 < c.poolSize) (hsrc : (src.map Prod.fst).Pairwise (· < ·)) {w : World S X}
    (h : WReach c a tp src w) :
    ∃ pre post some_, src = pre ++ post ∧ w.st = some_.foldl a.apply (handleAll a (pre.map Prod.snd)).1 ∧
      (w.cur = none → some_ = []) ∧
      (∀ e ys, w.cur = some (e, ys) → ∃ r post', post = r :: post' ∧ e.off = some r.1 ∧
        some_ ++ ys = a.handle (handleAll a (pre.map Prod.snd)).1 r.2) := by
  obtain ⟨hd, cl, ql, em, I⟩ := inv_reach hn hsrc h
  have hs := filter_split (k := fun q : Nat × X => q.1) (hsrc.imp (fun h => Nat.le_of_lt h)) w.wm
  have hall : (src.filter fun r => w.wm ≤ r.1) =
      (hd.map fun z => (z.1.1.off.getD 0, z.2)) ++ ((cl ++ ql).map (fun z => (z.1.1.off.getD 0, z.2)) ++ w.next) := by
    have h1 := congrArg (List.map fun q : Option Nat × X => (q.1.getD 0, q.2)) I.rest
    simp only [List.map_append, List.map_map, List.append_assoc] at h1
    have h2 : ∀ l : List (Nat × X), l.map ((fun q : Option Nat × X => (q.1.getD 0, q.2)) ∘ fun r => (some r.1, r.2)) = l := by
      intro l; conv_rhs => rw [← List.map_id l]
      rfl
    rw [h2, h2] at h1
    rw [← h1]
    simp only [List.map_append, List.append_assoc]
    rfl
  have hoffs : ∀ z ∈ hd ++ cl ++ ql, ∃ o, z.1.1.off = some o := by
    intro z hz
    have h1 : (z.1.1.off, z.2) ∈ (src.filter fun r => w.wm ≤ r.1).map fun r => ((some r.1 : Option Nat), r.2) := by
      rw [← I.rest]
      exact List.mem_append.2 (.inl (List.mem_map.2 ⟨z, hz, rfl⟩))
    obtain ⟨r', _, h2⟩ := List.mem_map.1 h1
    simp only [Prod.mk.injEq] at h2
    exact ⟨r'.1, h2.1.symm⟩
  have hst : (effects a (w.base.foldl a.apply a.s0) (hd.map Prod.snd)).foldl a.apply (w.base.foldl a.apply a.s0) =
      (handleAll a (((src.filter fun r => r.1 < w.wm) ++ hd.map fun z => (z.1.1.off.getD 0, z.2)).map Prod.snd)).1 := by
    rw [handleAll_eq, List.map_append, effects_append, List.foldl_append, ← I.base]
    simp only [List.map_map]
    rfl
  refine ⟨(src.filter fun r => r.1 < w.wm) ++ hd.map fun z => (z.1.1.off.getD 0, z.2),
    (cl ++ ql).map (fun z => (z.1.1.off.getD 0, z.2)) ++ w.next, em, ?_, ?_, ?_, ?_⟩
  · rw [List.append_assoc, ← hall]; exact hs
  · rw [I.st, List.foldl_append, hst]
  · intro hc
    have := I.cur
    rw [hc] at this
    exact this.2
  · intro e ys hc
    have := I.cur
    rw [hc] at this
    obtain ⟨z, rfl, rfl, h3⟩ := this
    refine ⟨(z.1.1.off.getD 0, z.2), ql.map (fun z => (z.1.1.off.getD 0, z.2)) ++ w.next, by simp, ?_, ?_⟩
    · obtain ⟨o, ho⟩ := hoffs z (by simp)
      simp [ho]
    · rw [h3, hst]

/-! ### A concrete execution -/

theorem wrun_reach {w w' : World S X} (h : WReach c a tp src w) : ∀ ls, wrun c a tp src w ls = some w' → WReach c a tp src w' := by
  intro ls
  induction ls generalizing w with
  | nil => intro h'; cases h'; exact h
  | cons l ls ih =>
    intro h'
    obtain ⟨w1, h1, h2⟩ := Option.bind_eq_some_iff.1 h'
    exact ih (.step l h h1) h2

/-- A counter: every event adds its content and the new sum is recorded. -/
def sumApp : App Nat Nat := { s0 := 0, handle := fun s x => [s + x, 100], apply := fun s y => if y = 100 then s else y }

def exCfg : Cfg := { poolSize := 2, pending := 1, target := 1, max := 10 }

/-- The first event is committed; the second is handled but its transaction is still open when the process dies. Offset 3 is
missing in the log. -/
def exSteps : List WLabel :=
  [.feed 0, .pool .give, .pool .check, .start, .emit, .emit, .finish, .pool .tryFlush, .pool .swapIn,
   .feed 1, .pool .give, .start, .emit,
   .pool .take, .pool (.beginCommit [7]), .pool .wait, .pool .wait, .pool (.endTxn [7]), .pool .release, .pool .release,
   .pool .giveBack, .emit, .finish, .crash]

/-- After the crash the second event is handled again, and this time committed. -/
def exMore : List WLabel :=
  [.feed 0, .pool .give, .pool .check, .start, .emit, .emit, .finish, .pool .tryFlush, .pool .swapIn, .pool .take,
   .pool (.beginCommit [7]), .pool .wait, .pool .wait, .pool (.endTxn [7])]

def exSrc : List (Nat × Nat) := [(2, 5), (4, 6), (5, 7)]

example : ∃ w, WReach exCfg sumApp 7 exSrc w ∧ w.visible 7 = [5, 100] ∧ w.watermark 7 = 3 ∧ w.next = [(4, 6), (5, 7)] ∧
    w.st = 5 := by
  have hd : ((wrun exCfg sumApp 7 exSrc (boot exCfg sumApp exSrc [] 0) exSteps).map fun w =>
      (w.visible 7, w.watermark 7, w.next, w.st)) = some ([5, 100], 3, [(4, 6), (5, 7)], 5) := by decide +kernel
  obtain ⟨w, hw, he⟩ := Option.map_eq_some_iff.1 hd
  simp only [Prod.mk.injEq] at he
  exact ⟨w, wrun_reach .init _ hw, he.1, he.2.1, he.2.2.1, he.2.2.2⟩

example : ∃ w, WReach exCfg sumApp 7 exSrc w ∧ w.visible 7 = [5, 100, 11, 100] ∧ w.watermark 7 = 5 := by
  have hd : ((wrun exCfg sumApp 7 exSrc (boot exCfg sumApp exSrc [] 0) (exSteps ++ exMore)).map fun w =>
      (w.visible 7, w.watermark 7)) = some ([5, 100, 11, 100], 5) := by decide +kernel
  obtain ⟨w, hw, he⟩ := Option.map_eq_some_iff.1 hd
  simp only [Prod.mk.injEq] at he
  exact ⟨w, wrun_reach .init _ hw, he.1, he.2⟩

example : 0 < exCfg.poolSize ∧ (exSrc.map Prod.fst).Pairwise (· < ·) := by decide

end Verif.Exact

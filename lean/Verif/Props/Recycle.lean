import Verif.Recycle.Proofs
import Verif.Props.Eos
/-
Property C75: the objects of the records that are produced in transactions come from a pool and go back to it
(`streams/record.go:52-82`, `streams/eos_producer.go:494-536`), for every pool size, every configuration, every interleaving, every order of
the client's callbacks and every behaviour of an application that keeps to the rule of `streams/event_context.go:134-135`: it does not
touch a record after handing it over.
-/
namespace Verif.Recycle
open Verif.Eos

/-- Room for three free objects; an offset record contains 1000 plus the offset. -/
def demoPrm : Prm := ⟨3, fun r => match r with | .user x => x | .commit _ o => 1000 + o⟩

/-- The run of `Verif.Eos.demo`: the application fills two records and hands them over for events 0 and 2, the second one waits in a buffer while
the first transaction is committed; a third record is given back and used again for the offset record. -/
def demo : List Act :=
  [.pool (.add e0), .pool .give, .new, .write 0 7, .forward e0 100 0, .pool .check, .pool (.add e1), .pool .give, .pool .check,
   .pool .tryFlush, .pool .swapIn, .pool (.add e2), .pool .give, .new, .write 1 8, .new, .write 2 9, .forward e2 200 1, .drop 2, .pool .take,
   .pool (.beginCommit [5]), .pool .wait, .pool (.complete e1), .pool .wait, .pool (.complete e0), .pool .wait,
   .ack 1, .ack 0, .pool (.endTxn [5]), .pool .release, .pool .release, .pool .giveBack]

theorem run_reach {c : Cfg} {pr : Prm} {ls : List Act} {s s' : St} (h : Reach c pr s) (hr : run c pr s ls = some s')
    (hl : ∀ x ∈ ls, x ≠ .pool (.commitFail true)) : Reach c pr s' := by
  induction ls generalizing s with
  | nil => cases hr; exact h
  | cons l ls ih =>
    simp only [run, Option.bind_eq_some_iff] at hr
    obtain ⟨s1, h1, h2⟩ := hr
    exact ih (.step l h (hl _ (List.mem_cons_self ..)) h1) h2 (fun x hx => hl x (List.mem_cons_of_mem _ hx))

/-- Before the acknowledgements: two records of the first transaction are with the client, object 2 of the given back record has the
offset; the record of the second transaction waits. -/
example : ∃ s, Reach demoCfg demoPrm s ∧
    s.objs = [(⟨0, 5, .user 100⟩, 0, 7), (⟨1, 5, .user 200⟩, 1, 8), (⟨0, 5, .commit 5 11⟩, 2, 1011)] ∧
    s.released = [] ∧ s.free = [] ∧ s.held = [] ∧ s.data 2 = 1011 ∧ s.next = 3 := by
  have hd : ∃ s, run demoCfg demoPrm (St.init demoCfg) (demo.take 26) = some s ∧
      s.objs = [(⟨0, 5, .user 100⟩, 0, 7), (⟨1, 5, .user 200⟩, 1, 8), (⟨0, 5, .commit 5 11⟩, 2, 1011)] ∧
      s.released = [] ∧ s.free = [] ∧ s.held = [] ∧ s.data 2 = 1011 ∧ s.next = 3 :=
    ⟨_, rfl, by decide +kernel, by decide +kernel, by decide +kernel, by decide +kernel, by decide +kernel, by decide +kernel⟩
  obtain ⟨s, h1, h2⟩ := hd
  exact ⟨s, run_reach .init h1 (by decide +kernel), h2⟩

/-- At the end the first transaction has ended and its two objects are free and empty; the third is with the client. -/
example : ∃ s, Reach demoCfg demoPrm s ∧ s.pool.ended = [(0, true)] ∧ s.released = [⟨0, 5, .commit 5 11⟩, ⟨0, 5, .user 100⟩] ∧
    s.free = [2, 0] ∧ s.data 0 = 0 ∧ s.data 1 = 8 := by
  have hd : ∃ s, run demoCfg demoPrm (St.init demoCfg) demo = some s ∧ s.pool.ended = [(0, true)] ∧
      s.released = [⟨0, 5, .commit 5 11⟩, ⟨0, 5, .user 100⟩] ∧ s.free = [2, 0] ∧ s.data 0 = 0 ∧ s.data 1 = 8 :=
    ⟨_, rfl, by decide +kernel, by decide +kernel, by decide +kernel, by decide +kernel, by decide +kernel⟩
  obtain ⟨s, h1, h2⟩ := hd
  exact ⟨s, run_reach .init h1 (by decide +kernel), h2⟩

/-- Without the acknowledgements the transaction can not end. -/
example : run demoCfg demoPrm (St.init demoCfg) (demo.take 27 ++ [.pool (.endTxn [5])]) = none := by decide +kernel

/-- **C75** (intact). From the call of `ProduceRecord` to the client's callback a record contains what it contained at the call: also while
it waits in a buffer. Its object is not one of the application's, not in the free list, and not that of another record on its way. -/
theorem C75_intact {c : Cfg} (hn : 0 < c.poolSize) {pr : Prm} {s : St} (h : Reach c pr s) {out : Out} {o v : Nat}
    (ha : Away s out o v) :
    s.data o = v ∧ o ∉ s.held ∧ o ∉ s.free ∧ ∀ out' v', Away s out' o v' → out' = out := by
  have I := inv_reach hn h
  have D := dat_reach hn h
  have hb : o ∈ busy s := mem_busy ha.1 ha.2
  refine ⟨D.away _ ha.1 ha.2, fun hx => (I.apart.1 o hx).2 hb, fun hx => I.apart.2 o hx hb, ?_⟩
  intro out' v' ha'
  have hbn : (busy s).Nodup := by
    have := I.own
    rw [List.nodup_append] at this
    exact this.2.1
  unfold busy at hbn
  have hinj := (List.nodup_map_iff_inj_on
    ((List.Nodup.of_map _ (by rw [I.objs]; exact I.calls : (s.objs.map Prod.fst).Nodup)).filter fun x => x.1 ∉ s.released)).1 hbn
  have := hinj (out', o, v') (List.mem_filter.2 ⟨ha'.1, by simpa using ha'.2⟩) (out, o, v)
    (List.mem_filter.2 ⟨ha.1, by simpa using ha.2⟩) rfl
  exact congrArg Prod.fst this

/-- **C75** (each call). Every call of `ProduceRecord` has its object, in the order of the calls. -/
theorem C75_calls {c : Cfg} (hn : 0 < c.poolSize) {pr : Prm} {s : St} (h : Reach c pr s) :
    s.objs.map Prod.fst = s.pool.calls ∧ s.pool.calls.Nodup :=
  ⟨(inv_reach hn h).objs, (inv_reach hn h).calls⟩

/-- **C75** (released once). An object is released at most once for each call, and only for a record that the client was given. -/
theorem C75_once {c : Cfg} (hn : 0 < c.poolSize) {pr : Prm} {s : St} (h : Reach c pr s) :
    s.released.Nodup ∧ ∀ out ∈ s.released, out ∈ s.pool.sent ∧ out ∈ s.pool.calls :=
  have I := inv_reach hn h
  ⟨released_nodup hn (reach_pool h) I, fun out ho => ⟨released_sent I out ho,
    (sent_nodup hn (reach_pool h) I.calls).2 out (released_sent I out ho)⟩⟩

/-- **C75** (all released). When a transaction has ended, the objects of all its records have been released, the offset records included. -/
theorem C75_all_released {c : Cfg} (hn : 0 < c.poolSize) {pr : Prm} {s : St} (h : Reach c pr s) {g : Nat} {b : Bool}
    (hg : (g, b) ∈ s.pool.ended) {out : Out} (ho : out ∈ s.pool.calls) (hog : out.gen = g) :
    out ∈ s.released ∧ ∀ o v, ¬ Away s out o v :=
  have hr := all_released hn h (List.mem_map.2 ⟨_, hg, rfl⟩) out ho hog
  ⟨hr, fun _ _ ha => ha.2 hr⟩

/-- **C75** (new). `NewRecord` returns an empty object that neither the application nor a record on its way has, and that is no longer in the
free list. -/
theorem C75_new {c : Cfg} (hn : 0 < c.poolSize) {pr : Prm} {s s' : St} (h : Reach c pr s) (hs : step c pr s .new = some s') :
    ∃ o, s'.held = s.held ++ [o] ∧ o ∉ s.held ∧ o ∉ s'.free ∧ s'.data o = 0 ∧ (∀ out v, ¬ Away s' out o v) ∧
      (o ∈ s.free ∨ s.free = []) := by
  have I := inv_reach hn h
  have D := dat_reach hn h
  obtain ⟨d1, d2, d3⟩ := borrow_data I D
  obtain ⟨b1, b2, b3, b4, b5, b6⟩ := borrow_spec s
  cases hs
  refine ⟨(borrow s).1, rfl, fun hx => (d2 _ (List.mem_append_left _ hx)).2 rfl, fun hx => (d3 _ hx).2.2 rfl, d1, ?_, ?_⟩
  · rintro out v ⟨h1, h2⟩
    dsimp only at h1 h2
    rw [b2] at h1; rw [b4] at h2
    exact (d2 _ (List.mem_append_right _ (mem_busy h1 h2))).2 rfl
  · rcases b6 with ⟨h1, _⟩ | ⟨h1, _⟩
    · exact .inl (by rw [h1]; simp)
    · exact .inr h1

/-- **C75** (mine). A record that the application has got and not handed over is changed by nobody else, and stays with it. -/
theorem C75_mine {c : Cfg} (hn : 0 < c.poolSize) {pr : Prm} {s s' : St} (h : Reach c pr s) {a : Act}
    (hs : step c pr s a = some s') {o : Nat} (ho : o ∈ s.held) (hg : ¬ gives a o) :
    o ∈ s'.held ∧ (s'.data o = s.data o ∨ ∃ v, a = .write o v ∧ s'.data o = v) := by
  have I := inv_reach hn h
  have D := dat_reach hn h
  obtain ⟨d1, d2, d3⟩ := borrow_data I D
  obtain ⟨b1, b2, b3, b4, b5, b6⟩ := borrow_spec s
  cases a with
  | pool l =>
    simp only [step] at hs
    split at hs
    · simp at hs
    · split at hs
      · simp at hs
      · split at hs
        · cases hs; exact ⟨ho, .inl rfl⟩
        · cases hs
          refine ⟨by dsimp only; rw [b1]; exact ho, .inl ?_⟩
          have := d2 o (List.mem_append_left _ ho)
          dsimp only [upd]
          rw [if_neg this.2, this.1]
    · split at hs
      · split at hs
        · rw [Option.map_eq_some_iff] at hs
          obtain ⟨p', hp, rfl⟩ := hs
          exact ⟨ho, .inl rfl⟩
        · simp at hs
      · simp at hs
    · rw [Option.map_eq_some_iff] at hs
      obtain ⟨p', hp, rfl⟩ := hs
      exact ⟨ho, .inl rfl⟩
  | new =>
    cases hs
    exact ⟨List.mem_append_left _ ho, .inl (d2 o (List.mem_append_left _ ho)).1⟩
  | write o' v =>
    simp only [step] at hs
    split at hs
    · cases hs
      refine ⟨ho, ?_⟩
      by_cases e : o = o'
      · subst e; exact .inr ⟨v, rfl, by simp [upd]⟩
      · left; dsimp only [upd]; rw [if_neg e]
    · simp at hs
  | drop o' =>
    have hne : o ≠ o' := fun e => hg (by rw [e]; exact .inl rfl)
    simp only [step] at hs
    split at hs
    · cases hs
      rw [(release_spec pr _ o').1, release_data]
      exact ⟨(List.mem_erase_of_ne hne).2 ho, .inl (by dsimp only [upd]; rw [if_neg hne])⟩
    · simp at hs
  | forward e x o' =>
    have hne : o ≠ o' := fun e' => hg (by rw [e']; exact .inr ⟨e, x, rfl⟩)
    simp only [step] at hs
    split at hs
    · split at hs
      · simp at hs
      · cases hs
        exact ⟨(List.mem_erase_of_ne hne).2 ho, .inl rfl⟩
    · simp at hs
  | ack i =>
    simp only [step] at hs
    split at hs
    · simp at hs
    · rename_i out hout
      split at hs
      · simp at hs
      · rename_i hni
        split at hs
        · simp at hs
        · rename_i xo hfind
          cases hs
          rw [(release_spec pr _ _).1, release_data]
          refine ⟨ho, .inl ?_⟩
          have hx1 : xo.1 = out := by simpa using List.find?_some hfind
          have hxm : xo ∈ s.objs := List.mem_of_find?_eq_some hfind
          have hnr : out ∉ s.released := by
            intro hrel
            have : some out ∈ s.acked.map fun j => s.pool.sent[j]? := by rw [I.acks]; exact List.mem_map.2 ⟨out, hrel, rfl⟩
            obtain ⟨j, hj, hje⟩ := List.mem_map.1 this
            obtain ⟨hlt1, e1⟩ := List.getElem?_eq_some_iff.1 hout
            obtain ⟨hlt2, e2⟩ := List.getElem?_eq_some_iff.1 hje
            have := (List.Nodup.getElem_inj_iff (sent_nodup hn (reach_pool h) I.calls).1).1 (e1.trans e2.symm)
            subst this
            exact hni hj
          dsimp only [upd]
          rw [if_neg]
          intro e
          exact (I.apart.1 o ho).2 (by rw [e]; exact mem_busy hxm (by rw [hx1]; exact hnr))

/-- **C75** (free objects). The free objects are different ones, empty, and not more than the limit. -/
theorem C75_free {c : Cfg} (hn : 0 < c.poolSize) {pr : Prm} {s : St} (h : Reach c pr s) :
    s.free.Nodup ∧ (∀ o ∈ s.free, s.data o = 0 ∧ o ∉ s.held) ∧ s.free.length ≤ pr.size := by
  have I := inv_reach hn h
  have D := dat_reach hn h
  refine ⟨?_, fun o ho => ⟨D.free o ho, fun hx => (I.apart.1 o hx).1 ho⟩, ?_⟩
  · have := I.own
    rw [List.nodup_append, List.nodup_append] at this
    exact this.1.2.1
  · clear I D
    have hb : ∀ s : St, (borrow s).2.free.length ≤ s.free.length := by
      intro s
      obtain ⟨_, _, _, _, _, h1 | h1⟩ := borrow_spec s
      · have := congrArg List.length h1.1
        rw [List.length_append] at this; omega
      · rw [h1.1, h1.2.1]
    have hr : ∀ (s : St) o, s.free.length ≤ pr.size → (release pr s o).free.length ≤ pr.size := by
      intro s o h
      unfold release
      split
      · dsimp only; rw [List.length_append, List.length_singleton]; omega
      · exact h
    induction h with
    | init => simp [St.init]
    | @step s s' a hr' hl hs ih =>
      have hb := hb s
      cases a <;> simp only [step] at hs <;> (repeat' split at hs) <;>
        first
        | (simp at hs; done)
        | (cases hs; exact ih)
        | (cases hs; exact Nat.le_trans hb ih)
        | (cases hs; exact hr _ _ ih)
        | (rw [Option.map_eq_some_iff] at hs; obtain ⟨p', hp, rfl⟩ := hs; exact ih)

/-- **C75** (nothing is lost). As long as not more objects were made than the free list can hold (30000), every object that was made is with
the application, on its way, or free; so a new one is made only if all others are in use. -/
theorem C75_no_leak {c : Cfg} (hn : 0 < c.poolSize) {pr : Prm} {s : St} (h : Reach c pr s) (hsz : s.next ≤ pr.size) :
    s.held.length + s.free.length + awayCount s = s.next := by
  rw [← busy_length]; exact len_reach hn h hsz

end Verif.Recycle

import Verif.Chain.Links
/-
C106: the chains of event contexts and the ring of nodes, `streams/eos_producer.go:113-128,242-244,296-324,336-357,396-408,446-463`.
-/
namespace Verif.Chain
open Verif.Eos

variable {c : Cfg} {s : St}

/-- A pool of two nodes for the examples (`streams/eos_producer.go:97-133`). -/
def demoCfg : Cfg := ⟨2, 1, 2, 10⟩

/-- Two partitions, an interjection in between, a commit that walks the chains, and an event for the next transaction meanwhile
(`streams/eos_producer.go:136-240`). -/
def demo : List Label :=
  [.add ⟨7, 0, some 40⟩, .give, .check, .add ⟨3, 1, some 5⟩, .give, .check, .tryFlush, .swapIn, .add ⟨9, 0, some 41⟩, .give, .check,
   .add ⟨4, 0, none⟩, .give, .check, .tryFlush, .complete ⟨7, 0, some 40⟩, .complete ⟨3, 1, some 5⟩, .take, .beginCommit [1, 0], .wait, .wait, .wait, .wait,
   .endTxn [0, 1], .release, .release, .release, .giveBack]

theorem run_reach {ls : List Label} {s s' : St} (h : Reach c s) (hr : run c s ls = some s') (hl : ∀ x ∈ ls, x ≠ .commitFail true) :
    Reach c s' := by
  induction ls generalizing s with
  | nil => cases hr; exact h
  | cons l ls ih =>
    simp only [run, Option.bind_eq_some_iff] at hr
    obtain ⟨s1, h1, h2⟩ := hr
    exact ih (.step l h (hl _ (List.mem_cons_self ..)) h1) h2 (fun x hx => hl x (List.mem_cons_of_mem _ hx))

/-- **C106.** For every sequence of steps: the pool with pointers can make it if and only if the pool with lists (`Verif.Eos`) can, and then everything
else is equal, the lists of each node and partition are what one meets following `prev` from the tail and `next` from the root, and what the commit
loop still has to wait for is what it meets following `prev` from its variable. So everything that is proved about the pool holds of the code with its
pointers. Failed commits and every answer of the error handler are included. -/
theorem C106_same_runs (hn : 0 < c.poolSize) (ls : List Label) :
    Option.Rel Agree (run c (St.init c) ls) (Eos.run c (Pool.init c) ls) := by
  have h := sim_run ls (match_init hn)
  cases h1 : run c (St.init c) ls <;> cases h2 : Eos.run c (Pool.init c) ls <;> rw [h1, h2] at h <;> cases h
  · exact .none
  · rename_i h; exact .some (match_agree h)

example : ((run demoCfg (St.init demoCfg) demo).any fun s => decide (s.q.ended = [(0, true)] ∧ s.q.free = [0] ∧
    s.q.sent = [⟨0, 1, .commit 1 6⟩, ⟨0, 0, .commit 0 41⟩] ∧ s.cur 0 = [] ∧ s.cur 1 = [(0, ⟨9, 4⟩)])) = true := by decide +kernel

/-- **C106.** While a node has a transaction (being filled, queued, or being committed up to `EndTransaction`), following `prev` from the tail of a
partition meets exactly the events of that partition that were added to this transaction, from the newest to the oldest, and then nil; following `next`
from the root meets the same from the oldest to the newest. No event is met twice. -/
theorem C106_chains (hn : 0 < c.poolSize) (h : Reach c s) {p : Nat} (hp : InUse s.q p) (tp : Nat) :
    Walk Obj.prev s.heap (((s.cur p).get tp).map Dll.tail) (eventsOf s.q.added (s.q.nodeGen p) tp).reverse ∧
    Walk Obj.next s.heap (((s.cur p).get tp).map Dll.root) (eventsOf s.q.added (s.q.nodeGen p) tp) ∧
    ((eventsOf s.q.added (s.q.nodeGen p) tp).map Ev.id).Nodup := by
  obtain ⟨evs, l, r, hu, _, _, _⟩ := match_used hn h
  rw [eventsOf_eq, ← hu p hp]
  exact ⟨r.newest p tp, r.oldest p tp, (r.ids p).sublist (List.filter_sublist.map _)⟩

/-- The node is being committed, its event of partition 1 was waited for and that of partition 0 is next; the other node is on deck with two events. -/
example : ∃ s, Reach demoCfg s ∧ InUse s.q 0 ∧ InUse s.q 1 ∧ s.ptr = some 7 ∧ s.cur 0 = [(0, ⟨7, 7⟩), (1, ⟨3, 3⟩)] ∧ s.cur 1 = [(0, ⟨9, 4⟩)] ∧
    eventsOf s.q.added (s.q.nodeGen 1) 0 = [⟨9, 0, some 41⟩, ⟨4, 0, none⟩] := by
  have hd : ∃ s, run demoCfg (St.init demoCfg) (demo.take 22) = some s ∧ s.q.com = .fin 0 [] false [] ∧ s.q.onDeck = 1 ∧ s.q.fwd = .idle ∧ s.ptr = some 7 ∧
      s.cur 0 = [(0, ⟨7, 7⟩), (1, ⟨3, 3⟩)] ∧ s.cur 1 = [(0, ⟨9, 4⟩)] ∧
      eventsOf s.q.added (s.q.nodeGen 1) 0 = [⟨9, 0, some 41⟩, ⟨4, 0, none⟩] :=
    ⟨_, rfl, by decide +kernel, by decide +kernel, by decide +kernel, by decide +kernel, by decide +kernel, by decide +kernel, by decide +kernel⟩
  obtain ⟨s, h1, h2, h3, h4, h5⟩ := hd
  exact ⟨s, run_reach .init h1 (by decide +kernel), Or.inr (Or.inr (Or.inr ⟨_, _, _, h2⟩)), Or.inl ⟨h3.symm, by rw [h4]; decide⟩, h5⟩

/-- A node that waits to be used has no partitions, hence no pointers to event contexts. -/
theorem C106_empty (hn : 0 < c.poolSize) (h : Reach c s) {p : Nat} (hp : p ∈ s.q.free) : s.cur p = [] := by
  obtain ⟨evs, l, r, _, hf, _, _⟩ := match_used hn h
  have hk := keys_perm r p
  rw [hf p hp] at hk
  simpa [Map.keys] using hk

/-- **C106.** An event context keeps alive in memory, through any number of pointers, only event contexts of its own transaction and partition: what
an application holds on to after the commit is bounded by one transaction. -/
theorem C106_bounded_memory (hn : 0 < c.poolSize) (h : Reach c s) {e : Ev} {g i : Nat} (he : (e, g) ∈ s.q.added) (hk : Keeps s.heap e.id i) :
    ∃ e' ∈ eventsOf s.q.added g e.part, e'.id = i := by
  obtain ⟨_, _, _, _, _, hnd, _⟩ := match_used hn h
  have hl := links hn h
  have next : ∀ {j k : Nat} {o : Obj}, (∃ e', (e', g) ∈ s.q.added ∧ e'.part = e.part ∧ e'.id = j) → s.heap j = some o →
      (o.prev = some k ∨ o.next = some k) → ∃ e', (e', g) ∈ s.q.added ∧ e'.part = e.part ∧ e'.id = k := by
    rintro j k o ⟨x, h1, h2, h3⟩ ho hor
    obtain ⟨y, z, g', h4, h5, h6, h7, h8⟩ := hl j o k ho hor
    have := List.inj_on_of_nodup_map hnd h1 h4 (h3.trans h6.symm)
    simp only [Prod.mk.injEq] at this
    obtain ⟨rfl, rfl⟩ := this
    exact ⟨z, h5, h8.symm.trans h2, h7⟩
  have key : ∃ e', (e', g) ∈ s.q.added ∧ e'.part = e.part ∧ e'.id = i := by
    induction hk with
    | self => exact ⟨e, he, rfl, rfl⟩
    | prev _ h1 h2 ih => exact next ih h1 (Or.inl h2)
    | next _ h1 h2 ih => exact next ih h1 (Or.inr h2)
  obtain ⟨x, h1, h2, h3⟩ := key
  refine ⟨x, ?_, h3⟩
  rw [eventsOf_eq, List.mem_filter, mem_evOf]
  exact ⟨h1, by simp [h2]⟩

example : ((run demoCfg (St.init demoCfg) demo).any fun s => decide (s.heap 7 = some ⟨0, some 40, none, none⟩ ∧
    s.heap 9 = some ⟨0, some 41, none, some 4⟩ ∧ s.heap 4 = some ⟨0, none, some 9, none⟩)) = true := by decide +kernel

/-- That an event context is made for one event and given to the pool once is needed: given twice, its `prev` is itself and the loops never end. -/
example : (addEvent (addEvent (St.init demoCfg) ⟨7, 0, some 40⟩) ⟨7, 0, some 40⟩).heap 7 = some ⟨0, some 40, some 7, some 7⟩ := by decide +kernel

/-- **C106.** The `next` pointers of the nodes are a ring: the loops of `relinquishOwnership` that start behind a node and stop when they are back at it
end, and meet every other node exactly once, in the order of creation. -/
theorem C106_ring {n p : Nat} (hp : p < n) :
    ∃ l, Loop (buildRing n) p (buildRing n p) l ∧ l.Nodup ∧ (∀ k, k ∈ l ↔ k < n ∧ k ≠ p) ∧ l = (List.range n).drop (p + 1) ++ (List.range n).take p := by
  have hloop := loop_ring (fun q hq => ring_next (by omega) hq) hp
  have heq : ring n p = (List.range n).drop (p + 1) ++ (List.range n).take p := by
    rw [ring_range]
    apply List.ext_getElem
    · simp; omega
    · intro i h1 h2
      simp only [List.length_map, List.length_range'] at h1
      simp only [List.getElem_map, List.getElem_range', Nat.one_mul]
      by_cases hi : i < n - (p + 1)
      · rw [List.getElem_append_left (by simpa using hi)]
        simp only [List.getElem_drop, List.getElem_range]
        rw [Nat.mod_eq_of_lt (by omega)]; omega
      · rw [List.getElem_append_right (by simpa using hi)]
        simp only [List.getElem_take, List.getElem_range, List.length_drop, List.length_range]
        rw [Nat.mod_eq_sub_mod (by omega), Nat.mod_eq_of_lt (by omega)]; omega
  have hnd : (ring n p).Nodup := by
    rw [heq, List.nodup_append]
    refine ⟨List.nodup_range.sublist (List.drop_sublist _ _), List.nodup_range.sublist (List.take_sublist _ _), ?_⟩
    intro a ha b hb hab
    rw [List.mem_drop_iff_getElem] at ha
    rw [List.mem_take_iff_getElem] at hb
    obtain ⟨i, h1, h2⟩ := ha
    obtain ⟨j, h3, h4⟩ := hb
    simp only [List.getElem_range] at h2 h4
    omega
  refine ⟨ring n p, hloop, hnd, ?_, heq⟩
  intro k
  rw [heq, List.mem_append, List.mem_drop_iff_getElem, List.mem_take_iff_getElem]
  simp only [List.getElem_range, List.length_range]
  constructor
  · rintro (⟨i, h1, h2⟩ | ⟨i, h1, h2⟩) <;> omega
  · rintro ⟨h1, h2⟩
    by_cases hk : k < p
    · exact Or.inr ⟨k, by omega, rfl⟩
    · exact Or.inl ⟨k - (p + 1), by omega, by omega⟩

example : (List.range 4).map (buildRing 4) = [some 1, some 2, some 3, some 0] := by decide +kernel

end Verif.Chain

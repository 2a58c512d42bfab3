import Verif.Replica.Seq
/-
Proofs for C109: one partition of one consumer.
-/
namespace Verif.Replica
open Verif.Eos Verif.Effects Verif.Fleet

variable {σ X : Type} {c : Cfg} {a : Exact.App σ X} {src : Nat → List Nat} {val : Nat → Nat → X}

/-- The offset of an event of the source topic. -/
def offOf (e : Ev) : Nat := e.off.getD 0

/-- The events that the worker has not finished. -/
def todo (cur : Option (Ev × List Nat)) (queue : List Ev) : List Ev := (cur.map Prod.fst).toList ++ queue

/-- `fin` are the events that the worker has finished, `pre` are the records produced so far for the current event. -/
structure CellAt (a : Exact.App σ X) (src : Nat → List Nat) (val : Nat → Nat → X) (tp : Nat) (i : Inc) (work : Option (List Nat)) (st : σ)
    (queue : List Ev) (cur : Option (Ev × List Nat)) (fin : List Ev) (pre : List Nat) : Prop where
  evs : (i.pool.added.filter fun x => x.1.part = tp).map Prod.fst = fin ++ todo cur queue
  offs : ∀ x ∈ i.pool.added, x.1.part = tp → x.1.off = some (offOf x.1)
  chg : i.changes tp = (fin.flatMap fun e => (due a src val tp (offOf e)).map fun y => (e, y)) ++
    (cur.map Prod.fst).toList.flatMap fun e => pre.map fun y => (e, y)
  open_ : ∀ e ∈ todo cur queue, e.id ∉ i.pool.done
  now : ∀ e ys, cur = some (e, ys) → pre ++ ys = due a src val tp (offOf e) ∧ st = pre.foldl a.apply (stateAt a src val tp (offOf e))
  link : (work = none ∧ queue = [] ∧ cur = none) ∨ ∃ u r, (todo cur queue).map offOf ++ r = ((src tp).filter fun o => u ≤ o) ∧
    (∀ l, work = some l → r = l) ∧ (cur = none → st = stateAt a src val tp u)

def Cell (a : Exact.App σ X) (src : Nat → List Nat) (val : Nat → Nat → X) (w : W σ) (k tp : Nat) : Prop :=
  ∃ fin pre, CellAt a src val tp (w.g.inst k) (w.g.work k tp) (w.st k tp) (w.queue k tp) (w.cur k tp) fin pre

variable {tp : Nat} {i i' : Inc} {work : Option (List Nat)} {st : σ} {queue : List Ev} {cur : Option (Ev × List Nat)} {fin : List Ev}
  {pre : List Nat}

theorem CellAt.mem (K : CellAt a src val tp i work st queue cur fin pre) {e : Ev} (h : e ∈ fin ++ todo cur queue) :
    e.part = tp ∧ ∃ g, (e, g) ∈ i.pool.added := by
  rw [← K.evs] at h
  obtain ⟨⟨e', g⟩, h1, rfl⟩ := List.mem_map.1 h
  rw [List.mem_filter] at h1
  exact ⟨by simpa using h1.2, g, h1.1⟩

/-- The pool goes on without this partition. -/
theorem CellAt.same (K : CellAt a src val tp i work st queue cur fin pre) (ha : i'.pool.added = i.pool.added)
    (hc : i'.changes tp = i.changes tp) (hd : ∀ e ∈ todo cur queue, e.id ∉ i'.pool.done) :
    CellAt a src val tp i' work st queue cur fin pre :=
  ⟨by rw [ha]; exact K.evs, by rw [ha]; exact K.offs, by rw [hc]; exact K.chg, hd, K.now, K.link⟩

/-- An event of another partition is added. -/
theorem CellAt.addOther (K : CellAt a src val tp i work st queue cur fin pre) {e : Ev} {g : Nat} (ha : i'.pool.added = i.pool.added ++ [(e, g)])
    (hp : e.part ≠ tp) (hc : i'.changes tp = i.changes tp) (hd : i'.pool.done = i.pool.done) :
    CellAt a src val tp i' work st queue cur fin pre := by
  refine ⟨?_, ?_, by rw [hc]; exact K.chg, by rw [hd]; exact K.open_, K.now, K.link⟩
  · rw [ha, List.filter_append]; simpa [hp] using K.evs
  · intro x hx hxp
    rw [ha] at hx
    rcases List.mem_append.1 hx with hx | hx
    · exact K.offs x hx hxp
    · rw [List.mem_singleton] at hx; subst hx; exact absurd hxp hp

theorem todo_snoc (e : Ev) : todo cur (queue ++ [e]) = todo cur queue ++ [e] := by unfold todo; rw [List.append_assoc]

/-- The worker adds its next record. -/
theorem CellAt.feed {o g id : Nat} {rest : List Nat} (K : CellAt a src val tp i (some (o :: rest)) st queue cur fin pre)
    (ha : i'.pool.added = i.pool.added ++ [(⟨id, tp, some o⟩, g)]) (hc : i'.changes tp = i.changes tp) (hd : i'.pool.done = i.pool.done)
    (hnew : id ∉ i.pool.done) : CellAt a src val tp i' (some rest) st (queue ++ [⟨id, tp, some o⟩]) cur fin pre := by
  refine ⟨?_, ?_, by rw [hc]; exact K.chg, ?_, K.now, ?_⟩
  · rw [ha, List.filter_append, List.map_append, K.evs, todo_snoc]; simp
  · intro x hx hxp
    rw [ha] at hx
    rcases List.mem_append.1 hx with hx | hx
    · exact K.offs x hx hxp
    · rw [List.mem_singleton] at hx; subst hx; rfl
  · intro e he
    rw [todo_snoc] at he
    rw [hd]
    rcases List.mem_append.1 he with he | he
    · exact K.open_ e he
    · rw [List.mem_singleton] at he; subst he; exact hnew
  · right
    rcases K.link with ⟨h, -⟩ | ⟨u, r, h1, h2, h3⟩
    · cases h
    · have := h2 _ rfl
      subst this
      refine ⟨u, rest, ?_, by intro l hl; cases hl; rfl, h3⟩
      rw [todo_snoc, List.map_append, List.append_assoc]
      exact h1

/-- The worker calls the handler. -/
theorem CellAt.begin {e : Ev} (hl : (src tp).Pairwise (· < ·)) (K : CellAt a src val tp i work st (e :: queue) none fin pre) :
    CellAt a src val tp i work st queue (some (e, a.handle st (val tp (offOf e)))) fin [] ∧ st = stateAt a src val tp (offOf e) := by
  have hs : st = stateAt a src val tp (offOf e) := by
    rcases K.link with ⟨-, h, -⟩ | ⟨u, r, h1, h2, h3⟩
    · cases h
    · rw [h3 rfl, (seq_next (a := a) (val := val) hl (u := u) (o := offOf e) (t := queue.map offOf ++ r) (by simpa [todo] using h1)).1]
  refine ⟨⟨K.evs, K.offs, by simpa using K.chg, K.open_, ?_, ?_⟩, hs⟩
  · intro e' ys h
    cases h
    exact ⟨by rw [hs]; rfl, hs⟩
  · right
    rcases K.link with ⟨-, h, -⟩ | ⟨u, r, h1, h2, -⟩
    · cases h
    · exact ⟨u, r, h1, h2, by intro h; cases h⟩

/-- The handler produces a record. -/
theorem CellAt.emit {e : Ev} {y : Nat} {ys : List Nat} (K : CellAt a src val tp i work st queue (some (e, y :: ys)) fin pre)
    (ha : i'.pool.added = i.pool.added) (hc : i'.changes tp = i.changes tp ++ [(e, y)]) (hd : i'.pool.done = i.pool.done) :
    CellAt a src val tp i' work (a.apply st y) queue (some (e, ys)) fin (pre ++ [y]) := by
  refine ⟨by rw [ha]; exact K.evs, by rw [ha]; exact K.offs, ?_, by rw [hd]; exact K.open_, ?_, ?_⟩
  · rw [hc, K.chg]; simp
  · intro e' ys' h
    cases h
    obtain ⟨h1, h2⟩ := K.now e (y :: ys) rfl
    exact ⟨by rw [← h1]; simp, by rw [h2]; simp⟩
  · right
    rcases K.link with ⟨-, -, h⟩ | ⟨u, r, h1, h2, -⟩
    · cases h
    · exact ⟨u, r, h1, h2, by intro h; cases h⟩

/-- The handler returns. -/
theorem CellAt.finish {e : Ev} (hl : (src tp).Pairwise (· < ·)) (K : CellAt a src val tp i work st queue (some (e, [])) fin pre)
    (ha : i'.pool.added = i.pool.added) (hc : i'.changes tp = i.changes tp) (hd : ∀ d ∈ queue, d.id ∉ i'.pool.done) :
    CellAt a src val tp i' work st queue none (fin ++ [e]) [] := by
  obtain ⟨h1, h2⟩ := K.now e [] rfl
  rw [List.append_nil] at h1
  subst h1
  refine ⟨by rw [ha, K.evs]; simp [todo], by rw [ha]; exact K.offs, ?_, hd, (by intro e ys h; cases h), ?_⟩
  · rw [hc, K.chg]; simp
  · right
    rcases K.link with ⟨-, -, h⟩ | ⟨u, r, h3, h4, -⟩
    · cases h
    · have hh : offOf e :: (queue.map offOf ++ r) = (src tp).filter fun o => u ≤ o := by simpa [todo] using h3
      obtain ⟨-, h5, -⟩ := seq_next (a := a) (val := val) hl hh
      exact ⟨offOf e + 1, r, (filter_head hl hh).2.2, h4, fun _ => by rw [h5]; exact h2⟩

/-- The records of a transaction that has ended are those of its source records. -/
theorem CellAt.visible (hn : 0 < c.poolSize) (C : Core c i) (K : CellAt a src val tp i work st queue cur fin pre) {g : Nat}
    (hg : g < i.pool.ended.length) :
    (((i.changes tp).filter fun x => genOf i x = g).map Prod.snd) =
      (((evOf i.pool.added g).filter fun e => e.part = tp).filterMap Ev.off).flatMap (due a src val tp) := by
  have hen : g ∈ i.pool.ended.map Prod.fst := by rw [(C04_in_order hn C.reach).1, List.mem_range]; exact hg
  have hfree : ∀ e ∈ todo cur queue, genOf i (e, 0) ≠ g := by
    intro e he hge
    obtain ⟨-, g', hm⟩ := K.mem (List.mem_append_right fin he)
    rw [genOf_eq hn (C.inc fun _ => []) (x := (e, 0)) hm] at hge
    subst hge
    exact K.open_ e he (ended_done hn C.reach hen e hm)
  have hgen : ∀ (e : Ev) (y : Nat), genOf i (e, y) = genOf i (e, 0) := fun e y => rfl
  -- the events of the transaction
  have hE : ((evOf i.pool.added g).filter fun e => e.part = tp) = fin.filter fun e => genOf i (e, 0) = g := by
    have h1 : ((evOf i.pool.added g).filter fun e => e.part = tp) =
        ((i.pool.added.filter fun x => x.1.part = tp).map Prod.fst).filter fun e => genOf i (e, 0) = g := by
      unfold evOf
      rw [List.filter_map, List.filter_filter, List.filter_map, List.filter_filter]
      congr 1
      apply List.filter_congr
      intro x hx
      have : genOf i (x.1, 0) = x.2 := genOf_eq hn (C.inc fun _ => []) (x := (x.1, 0)) hx
      simp [this, Bool.and_comm]
    rw [h1, K.evs, List.filter_append]
    have h2 : ((todo cur queue).filter fun e => decide (genOf i (e, 0) = g)) = [] := by
      rw [List.filter_eq_nil_iff]
      intro e he
      simpa using hfree e he
    rw [h2, List.append_nil]
  have hoff : (fin.filter fun e => genOf i (e, 0) = g).filterMap Ev.off = (fin.filter fun e => genOf i (e, 0) = g).map offOf := by
    rw [← List.filterMap_eq_map]
    apply List.filterMap_congr
    intro e he
    obtain ⟨hp, g', hm⟩ := K.mem (List.mem_append_left _ (List.mem_of_mem_filter he))
    exact K.offs _ hm hp
  rw [hE, hoff, K.chg, List.filter_append]
  have hcur : (((cur.map Prod.fst).toList.flatMap fun e => pre.map fun y => (e, y)).filter fun x => decide (genOf i x = g)) = [] := by
    rw [List.filter_eq_nil_iff]
    intro x hx
    obtain ⟨e, he, hx⟩ := List.mem_flatMap.1 hx
    obtain ⟨y, -, rfl⟩ := List.mem_map.1 hx
    simpa [hgen] using hfree e (List.mem_append_left _ he)
  rw [hcur, List.append_nil]
  clear hE hoff hcur
  have key : ∀ l : List Ev, ((l.flatMap fun e => (due a src val tp (offOf e)).map fun y => (e, y)).filter fun x => decide (genOf i x = g)).map
      Prod.snd = ((l.filter fun e => genOf i (e, 0) = g).map offOf).flatMap (due a src val tp) := by
    intro l
    induction l with
    | nil => rfl
    | cons e l ih =>
      rw [List.flatMap_cons, List.filter_append, List.map_append, ih]
      by_cases he : genOf i (e, 0) = g
      · rw [List.filter_cons_of_pos (by simpa using he), List.map_cons, List.flatMap_cons]
        congr 1
        rw [List.filter_eq_self.2]
        · simp
        · intro x hx
          obtain ⟨y, -, rfl⟩ := List.mem_map.1 hx
          simpa [hgen] using he
      · rw [List.filter_cons_of_neg (by simpa using he)]
        have : (((due a src val tp (offOf e)).map fun y => (e, y)).filter fun x => decide (genOf i x = g)) = [] := by
          rw [List.filter_eq_nil_iff]
          intro x hx
          obtain ⟨y, -, rfl⟩ := List.mem_map.1 hx
          simpa [hgen] using he
        rw [this]; rfl
  exact key fin

/-- What the application produced for an event that it has finished. -/
theorem CellAt.made (hn : 0 < c.poolSize) (C : Core c i) (K : CellAt a src val tp i work st queue cur fin pre) {e : Ev} (he : e ∈ fin) :
    i.made e = due a src val tp (offOf e) := by
  have hids := (C04_in_order hn C.reach).2.2.2
  have hnd : (fin ++ todo cur queue).Nodup := by
    rw [← K.evs]
    have h1 : (i.pool.added.map Prod.fst).Nodup := by
      have : i.pool.added.map (fun x => x.1.id) = (i.pool.added.map Prod.fst).map Ev.id := by rw [List.map_map]; rfl
      rw [this] at hids
      exact List.Nodup.of_map _ hids
    exact h1.sublist (List.filter_sublist.map _)
  have hp := (K.mem (List.mem_append_left _ he)).1
  have h1 : i.made e = ((i.changes tp).filter fun x => x.1 = e).map Prod.snd := by
    unfold Inc.made Inc.changes
    rw [List.filter_filter]
    congr 1
    apply List.filter_congr
    intro x _
    by_cases hx : x.1 = e
    · simp [hx, hp]
    · simp [hx]
  have key : ∀ l : List Ev, l.Nodup → e ∈ l → ((l.flatMap fun e => (due a src val tp (offOf e)).map fun y => (e, y)).filter
      fun x => decide (x.1 = e)).map Prod.snd = due a src val tp (offOf e) := by
    have none_ : ∀ l : List Ev, e ∉ l → ((l.flatMap fun e => (due a src val tp (offOf e)).map fun y => (e, y)).filter
        fun x => decide (x.1 = e)) = [] := by
      intro l hl
      rw [List.filter_eq_nil_iff]
      intro x hx
      obtain ⟨d, hd, hx⟩ := List.mem_flatMap.1 hx
      obtain ⟨y, -, rfl⟩ := List.mem_map.1 hx
      have : d ≠ e := by rintro rfl; exact hl hd
      simpa using this
    intro l
    induction l with
    | nil => intro _ h; simp at h
    | cons d l ih =>
      intro hnd hm
      rw [List.nodup_cons] at hnd
      rw [List.flatMap_cons, List.filter_append, List.map_append]
      by_cases hd : d = e
      · subst hd
        rw [none_ l hnd.1, List.filter_eq_self.2]
        · simp
        · intro x hx
          obtain ⟨y, -, rfl⟩ := List.mem_map.1 hx
          simp
      · have hm : e ∈ l := by rcases List.mem_cons.1 hm with h | h; exact absurd h.symm hd; exact h
        rw [ih hnd.2 hm]
        have : (((due a src val tp (offOf d)).map fun y => (d, y)).filter fun x => decide (x.1 = e)) = [] := by
          rw [List.filter_eq_nil_iff]
          intro x hx
          obtain ⟨y, -, rfl⟩ := List.mem_map.1 hx
          simpa using hd
        rw [this]; rfl
  rw [h1, K.chg, List.filter_append]
  have hcur : (((cur.map Prod.fst).toList.flatMap fun e => pre.map fun y => (e, y)).filter fun x => decide (x.1 = e)) = [] := by
    rw [List.filter_eq_nil_iff]
    intro x hx
    obtain ⟨d, hd, hx⟩ := List.mem_flatMap.1 hx
    obtain ⟨y, -, rfl⟩ := List.mem_map.1 hx
    have : d ≠ e := by
      rintro rfl
      exact (List.nodup_append.1 hnd).2.2 d he d (List.mem_append_left _ hd) rfl
    simpa using this
  rw [hcur, List.append_nil]
  exact key fin (List.nodup_append.1 hnd).1 he

end Verif.Replica

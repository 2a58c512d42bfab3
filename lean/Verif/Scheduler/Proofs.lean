import Verif.Scheduler.View
/-
Invariants of the scheduler (streams/async_scheduler.go).
-/
namespace Verif.Scheduler

set_option linter.unusedSectionVars false

/-! ### The item queue -/

theorem trySend_spec {T : Type} {q q' : Queue T} {x : T} {b : Bool} (h : q.trySend x = (q', b)) :
    q'.size = q.size ∧ q'.cap = q.cap ∧ q'.head = q.head ∧ q'.contents = if b then q.contents ++ [x] else q.contents := by
  unfold Queue.trySend at h
  split at h <;> simp only [Prod.mk.injEq] at h <;> obtain ⟨rfl, rfl⟩ := h <;> simp [Queue.contents]

theorem tryEnqueue_spec {T : Type} {q q' : Queue T} {x : T} {b : Bool} (h : q.tryEnqueue x = (q', b)) :
    q'.size = q.size + 1 ∧ q'.cap = q.cap ∧ (∀ y, q.head = some y → q'.head = some y) ∧ (q'.head ≠ none) ∧
      q'.contents = if b then q.contents ++ [x] else q.contents := by
  unfold Queue.tryEnqueue Queue.tryEnqueue1 at h
  split at h
  · rename_i y hy
    obtain ⟨h1, h2, h3, h4⟩ := trySend_spec h
    simp only at hy
    refine ⟨h1, h2, fun y' hy' => by rw [h3]; exact hy', by rw [h3]; simp [hy], ?_⟩
    rw [h4]; rfl
  · rename_i hy
    simp only at hy
    split at h
    · rename_i z hz
      obtain ⟨h1, h2, h3, h4⟩ := trySend_spec h
      rw [backfill_size] at h1
      rw [backfill_cap] at h2
      rw [backfill_contents { q with size := q.size + 1 } hy] at h4
      exact ⟨h1, h2, fun y hy' => by simp [hy] at hy', by rw [h3]; simp [hz], h4⟩
    · rename_i hz
      simp only [Prod.mk.injEq] at h
      obtain ⟨rfl, rfl⟩ := h
      have hc := backfill_contents { q with size := q.size + 1 } hy
      have hb : (Queue.backfill { q with size := q.size + 1 }).buf = [] := by
        unfold Queue.backfill at hz ⊢
        split <;> simp_all
      have hc' : q.contents = [] := by
        have : Queue.contents { q with size := q.size + 1 } = [] := by rw [← hc]; simp [Queue.contents, hz, hb]
        exact this
      refine ⟨backfill_size _, backfill_cap _, fun y hy' => by simp [hy] at hy', by simp, ?_⟩
      rw [hc']; simp [Queue.contents, hb]

theorem put_spec {T : Type} {q q' : Queue T} {x : T} (h : q.put x = some q') :
    q'.size = q.size ∧ q'.cap = q.cap ∧ q'.head = q.head ∧ q'.contents = q.contents ++ [x] := by
  unfold Queue.put at h
  split at h
  · simp only [Option.some.injEq] at h; subst h; simp [Queue.contents]
  · simp at h

theorem dequeue_spec {T : Type} {q : Queue T} {x : T} (h : q.head = some x) :
    q.dequeue.2 = some x ∧ q.dequeue.1.size = q.size - 1 ∧ q.dequeue.1.cap = q.cap ∧ q.contents = x :: q.dequeue.1.contents := by
  unfold Queue.dequeue
  simp only [h, Queue.take, Queue.backfill, Queue.contents]
  cases q.buf <;> simp

/-! ### Tokens, keys and queues -/

variable {K : Type} [DecidableEq K]

omit [DecidableEq K] in
theorem nodup_fst_inj {m : List (K × Nat)} (h : (m.map Prod.fst).Nodup) {k : K} {a b : Nat} (ha : (k, a) ∈ m) (hb : (k, b) ∈ m) : a = b := by
  induction m with
  | nil => simp at ha
  | cons p m ih =>
    simp only [List.map_cons, List.nodup_cons, List.mem_map, not_exists, not_and] at h
    simp only [List.mem_cons] at ha hb
    rcases ha with ha | ha <;> rcases hb with hb | hb
    · rw [← hb] at ha; simpa using ha
    · exact absurd (by rw [← ha]) (h.1 _ hb)
    · exact absurd (by rw [← hb]) (h.1 _ ha)
    · exact ih h.2 ha hb

theorem lookup_some {v : View K} {k : K} {w : Nat} (h : v.lookup k = some w) : (k, w) ∈ v.map := by
  unfold View.lookup at h
  simp only [Option.map_eq_some_iff] at h
  obtain ⟨p, hp, rfl⟩ := h
  have h1 := List.mem_of_find?_eq_some hp
  have h2 := List.find?_some hp
  simp only [decide_eq_true_eq] at h2
  subst h2; exact h1

theorem lookup_none {v : View K} {k : K} (h : v.lookup k = none) (w : Nat) : (k, w) ∉ v.map := by
  unfold View.lookup at h
  simp only [Option.map_eq_none_iff, List.find?_eq_none, decide_eq_true_eq] at h
  intro hm; exact h _ hm rfl

theorem lookup_of_mem {v : View K} {k : K} {w : Nat} (hn : (v.map.map Prod.fst).Nodup) (h : (k, w) ∈ v.map) : v.lookup k = some w := by
  cases hl : v.lookup k with
  | none => exact absurd h (lookup_none hl w)
  | some w' => rw [nodup_fst_inj hn (lookup_some hl) h]

/-- Where a worker object can be handed over: in one of the worker channels or in the hands of one goroutine. -/
inductive Place where
  | ch (r : Nat)
  | th (t : Nat)

/-- Worker `w` is at this place. -/
def View.tok (v : View K) (w : Nat) : Place → Prop
  | .ch r => w ∈ v.chans r
  | .th t => v.hold t = some w

/-- Worker objects, keys, tokens and queue contents fit together. -/
structure Inv (v : View K) : Prop where
  keysNodup : (v.map.map Prod.fst).Nodup
  mapKey : ∀ k w, (k, w) ∈ v.map → (v.wk w).key = some k
  mapLt : ∀ k w, (k, w) ∈ v.map → w < v.nw
  mapPool : ∀ k w, (k, w) ∈ v.map → w ∉ v.pool
  poolLt : ∀ w ∈ v.pool, w < v.nw
  poolNodup : v.pool.Nodup
  free : ∀ w, (∀ k, (k, w) ∉ v.map) → (v.wk w).queue.contents = [] ∧ (v.wk w).queue.size = 0
  capPos : ∀ w, 1 ≤ (v.wk w).queue.cap
  tokMap : ∀ w p, v.tok w p → ∃ k, (k, w) ∈ v.map
  tokUniq : ∀ w p q, v.tok w p → v.tok w q → p = q
  chanNodup : ∀ r, (v.chans r).Nodup
  blkMap : ∀ t w x, v.blk t = some (w, x) → (x.key, w) ∈ v.map
  itemKey : ∀ k w x, (k, w) ∈ v.map → x ∈ (v.wk w).queue.contents → x.key = k
  procHead : ∀ t w x, v.proc t = some (w, x) → (v.wk w).queue.head = some x
  procMap : ∀ t w x, v.proc t = some (w, x) → (x.key, w) ∈ v.map
  advMap : ∀ t w x, v.adv t = some (w, x) → (x.key, w) ∈ v.map
  pendCaller : ∀ t x, v.pend t = some x → x.caller = t
  cnt : ∃ P : Nat → List Nat, ∀ w, (P w).Nodup ∧ (∀ t, t ∈ P w ↔ ∃ x, v.blk t = some (w, x)) ∧
    (v.wk w).queue.size ≥ (v.wk w).queue.contents.length + (P w).length ∧
    (v.closed = false → (v.wk w).queue.size = (v.wk w).queue.contents.length + (P w).length)

theorem inv_init (c : Config) : Inv (init (K := K) c).view := by
  have hold : ∀ t, (init (K := K) c).view.hold t = none := by
    intro t; simp only [State.view, init]; split <;> rfl
  have blk : ∀ t, (init (K := K) c).view.blk t = none := by
    intro t; simp only [State.view, init]; split <;> rfl
  have proc : ∀ t, (init (K := K) c).view.proc t = none := by
    intro t; simp only [State.view, init]; split <;> rfl
  have adv : ∀ t, (init (K := K) c).view.adv t = none := by
    intro t; simp only [State.view, init]; split <;> rfl
  have pend : ∀ t, (init (K := K) c).view.pend t = none := by
    intro t; simp only [State.view, init]; split <;> rfl
  have tok : ∀ w p, ¬ (init (K := K) c).view.tok w p := by
    intro w p; cases p with
    | ch r => simp [View.tok, State.view, init]
    | th t => simp [View.tok, hold]
  constructor
  case cnt =>
    refine ⟨fun _ => [], fun w => ⟨by simp, by simp [blk], ?_, ?_⟩⟩ <;> simp [State.view, init, newQueue, Queue.contents]
  case tokMap => intro w p h; exact absurd h (tok w p)
  case tokUniq => intro w p q h; exact absurd h (tok w p)
  case blkMap => intro t w x h; simp [blk] at h
  case procHead => intro t w x h; simp [proc] at h
  case procMap => intro t w x h; simp [proc] at h
  case advMap => intro t w x h; simp [adv] at h
  case pendCaller => intro t x h; simp [pend] at h
  all_goals simp [State.view, init, newQueue, Queue.contents]

/-- Two places of the same worker are the same place; used to rule out a second holder. -/
theorem Inv.hold_inj {v : View K} (I : Inv v) {t t' w : Nat} (h : v.hold t = some w) (h' : v.hold t' = some w) : t = t' := by
  have := I.tokUniq w (.th t) (.th t') h h'
  injection this

theorem Inv.worker_key {v : View K} (I : Inv v) {k k' : K} {w : Nat} (h : (k, w) ∈ v.map) (h' : (k', w) ∈ v.map) : k = k' := by
  have := I.mapKey _ _ h
  rw [I.mapKey _ _ h'] at this
  simpa using this.symm

/-- A queue change that keeps the head while some goroutine processes it, for a worker that owns a key. -/
theorem inv_setQ {v : View K} (I : Inv v) {w : Nat} {k : K} {q : Queue (Job K)} (hm : (k, w) ∈ v.map) (hcap : 1 ≤ q.cap)
    (hitem : ∀ x ∈ q.contents, x.key = k) (hproc : ∀ t x, v.proc t = some (w, x) → q.head = some x)
    {pend' : Nat → Option (Job K)} {blk' : Nat → Option (Nat × Job K)}
    (hp : ∀ t x, pend' t = some x → x.caller = t) (hb : ∀ t w x, blk' t = some (w, x) → (x.key, w) ∈ v.map)
    (hc : ∃ P : Nat → List Nat, ∀ u, (P u).Nodup ∧ (∀ t, t ∈ P u ↔ ∃ x, blk' t = some (u, x)) ∧
      ((upd v.wk w { v.wk w with queue := q }) u).queue.size ≥ ((upd v.wk w { v.wk w with queue := q }) u).queue.contents.length + (P u).length ∧
      (v.closed = false → ((upd v.wk w { v.wk w with queue := q }) u).queue.size = ((upd v.wk w { v.wk w with queue := q }) u).queue.contents.length + (P u).length)) :
    Inv { (v.setQ w q) with pend := pend', blk := blk' } where
  keysNodup := I.keysNodup
  mapKey := by
    intro k' u h
    simp only [View.setQ, upd]; split
    · rename_i e; subst e; exact I.mapKey _ _ h
    · exact I.mapKey _ _ h
  mapLt := I.mapLt
  mapPool := I.mapPool
  poolLt := I.poolLt
  poolNodup := I.poolNodup
  free := by
    intro u h
    have : u ≠ w := by rintro rfl; exact h k hm
    simp only [View.setQ, upd_ne _ _ this]; exact I.free u h
  capPos := by
    intro u; simp only [View.setQ, upd]; split
    · exact hcap
    · exact I.capPos u
  tokMap := fun w p h => I.tokMap w p (by cases p <;> exact h)
  tokUniq := fun w p q h h' => I.tokUniq w p q (by cases p <;> exact h) (by cases q <;> exact h')
  chanNodup := I.chanNodup
  blkMap := hb
  itemKey := by
    intro k' u x h hx
    simp only [View.setQ, upd] at hx; split at hx
    · rename_i e; subst e; rw [hitem x hx]; exact I.worker_key hm h
    · exact I.itemKey _ _ _ h hx
  procHead := by
    intro t u x h
    simp only [View.setQ, upd]; split
    · rename_i e; subst e; exact hproc t x h
    · exact I.procHead _ _ _ h
  procMap := I.procMap
  advMap := I.advMap
  pendCaller := hp
  cnt := hc

omit [DecidableEq K] in
theorem upd_none_some {β : Type} {f : Nat → Option β} {t t' : Nat} {x : β} (h : upd f t none t' = some x) : t' ≠ t ∧ f t' = some x := by
  unfold upd at h; split at h
  · simp at h
  · rename_i e; exact ⟨e, h⟩

theorem inv_step {v v' : View K} (C : Coh v) (I : Inv v) (h : VStep v v') : Inv v' := by
  cases h with
  | call x h0 h1 h2 =>
    exact { I with
      pendCaller := by
        intro t y h
        simp only [upd] at h; split at h
        · rename_i e; simp only [Option.some.injEq] at h; rw [← h, e]
        · exact I.pendCaller _ _ h
      tokMap := fun w p h => I.tokMap w p (by cases p <;> exact h)
      tokUniq := fun w p q h h' => I.tokUniq w p q (by cases p <;> exact h) (by cases q <;> exact h') }
  | drop t x h0 h1 =>
    obtain ⟨P, hP⟩ := I.cnt
    exact { I with
      pendCaller := fun t' y h => I.pendCaller _ _ (upd_none_some h).2
      blkMap := fun t' w y h => I.blkMap _ _ _ (upd_none_some h).2
      cnt := by
        refine ⟨fun w => (P w).erase t, fun w => ⟨(hP w).1.erase t, ?_, ?_, ?_⟩⟩
        · intro t'
          rw [(hP w).1.mem_erase_iff, (hP w).2.1]
          constructor
          · rintro ⟨e, y, hy⟩; exact ⟨y, by simp only [upd, if_neg e]; exact hy⟩
          · rintro ⟨y, hy⟩; exact ⟨(upd_none_some hy).1, y, (upd_none_some hy).2⟩
        · have := List.length_erase_le (a := t) (l := P w)
          have := (hP w).2.2.1
          simp only; omega
        · intro h; simp [h0] at h
      tokMap := fun w p h => I.tokMap w p (by cases p <;> exact h)
      tokUniq := fun w p q h h' => I.tokUniq w p q (by cases p <;> exact h) (by cases q <;> exact h') }
  | addOld t x w q h1 h2 h3 h4 =>
    obtain ⟨q1, q2, q3, q4, q5⟩ := tryEnqueue_spec h4
    simp only [if_true] at q5
    have hm := lookup_some h3
    refine inv_setQ (blk' := v.blk) I hm (by rw [q2]; exact I.capPos w) ?_ (fun t x h => q3 _ (I.procHead _ _ _ h))
      (fun t' y h => I.pendCaller _ _ (upd_none_some h).2) I.blkMap ?_
    · intro y hy
      rw [q5] at hy
      simp only [List.mem_append, List.mem_singleton] at hy
      rcases hy with hy | rfl
      · exact I.itemKey _ _ _ hm hy
      · rfl
    · obtain ⟨P, hP⟩ := I.cnt
      refine ⟨P, fun u => ⟨(hP u).1, (hP u).2.1, ?_, ?_⟩⟩
      · by_cases e : u = w
        · subst e
          have := (hP u).2.2.1
          simp only [upd_self, q1, q5, List.length_append, List.length_singleton]
          omega
        · simp only [upd_ne _ _ e]; exact (hP u).2.2.1
      · intro hc
        by_cases e : u = w
        · subst e
          have := (hP u).2.2.2 hc
          simp only [upd_self, q1, q5, List.length_append, List.length_singleton]
          omega
        · simp only [upd_ne _ _ e]; exact (hP u).2.2.2 hc
  | blockOld t x w q h1 h2 h3 h4 =>
    obtain ⟨q1, q2, q3, q4, q5⟩ := tryEnqueue_spec h4
    simp only [Bool.false_eq_true, if_false] at q5
    have hm := lookup_some h3
    refine inv_setQ (pend' := v.pend) I hm (by rw [q2]; exact I.capPos w) ?_ (fun t x h => q3 _ (I.procHead _ _ _ h))
      I.pendCaller ?_ ?_
    · intro y hy
      rw [q5] at hy
      exact I.itemKey _ _ _ hm hy
    · intro t' u y h
      simp only [upd] at h; split at h
      · simp only [Option.some.injEq, Prod.mk.injEq] at h
        obtain ⟨rfl, rfl⟩ := h; exact hm
      · exact I.blkMap _ _ _ h
    · obtain ⟨P, hP⟩ := I.cnt
      refine ⟨upd P w (t :: P w), fun u => ?_⟩
      by_cases e : u = w
      · subst e
        have ht : t ∉ P u := by
          rw [(hP u).2.1]; rintro ⟨y, hy⟩; rw [h2] at hy; simp at hy
        refine ⟨by simp [ht, (hP u).1], ?_, ?_, ?_⟩
        · intro t'
          simp only [upd_self, List.mem_cons, (hP u).2.1]
          by_cases e' : t' = t
          · subst e'; simp
          · simp [upd_ne _ _ e', e']
        · have := (hP u).2.2.1
          simp only [upd_self, q1, q5, List.length_cons]; omega
        · intro hc
          have := (hP u).2.2.2 hc
          simp only [upd_self, q1, q5, List.length_cons]; omega
      · rw [upd_ne _ _ e]
        refine ⟨(hP u).1, ?_, ?_, ?_⟩
        · intro t'
          rw [(hP u).2.1]
          by_cases e' : t' = t
          · subst e'; simp [h2, Ne.symm e]
          · simp [upd_ne _ _ e']
        · simp only [upd_ne _ _ e]; exact (hP u).2.2.1
        · simp only [upd_ne _ _ e]; exact (hP u).2.2.2
  | addNew t x w nw' pool' wk' h1 h2 h3 h4 h5 h6 h7 h8 h9 h10 h11 h12 =>
    have hwfree : ∀ k, (k, w) ∉ v.map := by
      intro k hk
      rcases h5 with h5 | h5
      · exact I.mapPool _ _ hk h5.1
      · have := I.mapLt _ _ hk; omega
    have hne : ∀ k u, (k, u) ∈ v.map → u ≠ w := by rintro k u hk rfl; exact hwfree k hk
    have hpsub : ∀ u ∈ pool', u ∈ v.pool ∧ u ≠ w := by
      intro u hu
      rcases h5 with ⟨a, rfl, _⟩ | ⟨a, rfl, _⟩
      · rw [I.poolNodup.mem_erase_iff] at hu; exact ⟨hu.2, hu.1⟩
      · refine ⟨hu, ?_⟩; have := I.poolLt u hu; omega
    have hnw : v.nw ≤ nw' ∧ w < nw' := by
      rcases h5 with ⟨a, _, rfl⟩ | ⟨a, _, rfl⟩
      · exact ⟨Nat.le_refl _, I.poolLt w a⟩
      · omega
    have hcont : (wk' w).queue.contents = [x] := by simp [Queue.contents, h8, h9]
    have hnotok : ∀ p, ¬ v.tok w p := by
      intro p hp; obtain ⟨k, hk⟩ := I.tokMap w p hp; exact hwfree k hk
    obtain ⟨P, hP⟩ := I.cnt
    have hPw : P w = [] := by
      rw [List.eq_nil_iff_forall_not_mem]; intro t' ht'
      obtain ⟨y, hy⟩ := ((hP w).2.1 t').1 ht'
      exact hwfree _ (I.blkMap _ _ _ hy)
    have tokcase : ∀ u p, View.tok { v with map := v.map ++ [(x.key, w)], wk := wk', pool := pool', nw := nw', hold := upd v.hold t (some w), pend := upd v.pend t none } u p →
        (u = w ∧ p = .th t) ∨ (u ≠ w ∧ v.tok u p) := by
      intro u p hp
      cases p with
      | ch r =>
        right; refine ⟨?_, hp⟩
        rintro rfl; exact hnotok (.ch r) hp
      | th t' =>
        simp only [View.tok, upd] at hp
        split at hp
        · rename_i e; simp only [Option.some.injEq] at hp; left; exact ⟨hp.symm, by rw [e]⟩
        · right; refine ⟨?_, hp⟩; rintro rfl; exact hnotok (.th t') hp
    constructor
    case keysNodup =>
      simp only [List.map_append, List.map_cons, List.map_nil]
      rw [List.nodup_append]
      refine ⟨I.keysNodup, by simp, ?_⟩
      intro a ha b hb
      simp only [List.mem_singleton] at hb; subst hb
      simp only [List.mem_map, Prod.exists, exists_and_right, exists_eq_right] at ha
      obtain ⟨u, hu⟩ := ha
      rintro rfl; exact lookup_none h3 u hu
    case mapKey =>
      intro k u hk
      simp only [List.mem_append, List.mem_singleton, Prod.mk.injEq] at hk
      rcases hk with hk | ⟨rfl, rfl⟩
      · simp only [h6 u (hne _ _ hk)]; exact I.mapKey _ _ hk
      · exact h7
    case mapLt =>
      intro k u hk
      simp only [List.mem_append, List.mem_singleton, Prod.mk.injEq] at hk
      rcases hk with hk | ⟨rfl, rfl⟩
      · have := I.mapLt _ _ hk; simp only; omega
      · exact hnw.2
    case mapPool =>
      intro k u hk hu
      simp only [List.mem_append, List.mem_singleton, Prod.mk.injEq] at hk
      rcases hk with hk | ⟨rfl, rfl⟩
      · exact I.mapPool _ _ hk (hpsub u hu).1
      · exact (hpsub u hu).2 rfl
    case poolLt =>
      intro u hu; have := I.poolLt u (hpsub u hu).1; simp only; omega
    case poolNodup =>
      rcases h5 with ⟨a, rfl, _⟩ | ⟨a, rfl, _⟩
      · exact I.poolNodup.erase w
      · exact I.poolNodup
    case free =>
      intro u hu
      have e : u ≠ w := by rintro rfl; exact hu x.key (by simp)
      simp only [h6 u e]
      exact I.free u (fun k hk => hu k (by simp [hk]))
    case capPos =>
      intro u; by_cases e : u = w
      · subst e; exact h12
      · simp only [h6 u e]; exact I.capPos u
    case tokMap =>
      intro u p hp
      rcases tokcase u p hp with ⟨rfl, rfl⟩ | ⟨_, hp⟩
      · exact ⟨x.key, by simp⟩
      · obtain ⟨k, hk⟩ := I.tokMap u p hp; exact ⟨k, by simp [hk]⟩
    case tokUniq =>
      intro u p q hp hq
      rcases tokcase u p hp with ⟨e, rfl⟩ | ⟨e, hp⟩ <;> rcases tokcase u q hq with ⟨e', rfl⟩ | ⟨e', hq⟩
      · rfl
      · exact absurd e e'
      · exact absurd e' e
      · exact I.tokUniq u p q hp hq
    case chanNodup => exact I.chanNodup
    case blkMap =>
      intro t' u y hy; have := I.blkMap _ _ _ hy; simp [this]
    case itemKey =>
      intro k u y hk hy
      simp only [List.mem_append, List.mem_singleton, Prod.mk.injEq] at hk
      rcases hk with hk | ⟨rfl, rfl⟩
      · simp only [h6 u (hne _ _ hk)] at hy; exact I.itemKey _ _ _ hk hy
      · simp only [hcont, List.mem_singleton] at hy; rw [hy]
    case procHead =>
      intro t' u y hy
      simp only [h6 u (hne _ _ (I.procMap _ _ _ hy))]; exact I.procHead _ _ _ hy
    case procMap => intro t' u y hy; have := I.procMap _ _ _ hy; simp [this]
    case advMap => intro t' u y hy; have := I.advMap _ _ _ hy; simp [this]
    case pendCaller => intro t' y h; exact I.pendCaller _ _ (upd_none_some h).2
    case cnt =>
      refine ⟨P, fun u => ⟨(hP u).1, (hP u).2.1, ?_, ?_⟩⟩
      · by_cases e : u = w
        · subst e; simp [h10, hcont, hPw]
        · simp only [h6 u e]; exact (hP u).2.2.1
      · by_cases e : u = w
        · subst e; simp [h10, hcont, hPw]
        · simp only [h6 u e]; exact (hP u).2.2.2
  | put t x w q h1 h2 h4 =>
    obtain ⟨q1, q2, q3, q5⟩ := put_spec h4
    have hm := I.blkMap _ _ _ h2
    refine inv_setQ I hm (by rw [q2]; exact I.capPos w) ?_ (fun t x h => by rw [q3]; exact (I.procHead _ _ _ h))
      (fun t' y h => I.pendCaller _ _ (upd_none_some h).2) (fun t' u y h => I.blkMap _ _ _ (upd_none_some h).2) ?_
    · intro y hy
      rw [q5] at hy
      simp only [List.mem_append, List.mem_singleton] at hy
      rcases hy with hy | rfl
      · exact I.itemKey _ _ _ hm hy
      · rfl
    · obtain ⟨P, hP⟩ := I.cnt
      refine ⟨fun u => (P u).erase t, fun u => ⟨(hP u).1.erase t, ?_, ?_, ?_⟩⟩
      · intro t'
        rw [(hP u).1.mem_erase_iff, (hP u).2.1]
        constructor
        · rintro ⟨e, y, hy⟩; exact ⟨y, by simp only [upd, if_neg e]; exact hy⟩
        · rintro ⟨y, hy⟩; exact ⟨(upd_none_some hy).1, y, (upd_none_some hy).2⟩
      · by_cases e : u = w
        · subst e
          have hin : t ∈ P u := ((hP u).2.1 t).2 ⟨x, h2⟩
          have hl := List.length_erase_of_mem hin
          have hpos := List.length_pos_of_mem hin
          have := (hP u).2.2.1
          simp only [upd_self, q1, q5, List.length_append, List.length_singleton]; omega
        · have := List.length_erase_le (a := t) (l := P u)
          have := (hP u).2.2.1
          simp only [upd_ne _ _ e]; omega
      · intro hc
        by_cases e : u = w
        · subst e
          have hin : t ∈ P u := ((hP u).2.1 t).2 ⟨x, h2⟩
          have hl := List.length_erase_of_mem hin
          have hpos := List.length_pos_of_mem hin
          have := (hP u).2.2.2 hc
          simp only [upd_self, q1, q5, List.length_append, List.length_singleton]; omega
        · have hnin : t ∉ P u := by
            rw [(hP u).2.1]; rintro ⟨y, hy⟩; rw [h2] at hy; simp at hy; exact e hy.1.symm
          simp only [upd_ne _ _ e, List.erase_of_not_mem hnin]; exact (hP u).2.2.2 hc
  | send t w h1 h2 h3 h4 h5 =>
    have tokcase : ∀ u p, View.tok { v with hold := upd v.hold t none, chans := upd v.chans v.cur (v.chans v.cur ++ [w]) } u p →
        (u = w ∧ p = .ch v.cur) ∨ (u ≠ w ∧ v.tok u p) := by
      intro u p hp
      cases p with
      | ch r =>
        simp only [View.tok, upd] at hp
        split at hp
        · rename_i e; subst e
          simp only [List.mem_append, List.mem_singleton] at hp
          rcases hp with hp | hp
          · right; refine ⟨?_, hp⟩; rintro rfl
            have := I.tokUniq u (.ch v.cur) (.th t) hp h1; simp at this
          · left; exact ⟨hp, rfl⟩
        · right; refine ⟨?_, hp⟩; rintro rfl
          have := I.tokUniq u (.ch r) (.th t) hp h1; simp at this
      | th t' =>
        obtain ⟨e, hp'⟩ := upd_none_some hp
        right; refine ⟨?_, hp'⟩; rintro rfl; exact e (I.hold_inj hp' h1)
    exact { I with
      tokMap := by
        intro u p hp
        rcases tokcase u p hp with ⟨rfl, rfl⟩ | ⟨_, hp⟩
        · exact I.tokMap u (.th t) h1
        · exact I.tokMap u p hp
      tokUniq := by
        intro u p q hp hq
        rcases tokcase u p hp with ⟨e, rfl⟩ | ⟨e, hp⟩ <;> rcases tokcase u q hq with ⟨e', rfl⟩ | ⟨e', hq⟩
        · rfl
        · exact absurd e e'
        · exact absurd e' e
        · exact I.tokUniq u p q hp hq
      chanNodup := by
        intro r; simp only [upd]; split
        · rename_i e; subst e
          rw [List.nodup_append]
          refine ⟨I.chanNodup _, by simp, ?_⟩
          intro a ha b hb; simp only [List.mem_singleton] at hb; subst hb; rintro rfl
          have := I.tokUniq a (.ch v.cur) (.th t) ha h1; simp at this
        · exact I.chanNodup r }
  | recv t r w rest h1 h2 =>
    have hw : v.tok w (.ch r) := by simp [View.tok, h2]
    have hnd : w ∉ rest := by have := I.chanNodup r; rw [h2] at this; exact (List.nodup_cons.1 this).1
    have tokcase : ∀ u p, View.tok { v with hold := upd v.hold t (some w), chans := upd v.chans r rest } u p →
        (u = w ∧ p = .th t) ∨ (u ≠ w ∧ v.tok u p) := by
      intro u p hp
      cases p with
      | ch r' =>
        simp only [View.tok, upd] at hp
        split at hp
        · rename_i e; subst e
          right; refine ⟨fun e => hnd (e ▸ hp), ?_⟩; simp [View.tok, h2, hp]
        · rename_i e; right; refine ⟨?_, hp⟩; rintro rfl
          have := I.tokUniq u (.ch r') (.ch r) hp hw; simp at this; exact e this
      | th t' =>
        simp only [View.tok, upd] at hp
        split at hp
        · rename_i e; simp only [Option.some.injEq] at hp; left; exact ⟨hp.symm, by rw [e]⟩
        · right; refine ⟨?_, hp⟩; rintro rfl
          have := I.tokUniq u (.th t') (.ch r) hp hw; simp at this
    exact { I with
      tokMap := by
        intro u p hp
        rcases tokcase u p hp with ⟨rfl, rfl⟩ | ⟨_, hp⟩
        · exact I.tokMap u (.ch r) hw
        · exact I.tokMap u p hp
      tokUniq := by
        intro u p q hp hq
        rcases tokcase u p hp with ⟨e, rfl⟩ | ⟨e, hp⟩ <;> rcases tokcase u q hq with ⟨e', rfl⟩ | ⟨e', hq⟩
        · rfl
        · exact absurd e e'
        · exact absurd e' e
        · exact I.tokUniq u p q hp hq
      chanNodup := by
        intro r'; simp only [upd]; split
        · have := I.chanNodup r; rw [h2] at this; exact (List.nodup_cons.1 this).2
        · exact I.chanNodup r' }
  | start t w x h0 h1 h2 h3 h4 =>
    have hx : (x.key, w) ∈ v.map := by
      obtain ⟨k, hk⟩ := I.tokMap w (.th t) h1
      have := I.itemKey k w x hk (by simp [Queue.contents, h4])
      rw [this]; exact hk
    exact { I with
      tokMap := fun w p h => I.tokMap w p (by cases p <;> exact h)
      tokUniq := fun w p q h h' => I.tokUniq w p q (by cases p <;> exact h) (by cases q <;> exact h')
      procHead := by
        intro t' u y h
        simp only [upd] at h; split at h
        · simp only [Option.some.injEq, Prod.mk.injEq] at h; obtain ⟨rfl, rfl⟩ := h; exact h4
        · exact I.procHead _ _ _ h
      procMap := by
        intro t' u y h
        simp only [upd] at h; split at h
        · simp only [Option.some.injEq, Prod.mk.injEq] at h; obtain ⟨rfl, rfl⟩ := h; exact hx
        · exact I.procMap _ _ _ h }
  | finish t w x h1 h2 =>
    have hh := I.procHead _ _ _ h1
    have hm := I.procMap _ _ _ h1
    obtain ⟨q0, q1, q2, q3⟩ := dequeue_spec hh
    have hother : ∀ t' y, v.proc t' = some (w, y) → t' = t := fun t' y h => I.hold_inj (C.proc_hold _ _ _ h) (C.proc_hold _ _ _ h1)
    obtain ⟨P, hP⟩ := I.cnt
    constructor
    case keysNodup => exact I.keysNodup
    case mapKey =>
      intro k' u h
      simp only [View.setQ, upd]; split
      · rename_i e; subst e; exact I.mapKey _ _ h
      · exact I.mapKey _ _ h
    case mapLt => exact I.mapLt
    case mapPool => exact I.mapPool
    case poolLt => exact I.poolLt
    case poolNodup => exact I.poolNodup
    case free =>
      intro u h
      have : u ≠ w := by rintro rfl; exact h _ hm
      simp only [View.setQ, upd_ne _ _ this]; exact I.free u h
    case capPos =>
      intro u; simp only [View.setQ, upd]; split
      · simp only [q2]; exact I.capPos w
      · exact I.capPos u
    case tokMap => exact fun w p h => I.tokMap w p (by cases p <;> exact h)
    case tokUniq => exact fun w p q h h' => I.tokUniq w p q (by cases p <;> exact h) (by cases q <;> exact h')
    case chanNodup => exact I.chanNodup
    case blkMap => exact I.blkMap
    case itemKey =>
      intro k' u y h hy
      simp only [View.setQ, upd] at hy; split at hy
      · rename_i e; subst e; exact I.itemKey _ _ _ h (by rw [q3]; simp only at hy; simp [hy])
      · exact I.itemKey _ _ _ h hy
    case procHead =>
      intro t' u y h
      obtain ⟨e, h'⟩ := upd_none_some h
      have : u ≠ w := by rintro rfl; exact e (hother t' y h')
      simp only [View.setQ, upd_ne _ _ this]; exact I.procHead _ _ _ h'
    case procMap => exact fun t' u y h => I.procMap _ _ _ (upd_none_some h).2
    case advMap =>
      intro t' u y h
      simp only [upd] at h; split at h
      · simp only [Option.some.injEq, Prod.mk.injEq] at h; obtain ⟨rfl, rfl⟩ := h; exact hm
      · exact I.advMap _ _ _ h
    case pendCaller => exact I.pendCaller
    case cnt =>
      refine ⟨P, fun u => ⟨(hP u).1, (hP u).2.1, ?_, ?_⟩⟩
      · by_cases e : u = w
        · subst e
          have := (hP u).2.2.1
          rw [q3] at this
          simp only [List.length_cons] at this
          simp only [View.setQ, upd_self, q1]; omega
        · simp only [View.setQ, upd_ne _ _ e]; exact (hP u).2.2.1
      · intro hc
        by_cases e : u = w
        · subst e
          have := (hP u).2.2.2 hc
          rw [q3] at this
          simp only [List.length_cons] at this
          simp only [View.setQ, upd_self, q1]; omega
        · simp only [View.setQ, upd_ne _ _ e]; exact (hP u).2.2.2 hc
  | complete t w x h1 h2 =>
    exact { I with
      tokMap := fun w p h => I.tokMap w p (by cases p <;> exact h)
      tokUniq := fun w p q h h' => I.tokUniq w p q (by cases p <;> exact h) (by cases q <;> exact h')
      advMap := fun t' u y h => I.advMap _ _ _ (upd_none_some h).2 }
  | release t w h1 h2 h3 h4 =>
    obtain ⟨k, hk⟩ := I.tokMap w (.th t) h1
    have hkey := I.mapKey _ _ hk
    obtain ⟨P, hP⟩ := I.cnt
    have hw := (hP w).2.2.1
    have hcont : (v.wk w).queue.contents = [] := by
      rw [← List.length_eq_zero_iff]; omega
    have hPw : P w = [] := by rw [← List.length_eq_zero_iff]; omega
    have hsz : (v.wk w).queue.size = 0 := by omega
    have hmem : ∀ k' u, (k', u) ∈ v.map.filter (fun p => decide (some p.1 ≠ (v.wk w).key)) ↔ (k', u) ∈ v.map ∧ u ≠ w := by
      intro k' u
      simp only [List.mem_filter, decide_eq_true_eq, hkey, ne_eq, Option.some.injEq]
      constructor
      · rintro ⟨a, b⟩; refine ⟨a, ?_⟩; rintro rfl; exact b (I.worker_key a hk)
      · rintro ⟨a, b⟩; refine ⟨a, ?_⟩; rintro rfl; exact b (nodup_fst_inj I.keysNodup a hk)
    have tokcase : ∀ u p, View.tok { v with
        hold := upd v.hold t none
        map := v.map.filter (fun p => decide (some p.1 ≠ (v.wk w).key))
        wk := upd v.wk w { v.wk w with key := none }
        pool := w :: v.pool } u p → u ≠ w ∧ v.tok u p := by
      intro u p hp
      cases p with
      | ch r =>
        refine ⟨?_, hp⟩; rintro rfl
        have := I.tokUniq u (.ch r) (.th t) hp h1; simp at this
      | th t' =>
        obtain ⟨e, hp'⟩ := upd_none_some hp
        refine ⟨?_, hp'⟩; rintro rfl; exact e (I.hold_inj hp' h1)
    have hproc : ∀ t' u x, v.proc t' = some (u, x) → u ≠ w := by
      rintro t' u x h rfl
      have := I.hold_inj (C.proc_hold _ _ _ h) h1; subst this; rw [h2] at h; simp at h
    have hadv : ∀ t' u x, v.adv t' = some (u, x) → u ≠ w := by
      rintro t' u x h rfl
      have := I.hold_inj (C.adv_hold _ _ _ h) h1; subst this; rw [h3] at h; simp at h
    constructor
    case keysNodup => exact I.keysNodup.sublist (List.Sublist.map _ List.filter_sublist)
    case mapKey =>
      intro k' u h
      obtain ⟨a, b⟩ := (hmem k' u).1 h
      simp only [upd_ne _ _ b]; exact I.mapKey _ _ a
    case mapLt => intro k' u h; exact I.mapLt _ _ ((hmem k' u).1 h).1
    case mapPool =>
      intro k' u h hu
      obtain ⟨a, b⟩ := (hmem k' u).1 h
      simp only [List.mem_cons] at hu
      rcases hu with hu | hu
      · exact b hu
      · exact I.mapPool _ _ a hu
    case poolLt =>
      intro u hu
      simp only [List.mem_cons] at hu
      rcases hu with rfl | hu
      · exact I.mapLt _ _ hk
      · exact I.poolLt u hu
    case poolNodup => exact List.nodup_cons.2 ⟨I.mapPool _ _ hk, I.poolNodup⟩
    case free =>
      intro u hu
      by_cases e : u = w
      · subst e; simp only [upd_self]; exact ⟨hcont, hsz⟩
      · simp only [upd_ne _ _ e]
        exact I.free u (fun k' hk' => hu k' ((hmem k' u).2 ⟨hk', e⟩))
    case capPos =>
      intro u; simp only [upd]; split
      · exact I.capPos w
      · exact I.capPos u
    case tokMap =>
      intro u p hp
      obtain ⟨a, b⟩ := tokcase u p hp
      obtain ⟨k', hk'⟩ := I.tokMap u p b
      exact ⟨k', (hmem k' u).2 ⟨hk', a⟩⟩
    case tokUniq =>
      intro u p q hp hq
      exact I.tokUniq u p q (tokcase u p hp).2 (tokcase u q hq).2
    case chanNodup => exact I.chanNodup
    case blkMap =>
      intro t' u x h
      refine (hmem _ _).2 ⟨I.blkMap _ _ _ h, ?_⟩
      rintro rfl
      have : t' ∈ P u := ((hP u).2.1 t').2 ⟨x, h⟩
      rw [hPw] at this; simp at this
    case itemKey =>
      intro k' u x h hx
      obtain ⟨a, b⟩ := (hmem k' u).1 h
      simp only [upd_ne _ _ b] at hx; exact I.itemKey _ _ _ a hx
    case procHead =>
      intro t' u x h
      simp only [upd_ne _ _ (hproc _ _ _ h)]; exact I.procHead _ _ _ h
    case procMap => intro t' u x h; exact (hmem _ _).2 ⟨I.procMap _ _ _ h, hproc _ _ _ h⟩
    case advMap => intro t' u x h; exact (hmem _ _).2 ⟨I.advMap _ _ _ h, hadv _ _ _ h⟩
    case pendCaller => exact I.pendCaller
    case cnt =>
      refine ⟨P, fun u => ⟨(hP u).1, (hP u).2.1, ?_, ?_⟩⟩
      · by_cases e : u = w
        · subst e; simp only [upd_self]; exact (hP u).2.2.1
        · simp only [upd_ne _ _ e]; exact (hP u).2.2.1
      · by_cases e : u = w
        · subst e; simp only [upd_self]; exact (hP u).2.2.2
        · simp only [upd_ne _ _ e]; exact (hP u).2.2.2
  | setMax n h1 =>
    exact { I with
      tokMap := fun w p h => I.tokMap w p (by cases p <;> exact h)
      tokUniq := fun w p q h h' => I.tokUniq w p q (by cases p <;> exact h) (by cases q <;> exact h') }
  | grow t n h1 h2 h3 =>
    have tokcase : ∀ u p, View.tok { v with
        maxKeys := n, rw := true, xf := upd v.xf t (some (n, 0)),
        chans := upd v.chans (v.cur + 1) [], caps := upd v.caps (v.cur + 1) (n + 1) } u p → v.tok u p := by
      intro u p hp
      cases p with
      | ch r =>
        simp only [View.tok, upd] at hp ⊢
        split at hp
        · simp at hp
        · exact hp
      | th t' => exact hp
    exact { I with
      tokMap := fun w p h => I.tokMap w p (tokcase w p h)
      tokUniq := fun w p q h h' => I.tokUniq w p q (tokcase w p h) (tokcase w q h')
      chanNodup := by
        intro r; simp only [upd]; split
        · simp
        · exact I.chanNodup r }
  | xfer t n i w rest h1 h2 h3 =>
    have hw : v.tok w (.ch v.cur) := by simp [View.tok, h3]
    have hnd : w ∉ rest := by have := I.chanNodup v.cur; rw [h3] at this; exact (List.nodup_cons.1 this).1
    have tokcase : ∀ u p, View.tok { v with
        xf := upd v.xf t (some (n, i + 1))
        chans := upd (upd v.chans v.cur rest) (v.cur + 1) (v.chans (v.cur + 1) ++ [w]) } u p →
        (u = w ∧ p = .ch (v.cur + 1)) ∨ (u ≠ w ∧ v.tok u p) := by
      intro u p hp
      cases p with
      | ch r =>
        simp only [View.tok, upd] at hp
        split at hp
        · rename_i e; subst e
          simp only [List.mem_append, List.mem_singleton] at hp
          rcases hp with hp | hp
          · right; refine ⟨?_, hp⟩; rintro rfl
            have := I.tokUniq u (.ch (v.cur + 1)) (.ch v.cur) hp hw; simp at this
          · left; exact ⟨hp, rfl⟩
        · split at hp
          · rename_i e; subst e
            right; refine ⟨fun e => hnd (e ▸ hp), ?_⟩; simp [View.tok, h3, hp]
          · rename_i e; right; refine ⟨?_, hp⟩; rintro rfl
            have := I.tokUniq u (.ch r) (.ch v.cur) hp hw; simp at this; exact e this
      | th t' =>
        right; refine ⟨?_, hp⟩; rintro rfl
        have := I.tokUniq u (.th t') (.ch v.cur) hp hw; simp at this
    exact { I with
      tokMap := by
        intro u p hp
        rcases tokcase u p hp with ⟨rfl, rfl⟩ | ⟨_, hp⟩
        · exact I.tokMap u _ hw
        · exact I.tokMap u p hp
      tokUniq := by
        intro u p q hp hq
        rcases tokcase u p hp with ⟨e, rfl⟩ | ⟨e, hp⟩ <;> rcases tokcase u q hq with ⟨e', rfl⟩ | ⟨e', hq⟩
        · rfl
        · exact absurd e e'
        · exact absurd e' e
        · exact I.tokUniq u p q hp hq
      chanNodup := by
        intro r; simp only [upd]; split
        · rename_i e; subst e
          rw [List.nodup_append]
          refine ⟨I.chanNodup _, by simp, ?_⟩
          intro a ha b hb; simp only [List.mem_singleton] at hb; subst hb; rintro rfl
          have := I.tokUniq a (.ch (v.cur + 1)) (.ch v.cur) ha hw; simp at this
        · split
          · have := I.chanNodup v.cur; rw [h3] at this; exact (List.nodup_cons.1 this).2
          · exact I.chanNodup r }
  | publish t n i h1 h2 =>
    exact { I with
      tokMap := fun w p h => I.tokMap w p (by cases p <;> exact h)
      tokUniq := fun w p q h h' => I.tokUniq w p q (by cases p <;> exact h) (by cases q <;> exact h') }
  | close =>
    obtain ⟨P, hP⟩ := I.cnt
    exact { I with
      tokMap := fun w p h => I.tokMap w p (by cases p <;> exact h)
      tokUniq := fun w p q h h' => I.tokUniq w p q (by cases p <;> exact h) (by cases q <;> exact h')
      cnt := ⟨P, fun w => ⟨(hP w).1, (hP w).2.1, (hP w).2.2.1, by simp⟩⟩ }

end Verif.Scheduler

import Verif.Scheduler.Proofs
/-
The history of the scheduler: jobs of a key start one after the other, and the jobs one goroutine schedules start in that order.
-/
namespace Verif.Scheduler

set_option linter.unusedSectionVars false

variable {K : Type} [DecidableEq K]

/-- The start and completion events of key `k` in a log. -/
def busyLog (k : K) (log : List (Ev K)) : List (Ev K) :=
  log.filter (fun e => match e with
    | .start x => decide (x.key = k)
    | .comp x => decide (x.key = k)
    | .sched _ => false)

/-- The log of a key whose jobs run strictly one after the other. -/
def pairs (xs : List (Job K)) : List (Ev K) := xs.flatMap (fun x => [.start x, .comp x])

/-- The jobs accepted by `Schedule`, in order. -/
def scheds (log : List (Ev K)) : List (Job K) := log.filterMap (fun e => match e with | .sched x => some x | _ => none)

/-- The jobs whose processor call started, in order. -/
def starts (log : List (Ev K)) : List (Job K) := log.filterMap (fun e => match e with | .start x => some x | _ => none)

/-- The jobs of goroutine `c` with key `k`. -/
def sub (c : Nat) (k : K) (l : List (Job K)) : List (Job K) := l.filter (fun x => decide (x.caller = c ∧ x.key = k))

theorem sub_append (c : Nat) (k : K) (a b : List (Job K)) : sub c k (a ++ b) = sub c k a ++ sub c k b := by simp [sub]

/-- The jobs stored for key `k`. -/
def View.kq (v : View K) (k : K) : List (Job K) := match v.lookup k with
  | some w => (v.wk w).queue.contents
  | none => []

/-- What the log of key `k` looks like, when `a` are the jobs taken out of its queue. -/
def Shape (log : List (Ev K)) (proc adv : Nat → Option (Nat × Job K)) (k : K) (a : List (Job K)) : Prop :=
  (busyLog k log = pairs a ∧ ∀ t w x, (proc t = some (w, x) ∨ adv t = some (w, x)) → x.key ≠ k) ∨
  (∃ t w x, proc t = some (w, x) ∧ x.key = k ∧ busyLog k log = pairs a ++ [.start x]) ∨
  (∃ t w x xs, adv t = some (w, x) ∧ x.key = k ∧ a = xs ++ [x] ∧ busyLog k log = pairs xs ++ [.start x])

/-- Every job accepted from goroutine `c` for key `k` was taken out of the queue, is in the queue, is about to be stored, or was given up after closing. -/
def Ord (closed : Bool) (log : List (Ev K)) (a q : List (Job K)) (p : Option (Job K)) (c : Nat) (k : K) : Prop :=
  ∃ d, sub c k (scheds log) = sub c k a ++ sub c k q ++ sub c k p.toList ++ d ∧ (d ≠ [] → closed = true ∧ p = none)

/-- The history invariant. -/
def Hist (v : View K) : Prop :=
  ∃ A : K → List (Job K), (∀ k, Shape v.log v.proc v.adv k (A k)) ∧ (∀ c k, Ord v.closed v.log (A k) (v.kq k) (v.pend c) c k)

theorem kq_mem {v : View K} (hn : (v.map.map Prod.fst).Nodup) {k : K} {w : Nat} (h : (k, w) ∈ v.map) : v.kq k = (v.wk w).queue.contents := by
  unfold View.kq; rw [lookup_of_mem hn h]

theorem kq_none {v : View K} {k : K} (h : ∀ w, (k, w) ∉ v.map) : v.kq k = [] := by
  unfold View.kq
  cases hl : v.lookup k with
  | none => rfl
  | some w => exact absurd (lookup_some hl) (h w)

theorem kq_eq {v v' : View K} (hm : v'.map = v.map) (hw : v'.wk = v.wk) (k : K) : v'.kq k = v.kq k := by
  unfold View.kq View.lookup; rw [hm, hw]

theorem hist_init (c : Config) : Hist (init (K := K) c).view := by
  refine ⟨fun _ => [], fun k => Or.inl ⟨by simp [State.view, init, busyLog, pairs], ?_⟩, fun c' k => ⟨[], ?_, by simp⟩⟩
  · intro t w x h
    simp only [State.view, init] at h
    split at h <;> simp [Phase.proc, Phase.adv] at h
  · have : (init (K := K) c).view.pend c' = none := by simp only [State.view, init]; split <;> rfl
    rw [this]
    simp [State.view, init, scheds, sub, View.kq, View.lookup]

/-- A queue change of the worker of key `k0`. -/
theorem kq_setQ {v : View K} (I : Inv v) {k0 : K} {w : Nat} (hm : (k0, w) ∈ v.map) (q : Queue (Job K)) (k : K) :
    (v.setQ w q).kq k = if k = k0 then q.contents else v.kq k := by
  have hn' : ((v.setQ w q).map.map Prod.fst).Nodup := I.keysNodup
  have e1 : (v.setQ w q).map = v.map := rfl
  have e2 : (v.setQ w q).wk = upd v.wk w { v.wk w with queue := q } := rfl
  split
  · rename_i e; subst e
    rw [kq_mem hn' (w := w) (by rw [e1]; exact hm), e2]; simp
  · rename_i e
    by_cases hk : ∃ u, (k, u) ∈ v.map
    · obtain ⟨u, hu⟩ := hk
      have hne : u ≠ w := by rintro rfl; exact e (I.worker_key hu hm)
      rw [kq_mem hn' (w := u) (by rw [e1]; exact hu), kq_mem I.keysNodup hu, e2, upd_ne _ _ hne]
    · have hk' : ∀ u, (k, u) ∉ v.map := fun u hu => hk ⟨u, hu⟩
      rw [kq_none hk', kq_none (by rw [e1]; exact hk')]

theorem busyLog_append (k : K) (a b : List (Ev K)) : busyLog k (a ++ b) = busyLog k a ++ busyLog k b := by simp [busyLog]
theorem scheds_append (a b : List (Ev K)) : scheds (a ++ b) = scheds a ++ scheds b := by simp [scheds]
theorem starts_append (a b : List (Ev K)) : starts (a ++ b) = starts a ++ starts b := by simp [starts]

theorem pairs_append (a b : List (Job K)) : pairs (a ++ b) = pairs a ++ pairs b := by simp [pairs]

theorem ord_congr {b : Bool} {log : List (Ev K)} {a q q' : List (Job K)} {p : Option (Job K)} {c : Nat} {k : K} (e : q' = q)
    (h : Ord b log a q p c k) : Ord b log a q' p c k := e ▸ h

/-- Storing a pending job keeps the order equation. -/
theorem ord_store {v : View K} {A : List (Job K)} {t : Nat} {x : Job K} {c : Nat} {k : K} {q : List (Job K)}
    (hx : v.pend t = some x) (hcaller : x.caller = t) (h : Ord v.closed v.log A q (v.pend c) c k) :
    Ord v.closed v.log A (if k = x.key then q ++ [x] else q) (upd v.pend t none c) c k := by
  obtain ⟨d, h1, h2⟩ := h
  by_cases ec : c = t
  · subst ec
    have hd : d = [] := by
      rcases d with _ | ⟨y, d⟩
      · rfl
      · have := (h2 (by simp)).2; rw [hx] at this; simp at this
    refine ⟨[], ?_, by simp⟩
    rw [h1, hx, hd, upd_self]
    split
    · rename_i e; subst e; simp [sub]
    · rename_i e
      have : sub c k (some x).toList = [] := by simp [sub, Ne.symm e]
      rw [this]; simp [sub]
  · refine ⟨d, ?_, ?_⟩
    · rw [h1, upd_ne _ _ ec]
      split
      · rename_i e
        have : sub c k [x] = [] := by simp [sub, hcaller, Ne.symm ec]
        rw [sub_append, this]; simp
      · rfl
    · rw [upd_ne _ _ ec]; exact h2

theorem hist_step {v v' : View K} (C : Coh v) (I : Inv v) (H : Hist v) (h : VStep v v') : Hist v' := by
  obtain ⟨A, HS, HO⟩ := H
  cases h with
  | call x h0 h1 h2 =>
    refine ⟨A, fun k => ?_, fun c k => ?_⟩
    · have : busyLog k (v.log ++ [Ev.sched x]) = busyLog k v.log := by simp [busyLog]
      have hs := HS k
      unfold Shape at hs ⊢
      simp only [this]; exact hs
    · obtain ⟨d, e1, e2⟩ := HO c k
      change Ord _ _ (A k) (v.kq k) _ c k
      have hd : d = [] := by
        rcases d with _ | ⟨y, d⟩
        · rfl
        · have := (e2 (by simp)).1; rw [h0] at this; simp at this
      subst hd
      refine ⟨[], ?_, by simp⟩
      simp only [scheds_append, sub_append, e1]
      by_cases ec : c = x.caller
      · subst ec
        rw [h1, upd_self]
        simp [sub, scheds]
      · rw [upd_ne _ _ ec]
        have : sub c k (scheds [Ev.sched x]) = [] := by simp [sub, scheds, Ne.symm ec]
        rw [this]; simp
  | drop t x h0 h1 =>
    refine ⟨A, HS, fun c k => ?_⟩
    obtain ⟨d, e1, e2⟩ := HO c k
    change Ord _ _ (A k) (v.kq k) _ c k
    by_cases ec : c = t
    · subst ec
      refine ⟨sub c k (v.pend c).toList ++ d, ?_, fun _ => ⟨h0, by simp⟩⟩
      simp only [e1, upd_self]; simp [sub]
    · refine ⟨d, ?_, ?_⟩
      · simp only [upd_ne _ _ ec]; exact e1
      · simp only [upd_ne _ _ ec]; exact e2
  | addOld t x w q h1 h2 h3 h4 =>
    obtain ⟨q1, q2, q3, q4, q5⟩ := tryEnqueue_spec h4
    simp only [if_true] at q5
    have hm := lookup_some h3
    refine ⟨A, HS, fun c k => ?_⟩
    change Ord _ _ (A k) ((v.setQ w q).kq k) _ c k
    rw [kq_setQ I hm q]
    have := ord_store h1 (I.pendCaller _ _ h1) (HO c k)
    refine ord_congr ?_ this
    split
    · rename_i e; subst e; rw [kq_mem I.keysNodup hm, q5]
    · rfl
  | blockOld t x w q h1 h2 h3 h4 =>
    obtain ⟨q1, q2, q3, q4, q5⟩ := tryEnqueue_spec h4
    simp only [Bool.false_eq_true, if_false] at q5
    have hm := lookup_some h3
    refine ⟨A, HS, fun c k => ?_⟩
    change Ord _ _ (A k) ((v.setQ w q).kq k) _ c k
    rw [kq_setQ I hm q]
    have := HO c k
    refine ord_congr ?_ this
    split
    · rename_i e; subst e; rw [kq_mem I.keysNodup hm, q5]
    · rfl
  | addNew t x w nw' pool' wk' h1 h2 h3 h4 h5 h6 h7 h8 h9 h10 h11 h12 =>
    have I' := inv_step C I (VStep.addNew t x w nw' pool' wk' h1 h2 h3 h4 h5 h6 h7 h8 h9 h10 h11 h12)
    have hwfree : ∀ k, (k, w) ∉ v.map := by
      intro k hk
      rcases h5 with h5 | h5
      · exact I.mapPool _ _ hk h5.1
      · have := I.mapLt _ _ hk; omega
    refine ⟨A, HS, fun c k => ?_⟩
    have := ord_store h1 (I.pendCaller _ _ h1) (HO c k)
    refine ord_congr ?_ this
    split
    · rename_i e; subst e
      rw [kq_mem I'.keysNodup (w := w) (by simp), kq_none (lookup_none h3)]
      simp [Queue.contents, h8, h9]
    · rename_i e
      by_cases hk : ∃ u, (k, u) ∈ v.map
      · obtain ⟨u, hu⟩ := hk
        have hne : u ≠ w := by rintro rfl; exact hwfree _ hu
        rw [kq_mem I'.keysNodup (w := u) (by simp [hu]), kq_mem I.keysNodup hu]
        simp only [h6 u hne]
      · have hk' : ∀ u, (k, u) ∉ v.map := fun u hu => hk ⟨u, hu⟩
        rw [kq_none hk', kq_none]
        intro u hu
        simp only [List.mem_append, List.mem_singleton, Prod.mk.injEq] at hu
        rcases hu with hu | hu
        · exact hk' u hu
        · exact e hu.1
  | put t x w q h1 h2 h4 =>
    obtain ⟨q1, q2, q3, q5⟩ := put_spec h4
    have hm := I.blkMap _ _ _ h2
    refine ⟨A, HS, fun c k => ?_⟩
    change Ord _ _ (A k) ((v.setQ w q).kq k) _ c k
    rw [kq_setQ I hm q]
    have := ord_store h1 (I.pendCaller _ _ h1) (HO c k)
    refine ord_congr ?_ this
    split
    · rename_i e; subst e; rw [kq_mem I.keysNodup hm, q5]
    · rfl
  | send t w h1 h2 h3 h4 h5 => exact ⟨A, HS, HO⟩
  | recv t r w rest h1 h2 => exact ⟨A, HS, HO⟩
  | start t w x h0 h1 h2 h3 h4 =>
    obtain ⟨k0, hk0⟩ := I.tokMap w (.th t) h1
    have hxk : x.key = k0 := I.itemKey k0 w x hk0 (by simp [Queue.contents, h4])
    refine ⟨A, fun k => ?_, fun c k => ?_⟩
    · by_cases e : x.key = k
      · have nobusy : ∀ t' w' y, (v.proc t' = some (w', y) ∨ v.adv t' = some (w', y)) → y.key ≠ k := by
          rintro t' w' y hy rfl
          have hm : (y.key, w') ∈ v.map := by
            rcases hy with hy | hy
            · exact I.procMap _ _ _ hy
            · exact I.advMap _ _ _ hy
          have hh : v.hold t' = some w' := by
            rcases hy with hy | hy
            · exact C.proc_hold _ _ _ hy
            · exact C.adv_hold _ _ _ hy
          have ew : w' = w := nodup_fst_inj I.keysNodup hm (by rw [← e, hxk]; exact hk0)
          subst ew
          have et := I.hold_inj hh h1
          subst et
          rw [h2, h3] at hy; simp at hy
        rcases HS k with ⟨b1, b2⟩ | ⟨t', w', y, b1, b2, b3⟩ | ⟨t', w', y, xs, b1, b2, b3, b4⟩
        · right; left
          refine ⟨t, w, x, by simp, e, ?_⟩
          simp only [busyLog_append, b1]; simp [busyLog, e]
        · exact absurd b2 (nobusy t' w' y (Or.inl b1))
        · exact absurd b2 (nobusy t' w' y (Or.inr b1))
      · have hb : busyLog k (v.log ++ [Ev.start x]) = busyLog k v.log := by simp [busyLog, e]
        rcases HS k with ⟨b1, b2⟩ | ⟨t', w', y, b1, b2, b3⟩ | ⟨t', w', y, xs, b1, b2, b3, b4⟩
        · left; refine ⟨by rw [hb, b1], ?_⟩
          intro t' w' y hy
          by_cases et : t' = t
          · subst et
            simp only [upd_self, Option.some.injEq, Prod.mk.injEq] at hy
            rcases hy with ⟨_, rfl⟩ | hy
            · exact e
            · exact b2 _ _ _ (Or.inr hy)
          · simp only [upd_ne _ _ et] at hy; exact b2 _ _ _ hy
        · right; left
          refine ⟨t', w', y, ?_, b2, by rw [hb, b3]⟩
          have et : t' ≠ t := by rintro rfl; rw [h2] at b1; simp at b1
          simp only [upd_ne _ _ et]; exact b1
        · right; right
          exact ⟨t', w', y, xs, b1, b2, b3, by rw [hb, b4]⟩
    · obtain ⟨d, e1, e2⟩ := HO c k
      refine ⟨d, ?_, e2⟩
      have : scheds (v.log ++ [Ev.start x]) = scheds v.log := by simp [scheds]
      simp only [this]; exact e1
  | finish t w x h1 h2 =>
    have hh := I.procHead _ _ _ h1
    have hm := I.procMap _ _ _ h1
    obtain ⟨q0, q1, q2, q3⟩ := dequeue_spec hh
    refine ⟨fun k => if k = x.key then A k ++ [x] else A k, fun k => ?_, fun c k => ?_⟩
    · by_cases e : k = x.key
      · subst e
        simp only [if_true]
        have hone : ∀ t' w' y, (v.proc t' = some (w', y) ∨ v.adv t' = some (w', y)) → y.key = x.key → t' = t := by
          intro t' w' y hy hk
          have hm' : (y.key, w') ∈ v.map := by
            rcases hy with hy | hy
            · exact I.procMap _ _ _ hy
            · exact I.advMap _ _ _ hy
          have hh' : v.hold t' = some w' := by
            rcases hy with hy | hy
            · exact C.proc_hold _ _ _ hy
            · exact C.adv_hold _ _ _ hy
          rw [hk] at hm'
          have := nodup_fst_inj I.keysNodup hm' hm
          subst this
          exact I.hold_inj hh' (C.proc_hold _ _ _ h1)
        rcases HS x.key with ⟨b1, b2⟩ | ⟨t', w', y, b1, b2, b3⟩ | ⟨t', w', y, xs, b1, b2, b3, b4⟩
        · exact absurd rfl (b2 _ _ _ (Or.inl h1))
        · have et := hone _ _ _ (Or.inl b1) b2
          subst et
          rw [h1] at b1
          simp only [Option.some.injEq, Prod.mk.injEq] at b1
          obtain ⟨rfl, rfl⟩ := b1
          right; right
          exact ⟨t', w, x, A x.key, by simp, rfl, rfl, b3⟩
        · have et := hone _ _ _ (Or.inr b1) b2
          subst et
          rw [h2] at b1; simp at b1
      · simp only [if_neg e]
        rcases HS k with ⟨b1, b2⟩ | ⟨t', w', y, b1, b2, b3⟩ | ⟨t', w', y, xs, b1, b2, b3, b4⟩
        · left; refine ⟨b1, ?_⟩
          intro t' w' y hy
          by_cases et : t' = t
          · subst et
            simp only [upd_self, Option.some.injEq, Prod.mk.injEq] at hy
            rcases hy with hy | ⟨_, rfl⟩
            · simp at hy
            · exact Ne.symm e
          · simp only [upd_ne _ _ et] at hy; exact b2 _ _ _ hy
        · right; left
          refine ⟨t', w', y, ?_, b2, b3⟩
          have et : t' ≠ t := by
            rintro rfl; rw [h1] at b1
            simp only [Option.some.injEq, Prod.mk.injEq] at b1
            obtain ⟨_, rfl⟩ := b1; exact e b2.symm
          simp only [upd_ne _ _ et]; exact b1
        · right; right
          refine ⟨t', w', y, xs, ?_, b2, b3, b4⟩
          have et : t' ≠ t := by rintro rfl; rw [h2] at b1; simp at b1
          simp only [upd_ne _ _ et]; exact b1
    · obtain ⟨d, e1, e2⟩ := HO c k
      refine ⟨d, ?_, e2⟩
      change _ = _ ++ sub c k ((v.setQ w (v.wk w).queue.dequeue.1).kq k) ++ sub c k (v.pend c).toList ++ d
      rw [kq_setQ I hm (v.wk w).queue.dequeue.1]
      change sub c k (scheds v.log) = _
      split
      · rename_i e
        rw [e] at e1
        rw [kq_mem I.keysNodup hm, q3] at e1
        rw [e, e1]
        simp [sub, List.filter_cons]
        split <;> simp
      · rename_i e
        simp only [if_neg e]; exact e1
  | complete t w x h1 h2 =>
    refine ⟨A, fun k => ?_, fun c k => ?_⟩
    · by_cases e : x.key = k
      · have hone : ∀ t' w' y, (v.proc t' = some (w', y) ∨ v.adv t' = some (w', y)) → y.key = k → t' = t := by
          intro t' w' y hy hk
          have hm' : (y.key, w') ∈ v.map := by
            rcases hy with hy | hy
            · exact I.procMap _ _ _ hy
            · exact I.advMap _ _ _ hy
          have hh' : v.hold t' = some w' := by
            rcases hy with hy | hy
            · exact C.proc_hold _ _ _ hy
            · exact C.adv_hold _ _ _ hy
          have hm := I.advMap _ _ _ h1
          rw [hk, ← e] at hm'
          have := nodup_fst_inj I.keysNodup hm' hm
          subst this
          exact I.hold_inj hh' (C.adv_hold _ _ _ h1)
        rcases HS k with ⟨b1, b2⟩ | ⟨t', w', y, b1, b2, b3⟩ | ⟨t', w', y, xs, b1, b2, b3, b4⟩
        · exact absurd e (b2 _ _ _ (Or.inr h1))
        · have et := hone _ _ _ (Or.inl b1) b2
          subst et
          rw [h2] at b1; simp at b1
        · have et := hone _ _ _ (Or.inr b1) b2
          subst et
          rw [h1] at b1
          simp only [Option.some.injEq, Prod.mk.injEq] at b1
          obtain ⟨rfl, rfl⟩ := b1
          left
          constructor
          · rw [busyLog_append, b4, b3, pairs_append]; simp [busyLog, pairs, e]
          · intro t2 w2 y2 hy2 hk2
            have e2 : t2 = t' := by
              by_contra hne
              simp only [upd_ne _ _ hne] at hy2
              exact hne (hone _ _ _ hy2 hk2)
            subst e2
            simp [h2] at hy2
      · have hb : busyLog k (v.log ++ [Ev.comp x]) = busyLog k v.log := by simp [busyLog, e]
        rcases HS k with ⟨b1, b2⟩ | ⟨t', w', y, b1, b2, b3⟩ | ⟨t', w', y, xs, b1, b2, b3, b4⟩
        · left; refine ⟨by rw [hb, b1], ?_⟩
          intro t' w' y hy
          rcases hy with hy | hy
          · exact b2 _ _ _ (Or.inl hy)
          · exact b2 _ _ _ (Or.inr (upd_none_some hy).2)
        · right; left
          exact ⟨t', w', y, b1, b2, by rw [hb, b3]⟩
        · right; right
          refine ⟨t', w', y, xs, ?_, b2, b3, by rw [hb, b4]⟩
          have et : t' ≠ t := by
            rintro rfl; rw [h1] at b1
            simp only [Option.some.injEq, Prod.mk.injEq] at b1
            obtain ⟨_, rfl⟩ := b1; exact e b2
          simp only [upd_ne _ _ et]; exact b1
    · obtain ⟨d, e1, e2⟩ := HO c k
      refine ⟨d, ?_, e2⟩
      have : scheds (v.log ++ [Ev.comp x]) = scheds v.log := by simp [scheds]
      simp only [this]; exact e1
  | release t w h1 h2 h3 h4 =>
    have I' := inv_step C I (VStep.release t w h1 h2 h3 h4)
    obtain ⟨k0, hk0⟩ := I.tokMap w (.th t) h1
    have hkey := I.mapKey _ _ hk0
    obtain ⟨P, hP⟩ := I.cnt
    have hw := (hP w).2.2.1
    have hcont : (v.wk w).queue.contents = [] := by
      rw [← List.length_eq_zero_iff]; omega
    refine ⟨A, HS, fun c k => ?_⟩
    have := HO c k
    refine ord_congr ?_ this
    by_cases hk : ∃ u, (k, u) ∈ v.map
    · obtain ⟨u, hu⟩ := hk
      rw [kq_mem I.keysNodup hu]
      by_cases e : u = w
      · subst e
        rw [hcont, kq_none]
        intro u' hu'
        simp only [List.mem_filter, decide_eq_true_eq, ne_eq] at hu'
        exact hu'.2 (by rw [I.mapKey _ _ hu])
      · have hne : k ≠ k0 := by rintro rfl; exact e (nodup_fst_inj I.keysNodup hu hk0)
        rw [kq_mem I'.keysNodup (w := u) (by simp [hu, hkey, hne])]
        simp only [upd_ne _ _ e]
    · have hk' : ∀ u, (k, u) ∉ v.map := fun u hu => hk ⟨u, hu⟩
      rw [kq_none hk', kq_none]
      intro u hu
      simp only [List.mem_filter] at hu
      exact hk' u hu.1
  | setMax n h1 => exact ⟨A, HS, HO⟩
  | grow t n h1 h2 h3 => exact ⟨A, HS, HO⟩
  | xfer t n i w rest h1 h2 h3 => exact ⟨A, HS, HO⟩
  | publish t n i h1 h2 => exact ⟨A, HS, HO⟩
  | close =>
    refine ⟨A, HS, fun c k => ?_⟩
    obtain ⟨d, e1, e2⟩ := HO c k
    change Ord _ _ (A k) (v.kq k) _ c k
    exact ⟨d, e1, fun hd => ⟨rfl, (e2 hd).2⟩⟩

end Verif.Scheduler

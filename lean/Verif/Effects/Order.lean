import Verif.Effects.Proofs
/-
The order of the changes in the change log against the order in which the store saw them: definitions and proofs for C80.

The store of a partition is changed at once, when the handler (or the finalizer of an asynchronous job) runs in the worker of the partition; the
record of the change goes to the producer of the transaction of the event and waits there until the transactions before are committed
(`streams/eos_producer.go:450-470,494-512`). So the log has the changes transaction by transaction.
-/
namespace Verif.Effects
open Verif.Eos Verif.Exact

/-! ### Specification -/

/-- The changes of a partition in the order in which they were made: `ctx.Store()` is changed and `RecordChange` called by the worker of the
partition (`streams/event_context.go:150-163,182-184`, `streams/partition_worker.go:233-253`). -/
def Inc.changes (i : Inc) (tp : Nat) : List (Ev × Nat) := i.prods.filter fun x => x.1.part = tp

open Classical in
/-- The log has the committed changes of the partition in the order in which they were made. -/
def Inc.InOrder (i : Inc) (tp : Nat) : Prop := i.seen tp = (i.changes tp).filter fun x => i.Committed x.1

/-- The transaction of the second event comes before the one of the first. -/
def Inc.Later (i : Inc) (x y : Ev) : Prop := ∃ g g', (x, g) ∈ i.pool.added ∧ (y, g') ∈ i.pool.added ∧ g' < g

/-- All events of the partition in transactions before the one of `e` are complete. -/
def Inc.Settled (i : Inc) (e : Ev) : Prop := ∀ x ∈ i.pool.added, i.Later e x.1 → x.1.part = e.part → x.1.id ∈ i.pool.done

/-- All events of the partition that arrived before `e` are complete. -/
def Inc.Serial (i : Inc) (e : Ev) : Prop :=
  ∀ l1 l2 g, i.pool.added = l1 ++ (e, g) :: l2 → ∀ x ∈ l1, x.1.part = e.part → x.1.id ∈ i.pool.done

/-- The runs in which `P` holds whenever the application produces a record for an event. -/
inductive ReachIf (P : Inc → Ev → Prop) (c : Cfg) (src : Nat → List Nat) : World → Prop where
  | init : ReachIf P c src (boot c src [])
  | step {w w' : World} (a : Act) : ReachIf P c src w → (∀ e v, a = .emit e v → P w.cur e) → step c src w a = some w' → ReachIf P c src w'

/-- The store that a worker builds from the change log of a partition (`streams/state_store_consumer.go:165-199`,
`streams/partitioned_store.go:43-52`). `apply` is the `ReceiveChange` of the application. -/
def restored {σ : Type} (apply : σ → Nat → σ) (s0 : σ) (incs : List Inc) (tp : Nat) : σ :=
  ((incs.flatMap fun i => i.seen tp).map Prod.snd).foldl apply s0

/-- The store of the current incarnation: restored from what the ones before have committed, then changed by the handlers. -/
def World.store {σ : Type} (apply : σ → Nat → σ) (s0 : σ) (w : World) (tp : Nat) : σ :=
  ((w.cur.changes tp).map Prod.snd).foldl apply (restored apply s0 w.past tp)

/-! ### Lists -/

section lists
variable {α : Type} (f : α → Nat)

theorem filter_lt_succ {l : List α} (h : l.Pairwise fun a b => f a ≤ f b) (n : Nat) :
    (l.filter fun x => f x < n) ++ (l.filter fun x => f x = n) = l.filter fun x => f x < n + 1 := by
  induction l with
  | nil => rfl
  | cons a l ih =>
    obtain ⟨h1, h2⟩ := List.pairwise_cons.1 h
    rcases Nat.lt_trichotomy (f a) n with ha | ha | ha
    · simp only [List.filter_cons, show decide (f a < n) = true from by simpa using ha,
        show decide (f a = n) = false from by simpa using (Nat.ne_of_lt ha), show decide (f a < n + 1) = true from by simp; omega]
      simp only [if_true, Bool.false_eq_true, if_false, List.cons_append, ih h2]
    · have hnil : (l.filter fun x => f x < n) = [] := by
        rw [List.filter_eq_nil_iff]; intro x hx; have := h1 x hx; simp; omega
      have := ih h2
      rw [hnil, List.nil_append] at this
      simp only [List.filter_cons, show decide (f a < n) = false from by simp; omega,
        show decide (f a = n) = true from by simpa using ha, show decide (f a < n + 1) = true from by simp; omega]
      simp only [if_true, Bool.false_eq_true, if_false, hnil, List.nil_append, this]
    · have hnil : ∀ (p : α → Bool), (∀ x, n < f x → p x = false) → ((a :: l).filter p) = [] := by
        intro p hp
        rw [List.filter_eq_nil_iff]
        intro x hx
        rcases List.mem_cons.1 hx with rfl | hx
        · simp [hp _ ha]
        · simp [hp x (by have := h1 x hx; omega)]
      rw [hnil _ (by intro x hx; simp; omega), hnil _ (by intro x hx; simp; omega), hnil _ (by intro x hx; simp; omega)]
      rfl

theorem groups_sorted {l : List α} (h : l.Pairwise fun a b => f a ≤ f b) (n : Nat) :
    ((List.range n).flatMap fun g => l.filter fun x => f x = g) = l.filter fun x => f x < n := by
  induction n with
  | zero => simp
  | succ n ih => rw [List.range_succ, List.flatMap_append, List.flatMap_singleton, ih, filter_lt_succ f h]

theorem groups_pairwise (l : List α) (n : Nat) :
    ((List.range n).flatMap fun g => l.filter fun x => f x = g).Pairwise fun a b => f a ≤ f b := by
  induction n with
  | zero => simp
  | succ n ih =>
    rw [List.range_succ, List.flatMap_append, List.flatMap_singleton, List.pairwise_append]
    refine ⟨ih, ?_, ?_⟩
    · rw [List.pairwise_iff_forall_sublist]
      intro a b hab
      have ha := hab.subset (show a ∈ [a, b] by simp)
      have hb := hab.subset (show b ∈ [a, b] by simp)
      simp only [List.mem_filter, decide_eq_true_eq] at ha hb
      omega
    · intro a ha b hb
      simp only [List.mem_flatMap, List.mem_range, List.mem_filter, decide_eq_true_eq] at ha hb
      obtain ⟨g, hg, -, ha⟩ := ha
      omega

theorem groups_filter (l : List α) (n : Nat) :
    ((List.range n).flatMap fun g => l.filter fun x => f x = g) =
      (List.range n).flatMap fun g => (l.filter fun x => f x < n).filter fun x => f x = g := by
  apply List.flatMap_congr
  intro g hg
  rw [List.filter_filter]
  apply List.filter_congr
  intro x _
  have := List.mem_range.1 hg
  by_cases hx : f x = g
  · simp [hx, this]
  · simp [hx]

theorem groups_perm (l : List α) (n : Nat) :
    ((List.range n).flatMap fun g => l.filter fun x => f x = g).Perm (l.filter fun x => f x < n) := by
  induction n with
  | zero => simp
  | succ n ih =>
    rw [List.range_succ, List.flatMap_append, List.flatMap_singleton]
    refine (ih.append_right _).trans ?_
    have h1 : (l.filter fun x => f x < n) = (l.filter fun x => f x < n + 1).filter fun x => f x < n := by
      rw [List.filter_filter]; apply List.filter_congr; intro x _; rw [Bool.eq_iff_iff]; simp; omega
    have h2 : (l.filter fun x => f x = n) = (l.filter fun x => f x < n + 1).filter fun x => !decide (f x < n) := by
      rw [List.filter_filter]; apply List.filter_congr; intro x _; rw [Bool.eq_iff_iff]; simp; omega
    rw [h1, h2]
    exact List.filter_append_perm _ _

theorem filter_prefix {l : List α} (h : l.Pairwise fun a b => f a ≤ f b) (n : Nat) : (l.filter fun x => f x < n) <+: l := by
  induction l with
  | nil => exact List.prefix_refl _
  | cons a l ih =>
    obtain ⟨h1, h2⟩ := List.pairwise_cons.1 h
    by_cases ha : f a < n
    · rw [List.filter_cons, if_pos (by simpa using ha)]
      obtain ⟨t, ht⟩ := ih h2
      exact ⟨t, by rw [List.cons_append, ht]⟩
    · have : ((a :: l).filter fun x => f x < n) = [] := by
        rw [List.filter_eq_nil_iff]
        intro x hx
        rcases List.mem_cons.1 hx with rfl | hx
        · simpa using ha
        · have := h1 x hx; simp; omega
      rw [this]
      exact List.nil_prefix

end lists

/-! ### One incarnation -/

/-- The number of the transaction of an event. -/
def genOf (i : Inc) (x : Ev × Nat) : Nat := ((i.pool.added.find? fun a => a.1 = x.1).map Prod.snd).getD 0

variable {c : Cfg} (hn : 0 < c.poolSize) {src : Nat → List Nat} {s : Nat → Nat} {i : Inc} {rest : Nat → List Nat}

theorem prods_added (I : IncInv c src s i rest) {x : Ev × Nat} (hx : x ∈ i.prods) : ∃ g, (x.1, g) ∈ i.pool.added := by
  rw [← I.recs] at hx
  obtain ⟨o, ho, hx⟩ := List.mem_filterMap.1 hx
  exact ⟨_, (I.made o ho _ hx).2⟩

include hn in
theorem genOf_eq (I : IncInv c src s i rest) {x : Ev × Nat} {g : Nat} (hg : (x.1, g) ∈ i.pool.added) : genOf i x = g := by
  have hids := (C04_in_order hn I.reach).2.2.2
  unfold genOf
  cases hf : i.pool.added.find? fun a => a.1 = x.1 with
  | none =>
    rw [List.find?_eq_none] at hf
    have := hf _ hg
    simp at this
  | some a =>
    have h1 : a.1 = x.1 := by simpa using List.find?_some hf
    have h2 := seen_eq.inj_of_nodup hids (List.mem_of_find?_eq_some hf) hg (by rw [h1])
    subst h2
    rfl

include hn in
theorem genOf_iff (I : IncInv c src s i rest) {x : Ev × Nat} (hx : x ∈ i.prods) (g : Nat) :
    (x.1, g) ∈ i.pool.added ↔ genOf i x = g := by
  constructor
  · exact genOf_eq hn I
  · obtain ⟨g', h'⟩ := prods_added I hx
    rw [genOf_eq hn I h']
    rintro rfl; exact h'

include hn in
theorem seen_groups (I : IncInv c src s i rest) (tp : Nat) :
    i.seen tp = (List.range i.pool.ended.length).flatMap fun g => (i.changes tp).filter fun x => genOf i x = g := by
  rw [seen_eq hn I]
  apply List.flatMap_congr
  intro g _
  unfold Inc.changes
  rw [List.filter_filter]
  apply List.filter_congr
  intro x hx
  have := genOf_iff hn I hx g
  by_cases h1 : x.1.part = tp <;> by_cases h2 : genOf i x = g <;> simp [h1, h2, this]

open Classical in
include hn in
theorem committed_filter (I : IncInv c src s i rest) (tp : Nat) :
    ((i.changes tp).filter fun x => i.Committed x.1) = (i.changes tp).filter fun x => genOf i x < i.pool.ended.length := by
  apply List.filter_congr
  intro x hx
  have hp : x ∈ i.prods := List.mem_of_mem_filter hx
  rw [decide_eq_decide, committed_gen hn I (v := x.2) hp]
  constructor
  · rintro ⟨g, h1, h2⟩; rw [genOf_eq hn I h2]; exact h1
  · intro h; exact ⟨_, h, (genOf_iff hn I hp _).2 rfl⟩

include hn in
theorem later_iff (I : IncInv c src s i rest) {x y : Ev × Nat} (hx : x ∈ i.prods) (hy : y ∈ i.prods) :
    i.Later x.1 y.1 ↔ genOf i y < genOf i x := by
  constructor
  · rintro ⟨g, g', h1, h2, h3⟩
    rw [genOf_eq hn I h1, genOf_eq hn I h2]; exact h3
  · intro h
    exact ⟨_, _, (genOf_iff hn I hx _).2 rfl, (genOf_iff hn I hy _).2 rfl, h⟩

/-! ### Runs with a condition -/

theorem ReachIf.reach {P : Inc → Ev → Prop} {w : World} (h : ReachIf P c src w) : Reach c src w := by
  induction h with
  | init => exact .init
  | step a _ _ hs ih => exact .step a ih hs

theorem ReachIf.mono {P Q : Inc → Ev → Prop} (hPQ : ∀ w, Reach c src w → ∀ e, P w.cur e → Q w.cur e) {w : World}
    (h : ReachIf P c src w) : ReachIf Q c src w := by
  induction h with
  | init => exact .init
  | step a hr hp hs ih => exact .step a ih (fun e v ha => hPQ _ hr.reach e (hp e v ha)) hs

/-- Nothing of a later transaction was produced while something of an earlier one could still be. -/
structure OrdInv (i : Inc) : Prop where
  settled : ∀ x ∈ i.prods, i.Settled x.1
  sorted : i.prods.Pairwise fun x y => x.1.part = y.1.part → ¬ i.Later x.1 y.1

theorem done_mono {p p' : Pool} {l : Label} (h : Eos.step c p l = some p') {n : Nat} (hd : n ∈ p.done) : n ∈ p'.done := by
  have hpd : ∀ q tp r, (produce p q tp r).done = p.done := by
    intro q tp r; unfold produce; dsimp only; split <;> rfl
  have hrl : ∀ q tp, (relinquish c.poolSize p q tp).done = p.done := by
    intro q tp; unfold relinquish; dsimp only; split <;> rfl
  have same : ∀ {p'' : Pool}, some p'' = some p' → (p''.done = p.done ∨ ∃ k, p''.done = p.done ++ [k]) → n ∈ p'.done := by
    intro p'' h4 h1
    cases h4
    rcases h1 with h1 | ⟨k, h1⟩ <;> rw [h1] <;> simp [hd]
  unfold Eos.step at h
  split at h <;> (repeat' split at h) <;> first
    | (simp at h; done)
    | exact same h (Or.inl rfl)
    | exact same h (Or.inl (hpd _ _ _))
    | exact same h (Or.inl (hrl _ _))
    | exact same h (Or.inr ⟨_, rfl⟩)

/-- Steps that produce nothing and add nothing. -/
theorem ord_same (O : OrdInv i) {p' : Pool} (ha : p'.added = i.pool.added) (hd : ∀ n ∈ i.pool.done, n ∈ p'.done) :
    OrdInv { i with pool := p' } := by
  have hl : ∀ x y, (({ i with pool := p' } : Inc)).Later x y ↔ i.Later x y := by
    intro x y; unfold Inc.Later; dsimp only; rw [ha]
  refine ⟨?_, ?_⟩
  · intro x hx y hy hlt hp
    rw [hl] at hlt
    dsimp only at hy
    rw [ha] at hy
    exact hd _ (O.settled x hx y hy hlt hp)
  · refine O.sorted.imp ?_
    intro x y h hp hlt
    exact h hp ((hl _ _).1 hlt)

include hn in
theorem ord_add (I : IncInv c src s i rest) (O : OrdInv i) {e : Ev} {p' : Pool} (h : Eos.step c i.pool (.add e) = some p') :
    OrdInv { i with pool := p' } := by
  obtain ⟨g, ha, -⟩ := added_add h
  have hr' : Eos.Reach c p' := .step _ I.reach (by simp) h
  obtain ⟨-, hmono, -, hids⟩ := C04_in_order hn hr'
  rw [ha] at hmono hids
  have hmax : ∀ a ∈ i.pool.added, a.2 ≤ g := by
    intro a hm
    rw [List.map_append, List.pairwise_append] at hmono
    exact hmono.2.2 a.2 (List.mem_map.2 ⟨a, hm, rfl⟩) g (by simp)
  have hnew : ∀ a ∈ i.pool.added, a.1 ≠ e := by
    intro a hm hae
    rw [List.map_append, List.nodup_append] at hids
    exact hids.2.2 a.1.id (List.mem_map.2 ⟨a, hm, rfl⟩) e.id (by simp) (by rw [hae])
  -- a record that was produced is of an old event
  have hl : ∀ x ∈ i.prods, ∀ y, (({ i with pool := p' } : Inc)).Later x.1 y → i.Later x.1 y := by
    rintro x hx y ⟨a, b, h1, h2, h3⟩
    obtain ⟨a', hxa⟩ := prods_added I hx
    dsimp only at h1 h2
    rw [ha] at h1 h2
    have hx1 : (x.1, a) ∈ i.pool.added := by
      rcases List.mem_append.1 h1 with h1 | h1
      · exact h1
      · simp only [List.mem_singleton, Prod.mk.injEq] at h1
        exact absurd h1.1 (hnew (x.1, a') hxa)
    rcases List.mem_append.1 h2 with h2 | h2
    · exact ⟨a, b, hx1, h2, h3⟩
    · simp only [List.mem_singleton, Prod.mk.injEq] at h2
      have := hmax _ hx1
      dsimp only at this
      omega
  have hd : ∀ n ∈ i.pool.done, n ∈ p'.done := fun n => done_mono h
  refine ⟨?_, ?_⟩
  · intro x hx y hy hlt hp
    have hlt' := hl x hx _ hlt
    obtain ⟨a, b, h1, h2, h3⟩ := hlt'
    exact hd _ (O.settled x hx (y.1, b) h2 ⟨a, b, h1, h2, h3⟩ hp)
  · refine O.sorted.imp_of_mem ?_
    intro x y hx _ h' hp hlt
    exact h' hp (hl x hx _ hlt)

theorem ord_emit (O : OrdInv i) {e : Ev} {v : Nat} {p' : Pool} (hS : i.Settled e)
    (h : Eos.step c i.pool (.produce e i.prods.length) = some p') : OrdInv ⟨p', i.prods ++ [(e, v)]⟩ := by
  have ha := added_step h (by intro e h; cases h)
  have hd : ∀ n ∈ i.pool.done, n ∈ p'.done := fun n => done_mono h
  have hopen : e ∈ i.pool.added.map Prod.fst ∧ e.id ∉ i.pool.done := by
    unfold Eos.step at h
    simp only at h
    repeat' split at h
    all_goals first
      | assumption
      | (simp at h)
  have hl : ∀ x y, ((⟨p', i.prods ++ [(e, v)]⟩ : Inc)).Later x y ↔ i.Later x y := by
    intro x y; unfold Inc.Later; dsimp only; rw [ha]
  refine ⟨?_, ?_⟩
  · intro x hx y hy hlt hp
    rw [hl] at hlt
    dsimp only at hy
    rw [ha] at hy
    apply hd
    rcases List.mem_append.1 hx with hx | hx
    · exact O.settled x hx y hy hlt hp
    · simp only [List.mem_singleton] at hx
      subst hx
      exact hS y hy hlt hp
  · dsimp only
    rw [List.pairwise_append]
    refine ⟨O.sorted.imp ?_, by simp, ?_⟩
    · intro x y h' hp hlt
      exact h' hp ((hl _ _).1 hlt)
    · intro x hx y hy hp hlt
      simp only [List.mem_singleton] at hy
      subst hy
      rw [hl] at hlt
      obtain ⟨a, b, h1, h2, h3⟩ := hlt
      exact hopen.2 (O.settled x hx (e, b) h2 ⟨a, b, h1, h2, h3⟩ hp.symm)

theorem ord_start : OrdInv (Inc.start c) := ⟨by simp [Inc.start], by simp [Inc.start]⟩

include hn in
theorem ord_reach {w : World} (h : ReachIf Inc.Settled c src w) : ∀ i ∈ w.incs, OrdInv i := by
  induction h with
  | init => intro i hi; simp [World.incs, boot] at hi; subst hi; exact ord_start
  | @step w w' a hr hS hs ih =>
    have I := inv_reach hn hr.reach
    have hcur := ih w.cur (by simp [World.incs])
    have cur : ∀ i', w'.past = w.past → w'.cur = i' → OrdInv i' → ∀ i ∈ w'.incs, OrdInv i := by
      intro i' h1 h2 h3 i hi
      unfold World.incs at hi
      rw [h1, h2] at hi
      rcases List.mem_append.1 hi with hi | hi
      · exact ih i (List.mem_append_left _ hi)
      · simp only [List.mem_singleton] at hi
        subst hi; exact h3
    cases a with
    | pool l =>
      simp only [step] at hs
      split at hs
      · rename_i hl
        obtain ⟨p, hp, rfl⟩ := Option.map_eq_some_iff.1 hs
        have h1 : ∀ e, l ≠ .add e := by rintro e rfl; simp [internal] at hl
        exact cur _ rfl rfl (ord_same hcur (added_step hp h1) fun n => done_mono hp)
      · simp at hs
    | feed tp id =>
      simp only [step] at hs
      split at hs
      · obtain ⟨p, hp, rfl⟩ := Option.map_eq_some_iff.1 hs
        exact cur _ rfl rfl (ord_add hn I.cur hcur hp)
      · simp at hs
    | interject tp id =>
      simp only [step] at hs
      obtain ⟨p, hp, rfl⟩ := Option.map_eq_some_iff.1 hs
      exact cur _ rfl rfl (ord_add hn I.cur hcur hp)
    | emit e v =>
      simp only [step] at hs
      obtain ⟨p, hp, rfl⟩ := Option.map_eq_some_iff.1 hs
      exact cur _ rfl rfl (ord_emit hcur (hS e v rfl) hp)
    | crash =>
      simp only [step, Option.some.injEq] at hs
      subst hs
      intro i hi
      simp only [World.incs, boot, List.mem_append, List.mem_singleton] at hi
      rcases hi with (hi | hi) | hi
      · exact ih i (List.mem_append_left _ hi)
      · subst hi; exact hcur
      · subst hi; exact ord_start

include hn in
theorem settled_of_serial {w : World} (h : Reach c src w) (e : Ev) (hS : w.cur.Serial e) : w.cur.Settled e := by
  have I := inv_reach hn h
  obtain ⟨-, hmono, -, -⟩ := C04_in_order hn I.cur.reach
  rintro x hx ⟨g, g', h1, h2, h3⟩ hp
  obtain ⟨l1, l2, hsp⟩ := List.append_of_mem h1
  have hx' : (x.1, g') ∈ l1 := by
    rw [hsp] at h2 hmono
    rcases List.mem_append.1 h2 with h2 | h2
    · exact h2
    · rw [List.map_append, List.map_cons, List.pairwise_append, List.pairwise_cons] at hmono
      rcases List.mem_cons.1 h2 with h2 | h2
      · cases h2; omega
      · have := hmono.2.1.1 g' (List.mem_map.2 ⟨_, h2, rfl⟩)
        dsimp only at this
        omega
  exact hS l1 l2 g hsp (x.1, g') hx' hp

include hn in
theorem changes_sorted (I : IncInv c src s i rest) (O : OrdInv i) (tp : Nat) :
    (i.changes tp).Pairwise fun a b => genOf i a ≤ genOf i b := by
  unfold Inc.changes
  rw [List.pairwise_filter]
  refine O.sorted.imp_of_mem ?_
  intro x y hx hy h h1 h2
  have h1 : x.1.part = tp := by simpa using h1
  have h2 : y.1.part = tp := by simpa using h2
  have := h (h1.trans h2.symm)
  rw [later_iff hn I hx hy] at this
  omega

end Verif.Effects

import Verif.Replica.Spec
import Verif.Fleet.Once
import Verif.Effects.Order
/-
Proofs for C109: the sequential run, and what becomes visible by a step of a pool.
-/
namespace Verif.Replica
open Verif.Eos Verif.Effects Verif.Fleet

variable {σ X : Type} {c : Cfg} {a : Exact.App σ X} {src : Nat → List Nat} {val : Nat → Nat → X}

/-! ### The sequential run -/

theorem filter_head {l t : List Nat} {u o : Nat} (hl : l.Pairwise (· < ·)) (h : o :: t = l.filter fun x => u ≤ x) :
    (l.filter fun x => x < o) = (l.filter fun x => x < u) ∧ (l.filter fun x => x < o + 1) = (l.filter fun x => x < u) ++ [o] ∧
    t = l.filter fun x => o + 1 ≤ x := by
  have hs : l = (l.filter fun x => x < u) ++ (o :: t) := by
    rw [h]
    exact Exact.filter_split (k := fun x : Nat => x) (by simpa using hl.imp (fun h => Nat.le_of_lt h)) u
  have hp : (o :: t).Pairwise (· < ·) := by rw [h]; exact hl.sublist List.filter_sublist
  have huo : u ≤ o := by
    have : o ∈ l.filter fun x => u ≤ x := by rw [← h]; simp
    simpa using (List.mem_filter.1 this).2
  have ho := (List.pairwise_cons.1 hp).1
  have key : ∀ v, u ≤ v → ((l.filter fun x => x < u).filter fun x => decide (x < v)) = l.filter fun x => x < u := by
    intro v hv
    rw [List.filter_eq_self]
    intro x hx
    have := (List.mem_filter.1 hx).2
    simp only [decide_eq_true_eq] at this ⊢
    omega
  have kt : ∀ v, v ≤ o + 1 → (t.filter fun x => decide (x < v)) = [] := by
    intro v hv
    rw [List.filter_eq_nil_iff]
    intro x hx
    have := ho x hx
    simp only [decide_eq_true_eq]; omega
  refine ⟨?_, ?_, (filter_drop_le (A := [o]) hl (by simpa using h) rfl).1⟩
  · conv_lhs => rw [hs]
    rw [List.filter_append, key o huo, List.filter_cons_of_neg (by simp), kt o (by omega), List.append_nil]
  · conv_lhs => rw [hs]
    rw [List.filter_append, key (o + 1) (by omega), List.filter_cons_of_pos (by simp), kt (o + 1) (by omega)]

theorem stateAt_eq {tp u o : Nat} (h : ((src tp).filter fun x => x < o) = (src tp).filter fun x => x < u) :
    stateAt a src val tp o = stateAt a src val tp u ∧ outsAt a src val tp o = outsAt a src val tp u := by
  unfold stateAt outsAt before
  rw [h]; exact ⟨rfl, rfl⟩

theorem handleAll_snoc (xs : List X) (x : X) : Exact.handleAll a (xs ++ [x]) = Exact.handleOne a (Exact.handleAll a xs) x := by
  unfold Exact.handleAll; rw [List.foldl_append]; rfl

/-- The next record of the source. -/
theorem seq_next {tp u o : Nat} {t : List Nat} (hl : (src tp).Pairwise (· < ·)) (h : o :: t = (src tp).filter fun x => u ≤ x) :
    stateAt a src val tp o = stateAt a src val tp u ∧
    stateAt a src val tp (o + 1) = (due a src val tp o).foldl a.apply (stateAt a src val tp o) ∧
    outsAt a src val tp (o + 1) = outsAt a src val tp u ++ due a src val tp o := by
  obtain ⟨h1, h2, -⟩ := filter_head hl h
  have e1 := (stateAt_eq (a := a) (val := val) h1).1
  have e3 : Exact.handleAll a (before src val tp (o + 1)) = Exact.handleOne a (Exact.handleAll a (before src val tp u)) (val tp o) := by
    unfold before
    rw [h2, List.map_append, List.map_singleton, handleAll_snoc]
  refine ⟨e1, ?_, ?_⟩
  · unfold due
    rw [e1]
    show (Exact.handleAll a (before src val tp (o + 1))).1 = _
    rw [e3]; rfl
  · unfold due
    rw [e1]
    show (Exact.handleAll a (before src val tp (o + 1))).2 = _
    rw [e3]; rfl

/-- Several records of the source. -/
theorem seq_more {tp : Nat} {B : List Nat} (hl : (src tp).Pairwise (· < ·)) : ∀ (A : List Nat) {u y : Nat},
    A ++ B = ((src tp).filter fun x => u ≤ x) → A.getLast? = some y →
    outsAt a src val tp (y + 1) = outsAt a src val tp u ++ A.flatMap (due a src val tp)
  | [], _, _, _, hy => by simp at hy
  | [o], u, y, h, hy => by
    simp only [List.getLast?_singleton, Option.some.injEq] at hy
    subst hy
    rw [(seq_next hl h).2.2]; simp
  | o :: p :: A, u, y, h, hy => by
    have h2 := (filter_head hl h).2.2
    have := seq_more hl (p :: A) (u := o + 1) (y := y) h2 (by simpa [List.getLast?_cons_cons] using hy)
    rw [this, (seq_next hl h).2.2, List.append_assoc]
    rfl

/-- The store is determined by the records that were produced (`handleAll_eq`). -/
theorem state_outs (tp o : Nat) : (outsAt a src val tp o).foldl a.apply a.s0 = stateAt a src val tp o := by
  unfold outsAt stateAt
  rw [Exact.handleAll_eq]

/-! ### Steps of a pool -/

theorem done_step {p p' : Pool} {l : Label} (h : Eos.step c p l = some p') (hl : other l = true) : p'.done = p.done := by
  have hpd : ∀ q tp r, (produce p q tp r).done = p.done := by
    intro q tp r; unfold produce; dsimp only; split <;> rfl
  have hrl : ∀ q tp, (relinquish c.poolSize p q tp).done = p.done := by
    intro q tp; unfold relinquish; dsimp only; split <;> rfl
  have same : ∀ {p'' : Pool}, some p'' = some p' → p''.done = p.done → p'.done = p.done := by
    intro p'' h4 h1
    cases h4; exact h1
  cases l <;>
  · unfold Eos.step at h
    simp only at h
    repeat' split at h
    all_goals first
      | (simp at h; done)
      | exact same h rfl
      | exact same h (hpd _ _ _)
      | exact same h (hrl _ _)
      | (simp [other] at hl)

theorem done_complete {p p' : Pool} {e : Ev} (h : Eos.step c p (.complete e) = some p') :
    p'.done = p.done ++ [e.id] ∧ e ∈ p.added.map Prod.fst ∧ p'.added = p.added := by
  unfold Eos.step at h
  simp only at h
  repeat' split at h
  all_goals first
    | (cases h; rename_i h2; exact ⟨rfl, h2.1, rfl⟩)
    | cases h

/-- What is complete has been added. -/
theorem done_added {p : Pool} (h : Eos.Reach c p) : ∀ n ∈ p.done, n ∈ p.added.map fun x => x.1.id := by
  induction h with
  | init => intro n hn; simp [Pool.init] at hn
  | @step s s' l _ _ hs ih =>
    have hsub : ∀ n ∈ s.added.map (fun x => x.1.id), n ∈ s'.added.map fun x => x.1.id := by
      intro n hn
      by_cases hl : ∃ e, l = .add e
      · obtain ⟨e, rfl⟩ := hl
        obtain ⟨g, h1, -⟩ := added_add hs
        rw [h1, List.map_append]; exact List.mem_append_left _ hn
      · rw [added_step hs (fun e h => hl ⟨e, h⟩)]; exact hn
    intro n hn
    by_cases ho : other l = true
    · rw [done_step hs ho] at hn; exact hsub n (ih n hn)
    · cases l <;> simp [other] at ho
      rename_i e
      obtain ⟨h1, h2, h3⟩ := done_complete hs
      rw [h1] at hn
      rcases List.mem_append.1 hn with hn | hn
      · exact hsub n (ih n hn)
      · rw [List.mem_singleton] at hn; subst hn
        obtain ⟨x, hx, rfl⟩ := List.mem_map.1 h2
        rw [h3]; exact List.mem_map.2 ⟨x, hx, rfl⟩

/-! ### What becomes visible -/

theorem seen_groups' (hn : 0 < c.poolSize) {i : Inc} (C : Core c i) (tp : Nat) :
    i.seen tp = (List.range i.pool.ended.length).flatMap fun g => (i.changes tp).filter fun x => genOf i x = g :=
  seen_groups hn (C.inc fun _ => []) tp

/-- No transaction ends: nothing becomes visible. -/
theorem fresh_quiet (hn : 0 < c.poolSize) {i i' : Inc} (C : Core c i) (C' : Core c i') {tp : Nat} {ext : List (Ev × Nat)}
    (he : i'.pool.ended = i.pool.ended) (hc : i'.changes tp = i.changes tp ++ ext)
    (hg : ∀ x ∈ i.changes tp, genOf i' x = genOf i x) (hx : ∀ x ∈ ext, i.pool.ended.length ≤ genOf i' x) : fresh i i' tp = [] := by
  have : i'.seen tp = i.seen tp := by
    rw [seen_groups' hn C, seen_groups' hn C', he]
    apply List.flatMap_congr
    intro g hgm
    rw [List.mem_range] at hgm
    rw [hc, List.filter_append]
    have h1 : (ext.filter fun x => decide (genOf i' x = g)) = [] := by
      rw [List.filter_eq_nil_iff]
      intro x hxm
      have := hx x hxm
      simp only [decide_eq_true_eq]; omega
    rw [h1, List.append_nil]
    apply List.filter_congr
    intro x hxm
    rw [hg x hxm]
  unfold fresh
  rw [this]; simp

/-- A transaction ends: its records become visible. -/
theorem fresh_end (hn : 0 < c.poolSize) {i i' : Inc} (C : Core c i) (C' : Core c i') {tp : Nat}
    (he : i'.pool.ended.length = i.pool.ended.length + 1) (hc : i'.changes tp = i.changes tp)
    (hg : ∀ x ∈ i.changes tp, genOf i' x = genOf i x) :
    fresh i i' tp = ((i'.changes tp).filter fun x => genOf i' x = i.pool.ended.length).map Prod.snd := by
  have : i'.seen tp = i.seen tp ++ (i'.changes tp).filter fun x => genOf i' x = i.pool.ended.length := by
    rw [seen_groups' hn C, seen_groups' hn C', he, List.range_succ, List.flatMap_append, List.flatMap_singleton]
    congr 1
    apply List.flatMap_congr
    intro g _
    rw [hc]
    apply List.filter_congr
    intro x hxm
    rw [hg x hxm]
  unfold fresh
  rw [this, List.drop_left]

theorem genOf_added {i i' : Inc} (h : i'.pool.added = i.pool.added) (x : Ev × Nat) : genOf i' x = genOf i x := by
  unfold genOf; rw [h]

end Verif.Replica

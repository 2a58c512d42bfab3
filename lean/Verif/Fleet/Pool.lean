import Verif.Fleet.Spec
import Verif.Effects.Proofs
/-
Proofs for C93 and C94: one consumer.
-/
namespace Verif.Fleet
open Verif.Eos Verif.Exact Verif.Effects

variable {c : Cfg} {i : Inc}

/-- What holds of the pool of every consumer and of the records of its application. -/
structure Core (c : Cfg) (i : Inc) : Prop where
  reach : Eos.Reach c i.pool
  recs : i.pool.calls.filterMap (recOf i.prods) = i.prods
  bound : ∀ o ∈ i.pool.calls, ∀ k, o.r = .user k → k < i.prods.length
  made : ∀ o ∈ i.pool.calls, ∀ x, recOf i.prods o = some x → x.1.part = o.part ∧ (x.1, o.gen) ∈ i.pool.added

/-- The offsets of a partition that a consumer has added to its pool. -/
def own (i : Inc) (tp : Nat) : List Nat := (i.pool.added.filter fun x => x.1.part = tp).filterMap fun x => x.1.off

theorem mem_own {tp o : Nat} : o ∈ own i tp ↔ ∃ e g, (e, g) ∈ i.pool.added ∧ e.part = tp ∧ e.off = some o := by
  unfold own
  rw [List.mem_filterMap]
  constructor
  · rintro ⟨⟨e, g⟩, h1, h2⟩
    rw [List.mem_filter] at h1
    exact ⟨e, g, h1.1, by simpa using h1.2, h2⟩
  · rintro ⟨e, g, h1, h2, h3⟩
    exact ⟨(e, g), List.mem_filter.2 ⟨h1, by simpa using h2⟩, h3⟩

theorem Core.inc (I : Core c i) (rest : Nat → List Nat) :
    IncInv c (fun tp => own i tp ++ rest tp) (fun _ => 0) i rest :=
  ⟨I.reach, I.recs, I.bound, I.made, by intro tp; simp [own]⟩

theorem core_of {src : Nat → List Nat} {s : Nat → Nat} {rest : Nat → List Nat} (I : IncInv c src s i rest) : Core c i :=
  ⟨I.reach, I.recs, I.bound, I.made⟩

theorem core_start : Core c (Inc.start c) := core_of (src := fun _ => []) (s := fun _ => 0) inv_start

theorem core_pool (I : Core c i) {l : Label} {p' : Pool} (hl : internal l = true) (h : Eos.step c i.pool l = some p') :
    Core c { i with pool := p' } := core_of (inv_pool (I.inc fun _ => []) hl h)

theorem core_add (I : Core c i) {e : Ev} {p' : Pool} (h : Eos.step c i.pool (.add e) = some p') : Core c { i with pool := p' } :=
  core_of (inv_add (I.inc fun tp => if e.part = tp then e.off.toList else []) h (rest' := fun _ => []) (by intro tp; simp))

theorem core_emit (hn : 0 < c.poolSize) (I : Core c i) {e : Ev} {v : Nat} {p' : Pool}
    (h : Eos.step c i.pool (.produce e i.prods.length) = some p') : Core c ⟨p', i.prods ++ [(e, v)]⟩ :=
  core_of (inv_emit hn (I.inc fun _ => []) h)

/-- A source record is committed when its transaction is among those that have ended. -/
theorem committed_lt (hn : 0 < c.poolSize) (h : Eos.Reach c i.pool) {e : Ev} {o : Nat} (ho : e.off = some o) :
    i.Committed e ↔ ∃ g, g < i.pool.ended.length ∧ (e, g) ∈ i.pool.added := by
  have h4 := (C04_in_order hn h).1
  constructor
  · rintro ⟨g, h1, h2⟩
    refine ⟨g, ?_, h1⟩
    have : g ∈ i.pool.ended.map Prod.fst := List.mem_map.2 ⟨_, h2, rfl⟩
    rwa [h4, List.mem_range] at this
  · rintro ⟨g, h1, h2⟩
    exact ⟨g, h2, Marks.committed_of_ended hn h h2 (by rw [h4, List.mem_range]; exact h1) ho⟩

/-- The transaction of a new event has not ended. -/
theorem add_gen (hn : 0 < c.poolSize) {p p' : Pool} (h : Eos.Reach c p) {e : Ev} (hs : Eos.step c p (.add e) = some p') :
    ∃ g, p'.added = p.added ++ [(e, g)] ∧ p'.ended = p.ended ∧ p.ended.length ≤ g := by
  obtain ⟨g, ha, -⟩ := added_add hs
  have he : p'.ended = p.ended := by
    rcases Marks.ended_step hs with ⟨h1, -⟩ | ⟨_, _, _, h1, _⟩
    · exact h1
    · cases h1
  refine ⟨g, ha, he, ?_⟩
  by_contra hlt
  have h4 := (C04_in_order hn h).1
  have hm : g ∈ p.ended.map Prod.fst := by rw [h4, List.mem_range]; omega
  obtain ⟨⟨g', b⟩, h1, h2⟩ := List.mem_map.1 hm
  simp only at h2; subst h2
  have h3 := ((C02_nothing_after_the_end hn h (by simp) hs h1).2.1 e).1 (by rw [ha]; simp)
  have h5 := (C04_in_order hn (.step _ h (by simp) hs)).2.2.2
  rw [ha, List.map_append, List.nodup_append] at h5
  exact h5.2.2 e.id (List.mem_map.2 ⟨_, h3, rfl⟩) e.id (by simp) rfl

/-- What a step of the pool adds to the commit log: nothing, or the offset records of the transaction that ends. -/
theorem fresh_step (hn : 0 < c.poolSize) {p p' : Pool} (h : Eos.Reach c p) {l : Label} (hl : l ≠ .commitFail true)
    (hs : Eos.step c p l = some p') :
    (p'.ended = p.ended ∧ ∀ tp, fresh p p' tp = []) ∨
    (p'.ended.length = p.ended.length + 1 ∧ p'.added = p.added ∧
      ∀ tp, fresh p p' tp = ((newest (evOf p.added p.ended.length) tp).map (· + 1)).toList) := by
  have h' : Eos.Reach c p' := .step l h hl hs
  have same : ∀ tp, ((p.ended.map Prod.fst).flatMap fun g => Marks.recordsIn p' tp g) = Marks.committedRecords p tp := by
    intro tp
    unfold Marks.committedRecords
    apply List.flatMap_congr
    intro g hg
    obtain ⟨⟨g', b⟩, h1, h2⟩ := List.mem_map.1 hg
    simp only at h2; subst h2
    unfold Marks.recordsIn
    rw [(C02_nothing_after_the_end hn h hl hs h1).2.2.2 tp]
    rfl
  rcases Marks.ended_step hs with ⟨h1, -⟩ | ⟨q, f, o, rfl, -, h1⟩
  · left
    refine ⟨h1, fun tp => ?_⟩
    unfold fresh
    rw [offsets_eq hn h, offsets_eq hn h', ← same tp]
    have : Marks.committedRecords p' tp = (p.ended.map Prod.fst).flatMap fun g => Marks.recordsIn p' tp g := by
      unfold Marks.committedRecords; rw [h1]; rfl
    rw [this]; simp
  · right
    have ha : p'.added = p.added := added_step hs (by intro e h; cases h)
    have hlen : p'.ended.length = p.ended.length + 1 := by rw [h1]; simp
    refine ⟨hlen, ha, fun tp => ?_⟩
    have h4 := (C04_in_order hn h).1
    have h4' := (C04_in_order hn h').1
    have hg : p.nodeGen q = p.ended.length := by
      rw [hlen, h1, List.map_append, List.range_succ, h4] at h4'
      simpa using h4'
    have : Marks.committedRecords p' tp = Marks.committedRecords p tp ++ Marks.recordsIn p' tp p.ended.length := by
      rw [← same tp]
      unfold Marks.committedRecords
      rw [h1, List.map_append, List.flatMap_append, hg, List.map_cons, List.map_nil, List.flatMap_singleton]
      rfl
    unfold fresh
    rw [offsets_eq hn h, offsets_eq hn h', this, List.drop_left, Marks.recordsIn_eq hn h' (by rw [h4', hlen]; simp), ha]

end Verif.Fleet

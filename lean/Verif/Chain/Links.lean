import Verif.Chain.Step
/-
Which event contexts point to each other.
-/
set_option linter.unusedSectionVars false
set_option linter.unusedSimpArgs false
set_option linter.unusedVariables false
namespace Verif.Chain
open Verif.Eos

variable {c : Cfg} {s : St}

theorem reach_match (hn : 0 < c.poolSize) (h : Reach c s) : ∃ a, Eos.Reach c a ∧ Match c.poolSize s a := by
  induction h with
  | init => exact ⟨_, .init, match_init hn⟩
  | step lab _ hl hs ih =>
    obtain ⟨a, h1, h2⟩ := ih
    have h := sim_step h2 lab
    rw [hs] at h
    cases ha : Eos.step c a lab with
    | none => rw [ha] at h; cases h
    | some a' =>
      rw [ha] at h
      cases h with
      | some h => exact ⟨a', .step lab h1 hl ha, h⟩

theorem eventsOf_eq (added : List (Ev × Nat)) (g tp : Nat) : eventsOf added g tp = (evOf added g).filter fun e => e.part = tp := by
  unfold eventsOf evOf
  induction added with
  | nil => rfl
  | cons x added ih =>
    by_cases h1 : x.2 = g <;> by_cases h2 : x.1.part = tp <;> simp [h1, h2, ih]

theorem used_evs (hn : 0 < c.poolSize) {a : Pool} (h : Eos.Reach c a) {p : Nat} (hp : InUse a p) :
    (a.nodes p).evs = evOf a.added (a.nodeGen p) := by
  obtain ⟨b, hb, r⟩ := sim_reach hn h
  have B := base_reach hn hb
  have key : ∀ g, b.lo ≤ g → g ≤ b.gen → (g ≠ b.lo ∨ b.relinquished = none) → (a.nodes (g % c.poolSize)).evs = evOf a.added (a.nodeGen (g % c.poolSize)) := by
    intro g h1 h2 h3
    have hw := B.win.2
    rw [r.nodes g h1 (by omega), r.nodeGen g h1 h2, r.added]
    exact B.evs g h1 h3
  have hst : b.lo ≤ b.st := by
    have := B.st
    revert this
    cases b.com <;> simp only <;> omega
  rcases hp with ⟨rfl, h1⟩ | h1 | h1 | ⟨cur, flag, rest, h1⟩
  · rw [r.onDeck]
    rw [r.fwd] at h1
    have hw := B.win.1
    rw [top_of_ne h1] at hw
    refine key _ hw (Nat.le_refl _) ?_
    by_cases h2 : b.relinquished = none
    · exact Or.inr h2
    · have := lo_lt_gen B h1 (relinq_st B h2)
      exact Or.inl (by omega)
  · rw [r.cq, List.mem_map] at h1
    obtain ⟨g, h2, rfl⟩ := h1
    rw [List.mem_range'] at h2
    obtain ⟨i, h3, rfl⟩ := h2
    have ht : b.top ≤ b.gen + 1 := by unfold A.top; split <;> omega
    refine key _ (by omega) (by omega) ?_
    by_cases h2 : b.relinquished = none
    · exact Or.inr h2
    · have := relinq_st B h2
      exact Or.inl (by omega)
  · rw [r.com] at h1
    have hb : b.com = .begun ∧ b.lo % c.poolSize = p := by
      cases hc : b.com <;> rw [hc] at h1 <;> simp [toCom] at h1
      exact ⟨rfl, h1⟩
    have hs := B.st
    rw [hb.1] at hs
    rw [← hb.2]
    exact key _ (Nat.le_refl _) (lo_le_gen B hs) (Or.inr (by unfold A.relinquished; rw [hb.1]))
  · rw [r.com] at h1
    have hb : (∃ x y z, b.com = .fin x y z) ∧ b.lo % c.poolSize = p := by
      cases hc : b.com <;> rw [hc] at h1 <;> simp [toCom] at h1
      exact ⟨⟨_, _, _, rfl⟩, h1.1⟩
    obtain ⟨⟨x, y, z, hb1⟩, hb2⟩ := hb
    have hs := B.st
    rw [hb1] at hs
    rw [← hb2]
    exact key _ (Nat.le_refl _) (lo_le_gen B hs) (Or.inr (by unfold A.relinquished; rw [hb1]))

theorem free_evs (hn : 0 < c.poolSize) {a : Pool} (h : Eos.Reach c a) {p : Nat} (hp : p ∈ a.free) : (a.nodes p).evs = [] := by
  obtain ⟨b, hb, r⟩ := sim_reach hn h
  have B := base_reach hn hb
  rw [r.free, List.mem_map] at hp
  obtain ⟨g, h2, rfl⟩ := hp
  rw [List.mem_range'] at h2
  obtain ⟨i, h3, rfl⟩ := h2
  have hw := B.win.1
  have ht : b.top ≤ b.gen + 1 := by unfold A.top; split <;> omega
  rw [r.nodes _ (by omega) (by omega), B.fut _ (by omega)]
  rfl

theorem inUse_glue {q : Pool} {evs : Nat → List Ev} {l : List Ev} {p : Nat} (h : InUse q p) : InUse (glue q evs l) p := by
  rcases h with h | h | h | ⟨cur, flag, rest, h⟩
  · exact Or.inl h
  · exact Or.inr (Or.inl h)
  · exact Or.inr (Or.inr (Or.inl (by show setCur l q.com = _; rw [h]; rfl)))
  · exact Or.inr (Or.inr (Or.inr ⟨l, flag, rest, by show setCur l q.com = _; rw [h]; rfl⟩))

/-- The lists of a node in use are the events of its transaction. -/
theorem match_used (hn : 0 < c.poolSize) (h : Reach c s) : ∃ evs l, Rel c.poolSize s evs l ∧
    (∀ p, InUse s.q p → evs p = evOf s.q.added (s.q.nodeGen p)) ∧ (∀ p ∈ s.q.free, evs p = []) ∧
    (s.q.added.map fun x => x.1.id).Nodup ∧ (s.q.fwd ≠ .swap → s.q.nodeGen s.q.onDeck = s.q.gen) := by
  obtain ⟨a, h1, evs, l, rfl, r⟩ := reach_match hn h
  refine ⟨evs, l, r, fun p hp => used_evs hn h1 (inUse_glue hp), fun p hp => free_evs hn h1 (p := p) hp, ?_, ?_⟩
  · obtain ⟨b, hb, r⟩ := sim_reach hn h1
    have B := base_reach hn hb
    have := r.added
    rw [show (glue s.q evs l).added = s.q.added from rfl] at this
    rw [this]; exact B.ids
  · obtain ⟨b, hb, r⟩ := sim_reach hn h1
    have B := base_reach hn hb
    have e1 := r.onDeck
    have e2 := r.gen
    intro hf
    have e3 := r.fwd
    rw [show (glue s.q evs l).fwd = s.q.fwd from rfl] at e3
    rw [e3] at hf
    have hw := B.win.1
    rw [top_of_ne hf] at hw
    have := r.nodeGen b.gen hw (Nat.le_refl _)
    rw [← e1, ← e2] at this
    exact this

theorem step_heap {s' : St} {lab : Label} (h : step c s lab = some s') :
    (∃ e, lab = .add e ∧ s.q.fwd = .idle ∧ (s.heap e.id).isSome = false ∧ s' = addEvent s e) ∨ (s'.heap = s.heap ∧ s'.q.added = s.q.added) := by
  by_cases hp : plain lab = true
  · have h1 : step c s lab = (Eos.step c s.q lab).map fun q => { s with q := q } := by
      cases lab <;> first | rfl | simp [plain] at hp
    rw [h1] at h
    cases hs : Eos.step c s.q lab with
    | none => rw [hs] at h; cases h
    | some q' =>
      rw [hs] at h
      cases h
      refine Or.inr ⟨rfl, ?_⟩
      cases lab <;> simp only [Eos.step] at hs <;> (repeat' split at hs) <;>
        first | cases hs; done | (cases hs; rfl) | (cases hs; exact (produce_frame _ _ _ _).2.2.2.2) | simp [plain] at hp
  · cases lab with
    | add e =>
      simp only [step] at h
      repeat' split at h
      all_goals first | cases h; done | skip
      cases h
      rename_i hh
      exact Or.inl ⟨e, rfl, by assumption, by simpa using hh, rfl⟩
    | beginCommit o =>
      simp only [step] at h
      repeat' split at h
      all_goals first | cases h; done | (cases h; exact Or.inr ⟨rfl, rfl⟩)
    | wait =>
      simp only [step] at h
      repeat' split at h
      all_goals first | cases h; done | (cases h; exact Or.inr ⟨rfl, rfl⟩) | (cases h; exact Or.inr ⟨rfl, (produce_frame _ _ _ _).2.2.2.2⟩)
    | endTxn o =>
      simp only [step] at h
      repeat' split at h
      all_goals first | cases h; done | (cases h; exact Or.inr ⟨rfl, rfl⟩)
    | release =>
      simp only [step] at h
      repeat' split at h
      all_goals first | cases h; done | (cases h; exact Or.inr ⟨rfl, rfl⟩) | skip
      cases h
      refine Or.inr ⟨rfl, ?_⟩
      unfold relinquish
      simp only
      split <;> rfl
    | _ => simp [plain] at hp

/-- The objects `i` and `j` are events of the same transaction and partition. -/
def Together (added : List (Ev × Nat)) (i j : Nat) : Prop :=
  ∃ e e' g, (e, g) ∈ added ∧ (e', g) ∈ added ∧ e.id = i ∧ e'.id = j ∧ e.part = e'.part

theorem links (hn : 0 < c.poolSize) (h : Reach c s) : ∀ i o j, s.heap i = some o → (o.prev = some j ∨ o.next = some j) → Together s.q.added i j := by
  induction h with
  | init => intro i o j h; cases h
  | @step s s' lab hr hl hs ih =>
    rcases step_heap hs with ⟨e, rfl, hf, he, rfl⟩ | ⟨h1, h2⟩
    · obtain ⟨evs, l, r, hu, _, _, hg⟩ := match_used hn hr
      have A := added_spec (s := s) (e := e) fun d hd => tail_ne r he hd
      have hmono : ∀ {i j}, Together s.q.added i j → Together (addEvent s e).q.added i j := by
        rintro i j ⟨x, y, g, h1, h2, h3⟩
        rw [A.pool]
        exact ⟨x, y, g, List.mem_append_left _ h1, List.mem_append_left _ h2, h3⟩
      have hev := hu s.q.onDeck (Or.inl ⟨rfl, by rw [hf]; simp⟩)
      rw [hg (by rw [hf]; simp)] at hev
      -- the last event of the partition is one of the transaction on deck
      have htail : ∀ t, ((s.cur s.q.onDeck).get e.part).map Dll.tail = some t → ∃ y, (y, s.q.gen) ∈ s.q.added ∧ y.id = t ∧ y.part = e.part := by
        intro t ht
        have h := (r.newest s.q.onDeck e.part).head
        rw [ht] at h
        cases hy : ((evs s.q.onDeck).filter fun x => x.part = e.part).reverse.head? with
        | none => rw [hy] at h; simp at h
        | some y =>
          rw [hy] at h
          simp only [Option.map_some, Option.some.injEq] at h
          have hm := List.mem_of_head? hy
          rw [List.mem_reverse, List.mem_filter] at hm
          exact ⟨y, mem_evOf.1 (hev ▸ hm.1), h.symm, by simpa using hm.2⟩
      have hnew : (e, s.q.gen) ∈ (addEvent s e).q.added := by rw [A.pool]; simp
      have hold : ∀ {x}, x ∈ s.q.added → x ∈ (addEvent s e).q.added := by
        intro x hx; rw [A.pool]; exact List.mem_append_left _ hx
      intro i o j hi hj
      by_cases hie : i = e.id
      · subst hie
        rw [A.self] at hi
        cases hi
        simp only [reduceCtorEq, or_false] at hj
        obtain ⟨y, h1, h2, h3⟩ := htail j hj
        exact ⟨e, y, s.q.gen, hnew, hold h1, rfl, h2, h3.symm⟩
      · by_cases hit : ((s.cur s.q.onDeck).get e.part).map Dll.tail = some i
        · obtain ⟨y, h1, h2, h3⟩ := htail i hit
          cases ho : s.heap i with
          | none =>
            have : y.id ∈ s.q.added.map fun x => x.1.id := List.mem_map.2 ⟨_, h1, rfl⟩
            rw [h2, ← r.dom, ho] at this
            cases this
          | some o0 =>
            have := A.tail i hit o0 ho
            rw [this] at hi
            cases hi
            rcases hj with hj | hj
            · exact hmono (ih i o0 j ho (Or.inl hj))
            · simp only [Option.some.injEq] at hj
              exact ⟨y, e, s.q.gen, hold h1, hnew, h2, hj, h3⟩
        · rw [A.same i hie hit] at hi
          exact hmono (ih i o j hi hj)
    · rw [h1, h2]; exact ih

end Verif.Chain

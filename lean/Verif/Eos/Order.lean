import Verif.Eos.Base
/-
The second invariant of the pool: which transaction owns a partition, and what has been passed on to the client.
-/
set_option linter.unusedSectionVars false
set_option linter.unusedSimpArgs false
namespace Verif.Eos

/-- The records of one transaction for one partition. -/
def ofTp (l : List Out) (g tp : Nat) : List Out := l.filter fun o => o.gen = g ∧ o.part = tp

theorem ofTp_append (l m : List Out) (g tp : Nat) : ofTp (l ++ m) g tp = ofTp l g tp ++ ofTp m g tp := by
  simp [ofTp]

theorem ofTp_one (o : Out) (g tp : Nat) : ofTp [o] g tp = if o.gen = g ∧ o.part = tp then [o] else [] := by
  unfold ofTp; split <;> simp_all

theorem mem_ofTp {l : List Out} {g tp : Nat} {o : Out} : o ∈ ofTp l g tp ↔ o ∈ l ∧ o.gen = g ∧ o.part = tp := by
  simp [ofTp]

/-- The buffered records of a transaction for one partition. -/
def bufOf (a : A) (g tp : Nat) : List Out :=
  ((a.nodes g).buf.filter fun b => b.1 = tp).map fun b => ⟨g, b.1, b.2⟩

structure Order (n : Nat) (a : A) : Prop where
  own1 : ∀ tp g, a.owner tp = some g → a.lo ≤ g ∧ g ≤ a.gen ∧ (a.nodes g).has tp = true ∧
    ∀ g', a.lo ≤ g' → g' < g → (a.nodes g').has tp = false
  own2 : ∀ tp, a.owner tp = none → ∀ g, a.lo ≤ g → (a.nodes g).has tp = true → g = a.gen ∧
    ∃ e, a.fwd = .added e ∧ e.part = tp ∧ ∀ e' ∈ (a.nodes g).evs, e'.part = tp → e' = e
  made : ∀ o ∈ a.calls, ∃ e, (e, o.gen) ∈ a.added ∧ e.part = o.part ∧ a.asg e.id = some o.gen
  sub : ∀ o ∈ a.sent, o ∈ a.calls
  bufs : ∀ g, a.lo ≤ g → ∀ b ∈ (a.nodes g).buf, (a.nodes g).has b.1 = true ∧ a.owner b.1 ≠ some g
  flow : ∀ g tp, (g < a.lo ∨ a.owner tp = some g ∨ (a.nodes g).has tp = false) → ofTp a.sent g tp = ofTp a.calls g tp
  hold : ∀ g tp, a.lo ≤ g → a.owner tp ≠ some g → (a.nodes g).has tp = true →
    ofTp a.sent g tp = [] ∧ bufOf a g tp = ofTp a.calls g tp
  order : ∀ tp, ((a.sent.filter fun o => o.part = tp).map Out.gen).Pairwise (· ≤ ·)

theorem order_init {n : Nat} : Order n A.init := by
  refine ⟨?_, ?_, ?_, ?_, ?_, ?_, ?_, ?_⟩ <;> simp [A.init, Node.new, Node.has, ofTp]

section
variable {n : Nat} {a : A} (B : Base n a) (O : Order n a)
include B O

/-- A call was made only by a transaction that has (or had) an event of the partition. -/
theorem call_has {g tp : Nat} (hg : a.lo < g ∨ (a.lo ≤ g ∧ a.relinquished = none)) (h : (a.nodes g).has tp = false) :
    ofTp a.calls g tp = [] := by
  rw [List.eq_nil_iff_forall_not_mem]
  intro o ho
  obtain ⟨h1, h2, h3⟩ := mem_ofTp.1 ho
  obtain ⟨e, h4, h5, _⟩ := O.made o h1
  have hx : (a.nodes g).has tp = true := by
    rw [has_iff]
    refine ⟨e, ?_, by rw [h5, h3]⟩
    rw [B.evs g (by omega) (by
      rcases hg with h | h
      · exact .inl (by omega)
      · exact .inr h.2)]
    rw [h2] at h4
    exact mem_evOf.2 h4
  rw [h] at hx; simp at hx

/-- Nothing was sent for a partition by a transaction after its owner. -/
theorem sent_le {g tp : Nat} (h : a.owner tp = some g) : ∀ o ∈ a.sent, o.part = tp → o.gen ≤ g := by
  intro o ho hp
  by_contra hc
  obtain ⟨h1, h2, h3, h4⟩ := O.own1 tp g h
  have hm : o ∈ ofTp a.sent o.gen tp := mem_ofTp.2 ⟨ho, rfl, hp⟩
  cases hh : (a.nodes o.gen).has tp with
  | true =>
    rw [(O.hold o.gen tp (by omega) (by rw [h]; simp; omega) hh).1] at hm; simp at hm
  | false =>
    rw [O.flow o.gen tp (.inr (.inr hh)), call_has B O (.inl (by omega)) hh] at hm; simp at hm

/-- The transaction being committed owns its partitions. -/
theorem own_lo (hst : a.st = a.lo + 1) {tp : Nat} (h : (a.nodes a.lo).has tp = true) : a.owner tp = some a.lo := by
  cases hh : a.owner tp with
  | none =>
    obtain ⟨h1, e, h2, _⟩ := O.own2 tp hh a.lo (Nat.le_refl _) h
    have := lo_lt_gen B (by rw [h2]; simp) hst
    omega
  | some g =>
    obtain ⟨h1, h2, h3, h4⟩ := O.own1 tp g hh
    by_cases e : a.lo = g
    · rw [e]
    · have := h4 a.lo (Nat.le_refl _) (by omega)
      rw [h] at this; simp at this

/-- Its buffer is empty. -/
theorem buf_lo (hst : a.st = a.lo + 1) : (a.nodes a.lo).buf = [] := by
  rw [List.eq_nil_iff_forall_not_mem]
  intro b hb
  obtain ⟨h1, h2⟩ := O.bufs a.lo (Nat.le_refl _) b hb
  exact h2 (own_lo B O hst h1)

end

theorem pairwise_snoc {l : List Nat} {x : Nat} (h : l.Pairwise (· ≤ ·)) (hx : ∀ y ∈ l, y ≤ x) (k : Nat) :
    (l ++ List.replicate k x).Pairwise (· ≤ ·) := by
  rw [List.pairwise_append]
  refine ⟨h, ?_, ?_⟩
  · rw [List.pairwise_replicate]; right; exact Nat.le_refl _
  · intro y hy z hz
    rw [List.mem_replicate] at hz
    rw [hz.2]; exact hx y hy

/-- A step that changes neither ownership nor contents. -/
theorem order_same {n : Nat} {a a' : A} (O : Order n a) (h1 : a'.lo = a.lo) (h3 : a'.gen = a.gen)
    (h4 : a'.fwd = a.fwd ∨ (∀ e, a.fwd ≠ .added e)) (h6 : a'.asg = a.asg) (h7 : a'.added = a.added)
    (h8 : a'.owner = a.owner) (h9 : a'.calls = a.calls) (h10 : a'.sent = a.sent)
    (he : ∀ g, (a'.nodes g).evs = (a.nodes g).evs) (hb : ∀ g, (a'.nodes g).buf = (a.nodes g).buf) :
    Order n a' := by
  have hh : ∀ g tp, (a'.nodes g).has tp = (a.nodes g).has tp := fun g tp => has_congr (he g) tp
  have hbf : ∀ g tp, bufOf a' g tp = bufOf a g tp := fun g tp => by unfold bufOf; rw [hb]
  refine ⟨?_, ?_, ?_, ?_, ?_, ?_, ?_, ?_⟩
  · simp only [h8, h1, h3, hh]; exact O.own1
  · simp only [h8, h1, h3, hh, he]
    intro tp ht g hg hx
    obtain ⟨p1, e, p2, p3⟩ := O.own2 tp ht g hg hx
    rcases h4 with h4 | h4
    · exact ⟨p1, e, by rw [h4]; exact p2, p3⟩
    · exact absurd p2 (h4 e)
  · rw [h9, h7, h6]; exact O.made
  · rw [h9, h10]; exact O.sub
  · simp only [h1, hb, hh, h8]; exact O.bufs
  · simp only [h1, h8, hh, h9, h10]; exact O.flow
  · simp only [h1, h8, hh, h9, h10, hbf]; exact O.hold
  · rw [h10]; exact O.order

/-- `ProduceRecord` on a transaction that is alive, for a partition it has. -/
theorem order_produce {n : Nat} {a : A} (B : Base n a) (O : Order n a) {g tp : Nat} (r : Rec) (hg : a.lo ≤ g)
    (hh : (a.nodes g).has tp = true) (hm : ∃ e, (e, g) ∈ a.added ∧ e.part = tp ∧ a.asg e.id = some g) :
    Order n (aproduce a g tp r) := by
  obtain ⟨f1, f2, f3, f4, f5, f6, f7, f8, f9, f10, f11⟩ := aproduce_frame a g tp r
  have he := fun g' => (aproduce_node a g tp r g').1
  have hhas : ∀ g' tp', ((aproduce a g tp r).nodes g').has tp' = (a.nodes g').has tp' := fun g' tp' => has_congr (he g') tp'
  have hmade : ∀ o ∈ (aproduce a g tp r).calls, ∃ e, (e, o.gen) ∈ (aproduce a g tp r).added ∧ e.part = o.part ∧
      (aproduce a g tp r).asg e.id = some o.gen := by
    rw [f11, f9, f8]
    intro o ho
    rcases List.mem_append.1 ho with ho | ho
    · exact O.made o ho
    · simp at ho; subst ho; exact hm
  have hown1 : ∀ tp' g', (aproduce a g tp r).owner tp' = some g' → (aproduce a g tp r).lo ≤ g' ∧ g' ≤ (aproduce a g tp r).gen ∧
      ((aproduce a g tp r).nodes g').has tp' = true ∧
      ∀ g'', (aproduce a g tp r).lo ≤ g'' → g'' < g' → ((aproduce a g tp r).nodes g'').has tp' = false := by
    simp only [f4, f1, f3, hhas]; exact O.own1
  have hown2 : ∀ tp', (aproduce a g tp r).owner tp' = none → ∀ g', (aproduce a g tp r).lo ≤ g' →
      ((aproduce a g tp r).nodes g').has tp' = true → g' = (aproduce a g tp r).gen ∧
      ∃ e, (aproduce a g tp r).fwd = .added e ∧ e.part = tp' ∧ ∀ e' ∈ ((aproduce a g tp r).nodes g').evs, e'.part = tp' → e' = e := by
    simp only [f4, f1, f3, hhas, he, f5]; exact O.own2
  by_cases ho : a.owner tp = some g
  · have hs : (aproduce a g tp r).sent = a.sent ++ [⟨g, tp, r⟩] := by unfold aproduce; simp [ho]
    have hb : ∀ g', ((aproduce a g tp r).nodes g').buf = (a.nodes g').buf := by
      intro g'; unfold aproduce; simp only [ho, if_true]; by_cases e : g' = g <;> simp [upd, e]
    have hbf : ∀ g' tp', bufOf (aproduce a g tp r) g' tp' = bufOf a g' tp' := fun g' tp' => by unfold bufOf; rw [hb]
    refine ⟨hown1, hown2, hmade, ?_, ?_, ?_, ?_, ?_⟩
    · rw [hs, f11]
      intro o h
      rcases List.mem_append.1 h with h | h
      · exact List.mem_append.2 (.inl (O.sub o h))
      · exact List.mem_append.2 (.inr h)
    · simp only [f1, hb, hhas, f4]; exact O.bufs
    · intro g' tp'
      simp only [f1, f4, hhas, hs, f11, ofTp_append]
      intro h; rw [O.flow g' tp' h]
    · intro g' tp'
      simp only [f1, f4, hhas, hs, f11, ofTp_append, hbf]
      intro h1 h2 h3
      have hne : ¬ (g = g' ∧ tp = tp') := by rintro ⟨rfl, rfl⟩; exact h2 ho
      rw [ofTp_one, if_neg (by simpa using hne), List.append_nil, List.append_nil]
      exact O.hold g' tp' h1 h2 h3
    · intro tp'
      rw [hs, List.filter_append, List.map_append]
      by_cases e : tp' = tp
      · subst e
        have := pairwise_snoc (O.order tp') (x := g) (by
          intro y hy
          obtain ⟨o, ho', rfl⟩ := List.mem_map.1 hy
          simp only [List.mem_filter, decide_eq_true_eq] at ho'
          exact sent_le B O ho o ho'.1 ho'.2) 1
        simpa using this
      · have : ¬ tp = tp' := fun h => e h.symm
        simpa [this] using O.order tp'
  · have hs : (aproduce a g tp r).sent = a.sent := by unfold aproduce; simp [ho]
    have hb : ∀ g', ((aproduce a g tp r).nodes g').buf = if g' = g then (a.nodes g).buf ++ [(tp, r)] else (a.nodes g').buf := by
      intro g'; unfold aproduce; simp only [ho, if_false]; by_cases e : g' = g <;> simp [upd, e]
    refine ⟨hown1, hown2, hmade, ?_, ?_, ?_, ?_, ?_⟩
    · rw [hs, f11]; intro o h; exact List.mem_append.2 (.inl (O.sub o h))
    · intro g' hg' b hbm
      rw [f1] at hg'
      rw [hb] at hbm
      rw [hhas, f4]
      split at hbm
      · rename_i e; subst e
        rcases List.mem_append.1 hbm with hbm | hbm
        · exact O.bufs g' hg' b hbm
        · simp at hbm; subst hbm; exact ⟨hh, ho⟩
      · exact O.bufs g' hg' b hbm
    · intro g' tp'
      simp only [f1, f4, hhas, hs, f11, ofTp_append]
      intro h
      have hne : ¬ (g = g' ∧ tp = tp') := by
        rintro ⟨rfl, rfl⟩
        rcases h with h | h | h
        · omega
        · exact ho h
        · rw [hh] at h; simp at h
      rw [ofTp_one, if_neg (by simpa using hne), List.append_nil]
      exact O.flow g' tp' h
    · intro g' tp'
      simp only [f1, f4, hhas, hs, f11, ofTp_append]
      intro h1 h2 h3
      obtain ⟨q1, q2⟩ := O.hold g' tp' h1 h2 h3
      refine ⟨q1, ?_⟩
      rw [← q2, ofTp_one]
      unfold bufOf
      rw [hb]
      by_cases e : g' = g
      · subst e
        by_cases e2 : tp = tp'
        · subst e2; simp
        · simp [e2]
      · have : ¬ g = g' := fun h => e h.symm
        simp [e, this]
    · rw [hs]; exact O.order

theorem find_range_none {p : Nat → Bool} {s k : Nat} (h : (List.range' s k).find? p = none) :
    ∀ g, s ≤ g → g < s + k → p g = false := by
  intro g h1 h2
  rw [List.find?_eq_none] at h
  have := h g (by rw [List.mem_range']; exact ⟨g - s, by omega, by omega⟩)
  simpa using this

theorem find_range_some {p : Nat → Bool} : ∀ {k s q : Nat}, (List.range' s k).find? p = some q →
    s ≤ q ∧ q < s + k ∧ p q = true ∧ ∀ g, s ≤ g → g < q → p g = false := by
  intro k
  induction k with
  | zero => intro s q h; simp at h
  | succ k ih =>
    intro s q h
    rw [List.range'_succ, List.find?_cons] at h
    split at h
    · rename_i hp
      cases h
      exact ⟨Nat.le_refl _, by omega, hp, fun g h1 h2 => by omega⟩
    · rename_i hp
      obtain ⟨h1, h2, h3, h4⟩ := ih h
      refine ⟨by omega, by omega, h3, ?_⟩
      intro g hg1 hg2
      by_cases e : g = s
      · subst e; simpa using hp
      · exact h4 g (by omega) hg2

theorem order_step {c : Cfg} {a a' : A} (l : Label) (B : Base c.poolSize a) (O : Order c.poolSize a)
    (h : astep c a l = some a') : Order c.poolSize a' := by
  cases l with
  | add e =>
    have key : a.fwd = .idle ∧ (∀ r, a.com ≠ .relinq r) ∧
        a' = { a with
          nodes := upd a.nodes a.gen { a.nodes a.gen with
            evs := (a.nodes a.gen).evs ++ [e], cnt := (a.nodes a.gen).cnt + 1 }
          fwd := .added e
          added := a.added ++ [(e, a.gen)] } := by
      unfold astep at h
      simp only at h
      split at h
      · simp at h
      · rename_i h1 h2
        split at h
        · simp at h
        · exact ⟨h1, fun r hr => h2 r hr, (Option.some.inj h).symm⟩
      · simp at h
    obtain ⟨hf, hc, rfl⟩ := key
    have hlg : a.lo ≤ a.gen := by
      have := B.win.1
      rwa [top_of_ne (by rw [hf]; simp)] at this
    have hhas : ∀ g tp, ((upd a.nodes a.gen { a.nodes a.gen with
            evs := (a.nodes a.gen).evs ++ [e], cnt := (a.nodes a.gen).cnt + 1 }) g).has tp =
        ((a.nodes g).has tp || decide (g = a.gen ∧ e.part = tp)) := by
      intro g tp
      by_cases h1 : g = a.gen
      · subst h1; simp [upd, Node.has]
      · simp [upd, h1]
    have hbuf : ∀ g, ((upd a.nodes a.gen { a.nodes a.gen with
            evs := (a.nodes a.gen).evs ++ [e], cnt := (a.nodes a.gen).cnt + 1 }) g).buf = (a.nodes g).buf := by
      intro g
      by_cases h1 : g = a.gen <;> simp [upd, h1]
    have hrel : a.lo < a.gen ∨ a.lo ≤ a.gen ∧ a.relinquished = none := by
      by_cases hr : a.relinquished = none
      · exact .inr ⟨hlg, hr⟩
      · exact .inl (lo_lt_gen B (by rw [hf]; simp) (relinq_st B hr))
    refine ⟨?_, ?_, ?_, ?_, ?_, ?_, ?_, ?_⟩
    · intro tp g ho
      obtain ⟨h1, h2, h3, h4⟩ := O.own1 tp g ho
      refine ⟨h1, h2, by rw [hhas, h3]; rfl, ?_⟩
      intro g' h5 h6
      rw [hhas, h4 g' h5 h6]
      have : ¬ g' = a.gen := by omega
      simp [this]
    · intro tp ho g hg hx
      simp only at ho hg hx ⊢
      rw [hhas] at hx
      have hno : (a.nodes g).has tp = false := by
        cases hh : (a.nodes g).has tp with
        | false => rfl
        | true =>
          obtain ⟨_, e', h2, _⟩ := O.own2 tp ho g hg hh
          rw [hf] at h2; simp at h2
      rw [hno] at hx
      simp at hx
      obtain ⟨rfl, hp⟩ := hx
      refine ⟨rfl, e, rfl, hp, ?_⟩
      intro e' he' hp'
      simp only [upd_same] at he'
      rcases List.mem_append.1 he' with he' | he'
      · have : (a.nodes a.gen).has tp = true := has_iff.2 ⟨e', he', hp'⟩
        rw [hno] at this; simp at this
      · simpa using he'
    · intro o ho
      obtain ⟨e', h1, h2⟩ := O.made o ho
      exact ⟨e', by simp [h1], h2⟩
    · exact O.sub
    · intro g hg b hb
      simp only at hb ⊢
      rw [hbuf] at hb
      rw [hhas]
      obtain ⟨h1, h2⟩ := O.bufs g hg b hb
      exact ⟨by rw [h1]; rfl, h2⟩
    · intro g tp hor
      simp only at hor ⊢
      rw [hhas] at hor
      refine O.flow g tp ?_
      rcases hor with h | h | h
      · exact .inl h
      · exact .inr (.inl h)
      · simp at h; exact .inr (.inr h.1)
    · intro g tp hg ho hx
      have hbf : bufOf { a with
          nodes := upd a.nodes a.gen { a.nodes a.gen with
            evs := (a.nodes a.gen).evs ++ [e], cnt := (a.nodes a.gen).cnt + 1 }
          fwd := .added e
          added := a.added ++ [(e, a.gen)] } g tp = bufOf a g tp := by
        unfold bufOf; simp only; rw [hbuf]
      rw [hbf]
      simp only at hg ho hx ⊢
      rw [hhas] at hx
      cases hh : (a.nodes g).has tp with
      | true => exact O.hold g tp hg ho hh
      | false =>
        rw [hh] at hx
        simp at hx
        obtain ⟨rfl, hp⟩ := hx
        have hcall := call_has B O hrel hh
        rw [O.flow a.gen tp (.inr (.inr hh)), hcall]
        refine ⟨rfl, ?_⟩
        unfold bufOf
        rw [List.map_eq_nil_iff, List.filter_eq_nil_iff]
        intro b hb hbt
        simp at hbt
        have := (O.bufs a.gen hlg b hb).1
        rw [hbt, hh] at this; simp at this
    · exact O.order
  | give =>
    unfold astep at h
    simp only at h
    split at h
    · rename_i e hf
      cases h
      have hadd := B.adding e hf
      have hlg : a.lo ≤ a.gen := by
        have := B.win.1
        rwa [top_of_ne (by rw [hf]; simp)] at this
      have hrel : a.lo < a.gen ∨ a.lo ≤ a.gen ∧ a.relinquished = none := by
        by_cases hr : a.relinquished = none
        · exact .inr ⟨hlg, hr⟩
        · exact .inl (lo_lt_gen B (by rw [hf]; simp) (relinq_st B hr))
      have hin : e ∈ (a.nodes a.gen).evs := by
        rw [B.evs a.gen hlg (by
          rcases hrel with h | h
          · exact .inl (by omega)
          · exact .inr h.2)]
        exact mem_evOf.2 hadd.1
      have hhas : (a.nodes a.gen).has e.part = true := has_iff.2 ⟨e, hin, rfl⟩
      have hmade : ∀ o ∈ a.calls, ∃ e', (e', o.gen) ∈ a.added ∧ e'.part = o.part ∧
          upd a.asg e.id (some a.gen) e'.id = some o.gen := by
        intro o ho
        obtain ⟨e', h1, h2, h3⟩ := O.made o ho
        refine ⟨e', h1, h2, ?_⟩
        rw [upd_ne]
        · exact h3
        · intro hc; rw [hc, hadd.2] at h3; simp at h3
      by_cases hn : a.owner e.part = none
      · obtain ⟨_, e0, h1, h2, h3⟩ := O.own2 _ hn a.gen hlg hhas
        have he0 : e0 = e := by rw [hf] at h1; simpa using h1.symm
        subst he0
        have hcall : ofTp a.calls a.gen e0.part = [] := by
          rw [List.eq_nil_iff_forall_not_mem]
          intro o ho
          obtain ⟨k1, k2, k3⟩ := mem_ofTp.1 ho
          obtain ⟨e', k4, k5, k6⟩ := O.made o k1
          have : e' ∈ (a.nodes a.gen).evs := by
            rw [B.evs a.gen hlg (by
              rcases hrel with h | h
              · exact .inl (by omega)
              · exact .inr h.2)]
            rw [k2] at k4
            exact mem_evOf.2 k4
          have := h3 e' this (by rw [k5, k3])
          subst this
          rw [hadd.2] at k6; simp at k6
        obtain ⟨q1, q2⟩ := O.hold a.gen e0.part hlg (by rw [hn]; simp) hhas
        refine ⟨?_, ?_, hmade, O.sub, ?_, ?_, ?_, O.order⟩
        · intro tp g ho
          simp only [hn, if_true] at ho ⊢
          by_cases e1 : tp = e0.part
          · subst e1
            rw [upd_same] at ho
            cases ho
            refine ⟨hlg, Nat.le_refl _, hhas, ?_⟩
            intro g' h5 h6
            cases hh : (a.nodes g').has e0.part with
            | false => rfl
            | true => have := (O.own2 _ hn g' h5 hh).1; omega
          · rw [upd_ne _ _ e1] at ho; exact O.own1 tp g ho
        · intro tp ho g hg hx
          simp only [hn, if_true] at ho hg hx ⊢
          by_cases e1 : tp = e0.part
          · subst e1; rw [upd_same] at ho; simp at ho
          · rw [upd_ne _ _ e1] at ho
            obtain ⟨_, e', k1, k2, _⟩ := O.own2 tp ho g hg hx
            rw [hf] at k1
            cases k1
            exact absurd k2.symm e1
        · intro g hg b hb
          simp only [hn, if_true] at hb ⊢
          obtain ⟨k1, k2⟩ := O.bufs g hg b hb
          refine ⟨k1, ?_⟩
          by_cases e1 : b.1 = e0.part
          · rw [e1, upd_same]
            intro hc
            cases hc
            rw [hcall] at q2
            unfold bufOf at q2
            rw [List.map_eq_nil_iff, List.filter_eq_nil_iff] at q2
            exact q2 b hb (by simpa using e1)
          · rw [upd_ne _ _ e1]; exact k2
        · intro g tp hor
          simp only [hn, if_true] at hor ⊢
          by_cases e1 : tp = e0.part
          · subst e1
            rw [upd_same] at hor
            rcases hor with h | h | h
            · exact O.flow g _ (.inl h)
            · cases h; rw [q1, hcall]
            · exact O.flow g _ (.inr (.inr h))
          · rw [upd_ne _ _ e1] at hor; exact O.flow g tp hor
        · intro g tp hg ho hx
          simp only [hn, if_true] at ho hx ⊢
          refine O.hold g tp hg ?_ hx
          by_cases e1 : tp = e0.part
          · subst e1; rw [hn]; simp
          · rwa [upd_ne _ _ e1] at ho
      · refine ⟨?_, ?_, hmade, O.sub, ?_, ?_, ?_, O.order⟩
        · simp only [hn, if_false]; exact O.own1
        · simp only [hn, if_false]
          intro tp ho g hg hx
          obtain ⟨_, e', k1, k2, _⟩ := O.own2 tp ho g hg hx
          rw [hf] at k1
          cases k1
          rw [k2] at hn
          exact absurd ho hn
        · simp only [hn, if_false]; exact O.bufs
        · simp only [hn, if_false]; exact O.flow
        · simp only [hn, if_false]; exact O.hold
    · simp at h
  | check =>
    unfold astep at h
    simp only at h
    split at h
    · rename_i hf
      cases h
      exact order_same O rfl rfl (.inr (by rw [hf]; simp)) rfl rfl rfl rfl rfl (fun _ => rfl) (fun _ => rfl)
    · simp at h
  | tick =>
    unfold astep at h
    simp only at h
    split at h
    · rename_i hf
      cases h
      exact order_same O rfl rfl (.inr (by rw [hf]; simp)) rfl rfl rfl rfl rfl (fun _ => rfl) (fun _ => rfl)
    · simp at h
  | tryFlush =>
    unfold astep at h
    simp only at h
    split at h
    · rename_i hf
      repeat' split at h
      all_goals
        cases h
        exact order_same O rfl rfl (.inr (by rw [hf]; simp)) rfl rfl rfl rfl rfl (fun _ => rfl) (fun _ => rfl)
    · simp at h
  | forced =>
    unfold astep at h
    simp only at h
    split at h
    · rename_i hf
      split at h
      · cases h
        exact order_same O rfl rfl (.inr (by rw [hf]; simp)) rfl rfl rfl rfl rfl (fun _ => rfl) (fun _ => rfl)
      · simp at h
    · simp at h
  | swapIn =>
    unfold astep at h
    simp only at h
    split at h
    · rename_i hf
      split at h
      · cases h
        refine ⟨?_, ?_, O.made, O.sub, O.bufs, O.flow, O.hold, O.order⟩
        · intro tp g ho
          obtain ⟨h1, h2, h3⟩ := O.own1 tp g ho
          exact ⟨h1, by simp only; omega, h3⟩
        · intro tp ho g hg hx
          obtain ⟨_, e', k1, _⟩ := O.own2 tp ho g hg hx
          rw [hf] at k1; simp at k1
      · simp at h
    · simp at h
  | take =>
    unfold astep at h
    simp only at h
    split at h
    · split at h
      · cases h
        exact order_same O rfl rfl (.inl rfl) rfl rfl rfl rfl rfl (fun _ => rfl) (fun _ => rfl)
      · simp at h
    · simp at h
  | beginCommit order =>
    unfold astep at h
    simp only at h
    split at h
    · rename_i hc
      split at h
      · cases h
        have hst := B.st
        rw [hc] at hst
        have hbuf := buf_lo B O hst
        have hown : (abeginCommit a).owner = a.owner := by
          funext tp
          unfold abeginCommit
          simp only
          split
          · rename_i hh; rw [own_lo B O hst hh]
          · rfl
        have hsent : (abeginCommit a).sent = a.sent := by
          unfold abeginCommit; simp [hbuf]
        refine order_same (a := a) (a' := { abeginCommit a with com := .fin [] false order }) O rfl rfl (.inl rfl) rfl rfl hown rfl hsent ?_ ?_
        · intro g; unfold abeginCommit; by_cases e : g = a.lo <;> simp [upd, e]
        · intro g; unfold abeginCommit; by_cases e : g = a.lo <;> simp [upd, e]
      · simp at h
    · simp at h
  | wait =>
    unfold astep at h
    simp only at h
    split at h
    · rename_i e es flag rest hc
      have hst := B.st
      rw [hc] at hst
      have hrel : a.relinquished = none := by simp [A.relinquished, hc]
      split at h
      · rename_i hd
        split at h
        · rename_i o hoff
          cases h
          obtain ⟨dn, ct, p1, p2, p3⟩ := B.fin _ _ _ hc
          have hin : e ∈ (a.nodes a.lo).evs := by
            cases ct with
            | none => simp at p3
            | some tp =>
              obtain ⟨pre, q1, _⟩ := p3
              have : e ∈ (a.nodes a.lo).chain tp := by rw [q1]; simp
              exact (mem_chain.1 this).1
          have hadd : (e, a.lo) ∈ a.added := by
            rw [B.evs a.lo (Nat.le_refl _) (.inr hrel)] at hin
            exact mem_evOf.1 hin
          have hO := order_produce B O (.commit e.part (o + 1)) (Nat.le_refl a.lo) (has_iff.2 ⟨e, hin, rfl⟩)
            ⟨e, hadd, rfl, by
              rcases B.asg2 e a.lo hadd with h | ⟨_, h1, h2⟩
              · exact h
              · have := lo_lt_gen B (by rw [h1]; simp) hst
                omega⟩
          exact order_same hO rfl rfl (.inl rfl) rfl rfl rfl rfl rfl (fun _ => rfl) (fun _ => rfl)
        · cases h
          exact order_same O rfl rfl (.inl rfl) rfl rfl rfl rfl rfl (fun _ => rfl) (fun _ => rfl)
      · simp at h
    · cases h
      exact order_same O rfl rfl (.inl rfl) rfl rfl rfl rfl rfl (fun _ => rfl) (fun _ => rfl)
    · simp at h
  | endTxn order =>
    unfold astep at h
    simp only at h
    split at h
    · split at h
      · cases h
        exact order_same O rfl rfl (.inl rfl) rfl rfl rfl rfl rfl (fun _ => rfl) (fun _ => rfl)
      · simp at h
    · simp at h
  | release =>
    unfold astep at h
    simp only at h
    split at h
    · rename_i tp rest hc
      cases h
      have hst := B.st
      rw [hc] at hst
      have hlg := lo_le_gen B hst
      have hbuf := buf_lo B O hst
      have hnadd : ∀ e, a.fwd = .added e → (a.nodes a.gen).has e.part = true ∧ a.lo < a.gen := by
        intro e hf
        have h1 := lo_lt_gen B (by rw [hf]; simp) hst
        refine ⟨has_iff.2 ⟨e, ?_, rfl⟩, h1⟩
        rw [B.evs a.gen hlg (.inl (by omega))]
        exact mem_evOf.2 (B.adding e hf).1
      have hsame : ∀ a1 : A, ∀ r, Order c.poolSize a1 → Order c.poolSize { a1 with com := .relinq r } := fun a1 r h1 =>
        order_same h1 rfl rfl (.inl rfl) rfl rfl rfl rfl rfl (fun _ => rfl) (fun _ => rfl)
      apply hsame
      have hlo : a.owner tp = some a.lo :=
        own_lo B O hst (B.rhas (tp :: rest) (by simp [A.relinquished, hc]) tp (by simp))
      -- what the two outcomes of the search have in common
      suffices H : ∀ (ow : Option Nat) (nodes : Nat → Node) (sn : List Out),
          (∀ g t, (nodes g).has t = ((a.nodes g).has t && !decide (g = a.lo ∧ t = tp))) →
          (∀ g, a.lo < g → (nodes g).evs = (a.nodes g).evs) →
          (∀ g, (nodes g).buf = if ow = some g then (a.nodes g).buf.filter (fun b => b.1 ≠ tp) else (a.nodes g).buf) →
          (match ow with
           | none => (∀ g, a.lo < g → (a.nodes g).has tp = false) ∧ sn = a.sent
           | some q => a.lo < q ∧ q ≤ a.gen ∧ (a.nodes q).has tp = true ∧
              (∀ g, a.lo < g → g < q → (a.nodes g).has tp = false) ∧ sn = a.sent ++ bufOf a q tp) →
          Order c.poolSize { a with owner := upd a.owner tp ow, nodes := nodes, sent := sn } by
        unfold arelinquish
        simp only
        split
        · rename_i q hq
          obtain ⟨q1, q2, q3, q4⟩ := find_range_some hq
          have hql : q ≠ a.lo := by omega
          have hqg : q ≤ a.gen := by
            by_contra hgt
            rw [B.fut q (by omega)] at q3
            simp [Node.new, Node.has] at q3
          refine H (some q) _ _ ?_ ?_ ?_ ⟨by omega, hqg, q3, fun g h1 h2 => q4 g (by omega) h2, rfl⟩
          · intro g t
            rw [Bool.eq_iff_iff]
            rw [has_iff]
            simp only [Bool.and_eq_true, has_iff, Bool.not_eq_true', decide_eq_false_iff_not]
            by_cases e1 : g = a.lo
            · subst e1
              simp only [upd_same, aflushPartition, upd_ne _ _ (Ne.symm hql), List.mem_filter, decide_eq_true_eq, true_and]
              constructor
              · rintro ⟨e, ⟨h1, h2⟩, h3⟩; exact ⟨⟨e, h1, h3⟩, by rw [← h3]; exact h2⟩
              · rintro ⟨⟨e, h1, h3⟩, h2⟩; exact ⟨e, ⟨h1, by rw [h3]; exact h2⟩, h3⟩
            · simp only [upd_ne _ _ e1, aflushPartition, e1, false_and, not_false_eq_true, and_true]
              by_cases e2 : g = q
              · subst e2; rw [upd_same]
              · rw [upd_ne _ _ e2]
          · intro g hg
            rw [upd_ne _ _ (by omega)]
            simp only [aflushPartition]
            by_cases e2 : g = q
            · subst e2; rw [upd_same]
            · rw [upd_ne _ _ e2]
          · intro g
            by_cases e1 : g = a.lo
            · subst e1
              rw [upd_same, if_neg (by simpa using hql)]
              simp only [aflushPartition, upd_ne _ _ (Ne.symm hql)]
            · rw [upd_ne _ _ e1]
              simp only [aflushPartition]
              by_cases e2 : g = q
              · subst e2; rw [upd_same, if_pos rfl]
              · rw [upd_ne _ _ e2, if_neg (by simpa using Ne.symm e2)]
        · rename_i hq
          have hq' := find_range_none hq
          refine H none _ _ ?_ ?_ ?_ ⟨?_, rfl⟩
          · intro g t
            rw [Bool.eq_iff_iff]
            rw [has_iff]
            simp only [Bool.and_eq_true, has_iff, Bool.not_eq_true', decide_eq_false_iff_not]
            by_cases e1 : g = a.lo
            · subst e1
              simp only [upd_same, List.mem_filter, decide_eq_true_eq, true_and]
              constructor
              · rintro ⟨e, ⟨h1, h2⟩, h3⟩; exact ⟨⟨e, h1, h3⟩, by rw [← h3]; exact h2⟩
              · rintro ⟨⟨e, h1, h3⟩, h2⟩; exact ⟨e, ⟨h1, by rw [h3]; exact h2⟩, h3⟩
            · simp only [upd_ne _ _ e1, e1, false_and, not_false_eq_true, and_true]
          · intro g hg; rw [upd_ne _ _ (by omega)]
          · intro g; simp only [if_neg (show ¬ (none : Option Nat) = some g by simp)]
            by_cases e1 : g = a.lo
            · subst e1; rw [upd_same]
            · rw [upd_ne _ _ e1]
          · intro g hg
            by_cases h1 : g < a.lo + 1 + (c.poolSize - 1)
            · exact hq' g (by omega) h1
            · rw [B.fut g (by have := B.win.2; omega)]; simp [Node.new, Node.has]
      intro ow nodes sn hhas hevs hbufs how
      have hbf : ∀ g t, ow = some g → t ≠ tp →
          ((nodes g).buf.filter fun b => b.1 = t) = ((a.nodes g).buf.filter fun b => b.1 = t) := by
        intro g t h1 h2
        rw [hbufs, if_pos h1, List.filter_filter]
        apply List.filter_congr
        intro b _
        by_cases e1 : b.1 = t
        · simp [e1, h2]
        · simp [e1]
      have hsn : ∀ g t, (ow ≠ some g ∨ t ≠ tp) → ofTp sn g t = ofTp a.sent g t := by
        intro g t hor
        cases ow with
        | none => rw [how.2]
        | some q =>
          rw [how.2.2.2.2, ofTp_append]
          suffices h : ofTp (bufOf a q tp) g t = [] by rw [h, List.append_nil]
          rw [List.eq_nil_iff_forall_not_mem]
          intro o ho
          obtain ⟨h1, h2, h3⟩ := mem_ofTp.1 ho
          unfold bufOf at h1
          obtain ⟨b, h4, rfl⟩ := List.mem_map.1 h1
          simp only [List.mem_filter, decide_eq_true_eq] at h4
          simp only at h2 h3
          rcases hor with h | h
          · exact h (by rw [h2])
          · exact h (by rw [← h3, h4.2])
      refine ⟨?_, ?_, O.made, ?_, ?_, ?_, ?_, ?_⟩
      · intro t g ho
        simp only at ho ⊢
        by_cases e1 : t = tp
        · subst e1
          rw [upd_same] at ho
          subst ho
          obtain ⟨h1, h2, h3, h4, _⟩ := how
          refine ⟨by omega, h2, ?_, ?_⟩
          · rw [hhas, h3]; simp; omega
          · intro g' h5 h6
            rw [hhas]
            by_cases e2 : g' = a.lo
            · simp [e2]
            · rw [h4 g' (by omega) h6]; rfl
        · rw [upd_ne _ _ e1] at ho
          obtain ⟨h1, h2, h3, h4⟩ := O.own1 t g ho
          refine ⟨h1, h2, by rw [hhas, h3]; simp [e1], ?_⟩
          intro g' h5 h6
          rw [hhas, h4 g' h5 h6]; rfl
      · intro t ho g hg hx
        simp only at ho hg hx ⊢
        rw [hhas] at hx
        by_cases e1 : t = tp
        · subst e1
          rw [upd_same] at ho
          subst ho
          by_cases e2 : g = a.lo
          · simp [e2] at hx
          · rw [how.1 g (by omega)] at hx; simp at hx
        · rw [upd_ne _ _ e1] at ho
          simp [e1] at hx
          obtain ⟨h1, e, h2, h3, h4⟩ := O.own2 t ho g hg hx
          have h5 := (hnadd e h2).2
          refine ⟨h1, e, h2, h3, ?_⟩
          rw [hevs g (by omega)]; exact h4
      · intro o ho
        simp only at ho ⊢
        cases ow with
        | none => rw [how.2] at ho; exact O.sub o ho
        | some q =>
          obtain ⟨h1, h2, h3, h4, h5⟩ := how
          rw [h5] at ho
          rcases List.mem_append.1 ho with ho | ho
          · exact O.sub o ho
          · rw [(O.hold q tp (by omega) (by rw [hlo]; simp; omega) h3).2] at ho
            exact (mem_ofTp.1 ho).1
      · intro g hg b hb
        simp only at hb ⊢
        have hb0 : b ∈ (a.nodes g).buf := by
          rw [hbufs] at hb
          split at hb
          · exact (List.mem_filter.1 hb).1
          · exact hb
        have hgl : g ≠ a.lo := by rintro rfl; rw [hbuf] at hb0; simp at hb0
        obtain ⟨h1, h2⟩ := O.bufs g hg b hb0
        refine ⟨by rw [hhas, h1]; simp [hgl], ?_⟩
        by_cases e1 : b.1 = tp
        · rw [e1, upd_same]
          intro hc'
          rw [hbufs, if_pos hc'] at hb
          have := (List.mem_filter.1 hb).2
          simp [e1] at this
        · rw [upd_ne _ _ e1]; exact h2
      · intro g t hor
        simp only at hor ⊢
        by_cases e1 : t = tp
        · subst e1
          by_cases e2 : ow = some g
          · subst e2
            obtain ⟨h1, h2, h3, h4, h5⟩ := how
            have hh := O.hold g t (by omega) (by rw [hlo]; simp; omega) h3
            rw [h5, ofTp_append, hh.1, List.nil_append, hh.2]
            unfold ofTp
            rw [List.filter_filter]
            simp
          · rw [hsn g t (.inl e2)]
            rw [upd_same] at hor
            by_cases e3 : g = a.lo
            · subst e3; exact O.flow _ t (.inr (.inl hlo))
            · refine O.flow g t ?_
              rcases hor with h | h | h
              · exact .inl h
              · exact absurd h e2
              · right; right
                rw [hhas] at h
                simpa [e3] using h
        · rw [hsn g t (.inr e1)]
          rw [upd_ne _ _ e1, hhas] at hor
          refine O.flow g t ?_
          simpa [e1] using hor
      · intro g t hg ho hx
        simp only at ho hx ⊢
        rw [hhas] at hx
        have hgx : (a.nodes g).has t = true := by
          cases hh : (a.nodes g).has t with
          | true => rfl
          | false => rw [hh] at hx; simp at hx
        have hno : ow ≠ some g ∨ t ≠ tp := by
          by_cases e1 : t = tp
          · subst e1; rw [upd_same] at ho; exact .inl ho
          · exact .inr e1
        have hb1 : bufOf { a with owner := upd a.owner tp ow, nodes := nodes, sent := sn } g t = bufOf a g t := by
          unfold bufOf
          simp only
          by_cases e2 : ow = some g
          · rw [hbf g t e2 (by
              rcases hno with h | h
              · exact absurd e2 h
              · exact h)]
          · rw [hbufs, if_neg e2]
        rw [hsn g t hno, hb1]
        refine O.hold g t hg ?_ hgx
        by_cases e1 : t = tp
        · subst e1
          rw [hlo]
          intro hc'
          cases hc'
          simp at hx
        · rwa [upd_ne _ _ e1] at ho
      · intro t
        simp only
        cases ow with
        | none => rw [how.2]; exact O.order t
        | some q =>
          obtain ⟨h1, h2, h3, h4, h5⟩ := how
          rw [h5, List.filter_append, List.map_append]
          by_cases e1 : t = tp
          · subst e1
            have hrep : ((bufOf a q t).filter fun o => o.part = t).map Out.gen = List.replicate (bufOf a q t).length q := by
              have : ((bufOf a q t).filter fun o => o.part = t) = bufOf a q t := by
                rw [List.filter_eq_self]
                intro o ho
                unfold bufOf at ho
                obtain ⟨b, h6, rfl⟩ := List.mem_map.1 ho
                simpa using (List.mem_filter.1 h6).2
              rw [this, List.eq_replicate_iff]
              refine ⟨by simp, ?_⟩
              intro x hx
              obtain ⟨o, h6, rfl⟩ := List.mem_map.1 hx
              unfold bufOf at h6
              obtain ⟨b, _, rfl⟩ := List.mem_map.1 h6
              rfl
            rw [hrep]
            refine pairwise_snoc (O.order t) ?_ _
            intro y hy
            obtain ⟨o, h6, rfl⟩ := List.mem_map.1 hy
            simp only [List.mem_filter, decide_eq_true_eq] at h6
            have := sent_le B O hlo o h6.1 h6.2
            omega
          · have : ((bufOf a q tp).filter fun o => o.part = t) = [] := by
              rw [List.filter_eq_nil_iff]
              intro o ho
              unfold bufOf at ho
              obtain ⟨b, h6, rfl⟩ := List.mem_map.1 ho
              have h7 := (List.mem_filter.1 h6).2
              simp at h7
              simp [h7]
              exact fun h => e1 h.symm
            rw [this]
            simpa using O.order t
    · cases h
      have hst := B.st
      have hc : a.com = .relinq [] := by assumption
      rw [hc] at hst
      have hbuf := buf_lo B O hst
      refine order_same (a := a) O rfl rfl (.inl rfl) rfl rfl rfl rfl rfl ?_ ?_
      · intro g; by_cases e : g = a.lo <;> simp [upd, e, Node.clear]
      · intro g; by_cases e : g = a.lo <;> simp [upd, e, Node.clear, hbuf]
    · simp at h
  | giveBack =>
    unfold astep at h
    simp only at h
    split at h
    · rename_i hc
      cases h
      have hcl := B.clean hc
      have hno : ∀ tp, (a.nodes a.lo).has tp = false := by intro tp; rw [hcl]; simp [Node.new, Node.has]
      refine ⟨?_, ?_, O.made, O.sub, ?_, ?_, ?_, O.order⟩
      · intro tp g ho
        obtain ⟨h1, h2, h3, h4⟩ := O.own1 tp g ho
        refine ⟨?_, h2, h3, fun g' h5 h6 => h4 g' (by simp only at h5; omega) h6⟩
        have : g ≠ a.lo := by rintro rfl; rw [hno] at h3; simp at h3
        simp only; omega
      · intro tp ho g hg hx
        exact O.own2 tp ho g (by simp only at hg; omega) hx
      · intro g hg; exact O.bufs g (by simp only at hg; omega)
      · intro g tp hor
        by_cases e : g = a.lo
        · subst e; exact O.flow _ tp (.inr (.inr (hno tp)))
        · refine O.flow g tp ?_
          rcases hor with h | h
          · exact .inl (by simp only at h; omega)
          · exact .inr h
      · intro g tp hg; exact O.hold g tp (by simp only at hg; omega)
    · simp at h
  | commitFail cont =>
    unfold astep at h
    simp only at h
    split at h
    · split at h
      · simp at h
      · cases h
        exact order_same O rfl rfl (.inl rfl) rfl rfl rfl rfl rfl (fun _ => rfl) (fun _ => rfl)
    · simp at h
  | asyncFail =>
    unfold astep at h
    simp only at h
    split at h
    · cases h
      exact order_same O rfl rfl (.inl rfl) rfl rfl rfl rfl rfl (fun _ => rfl) (fun _ => rfl)
    · simp at h
  | produce e x =>
    unfold astep at h
    simp only at h
    split at h
    · rename_i g hg
      split at h
      · rename_i hh
        cases h
        obtain ⟨⟨e', g'⟩, he', rfl⟩ := List.mem_map.1 hh.1
        obtain ⟨e2, k1, k2⟩ := B.asg1 _ _ hg
        obtain ⟨rfl, rfl⟩ := added_unique B k1 he' k2
        obtain ⟨m1, m2, m3⟩ := alive B he' hh.2
        exact order_produce B O _ m1 m3 ⟨_, he', rfl, hg⟩
      · simp at h
    · simp at h
  | complete e =>
    unfold astep at h
    simp only at h
    split at h
    · split at h
      · cases h
        exact order_same O rfl rfl (.inl rfl) rfl rfl rfl rfl rfl (fun _ => rfl) (fun _ => rfl)
      · simp at h
    · simp at h

theorem order_reach {c : Cfg} (hn : 0 < c.poolSize) {a : A} (h : AReach c a) : Order c.poolSize a := by
  induction h with
  | init => exact order_init
  | step l hr hs ih => exact order_step l (base_reach hn hr) ih hs

end Verif.Eos

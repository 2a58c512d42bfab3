import Verif.Marks.Spec
import Verif.Eos.Proofs
/-
Proofs for C73.
-/
namespace Verif.Marks
open Verif.Eos

/-- The marks of a transaction for a partition. -/
def genMarks (added : List (Ev × Nat)) (g tp : Nat) : List (Nat × Nat) :=
  ((evOf added g).filter fun e => e.part = tp).reverse.filterMap fun e => e.off.map fun o => (tp, o)

theorem marksOfPart_eq (nd : Node) (tp : Nat) {added : List (Ev × Nat)} {g : Nat} (h : nd.evs = evOf added g) :
    marksOfPart nd tp = genMarks added g tp := by
  unfold marksOfPart genMarks Node.chain
  rw [h]
  apply List.filterMap_congr
  intro e he
  simp only [List.mem_reverse, List.mem_filter, decide_eq_true_eq] at he
  rw [← he.2]
  cases e.off <;> rfl

theorem filter_marksOfPart (nd : Node) (tp tp' : Nat) :
    (marksOfPart nd tp).filter (fun m => m.1 = tp') = if tp = tp' then marksOfPart nd tp else [] := by
  have hall : ∀ m ∈ marksOfPart nd tp, m.1 = tp := by
    intro m hm
    unfold marksOfPart Node.chain at hm
    obtain ⟨e, he, h⟩ := List.mem_filterMap.1 hm
    simp only [List.mem_reverse, List.mem_filter, decide_eq_true_eq] at he
    split at h
    · cases h; exact he.2
    · simp at h
  split
  · rename_i h
    rw [List.filter_eq_self]
    intro m hm
    simp [hall m hm, h]
  · rename_i h
    rw [List.filter_eq_nil_iff]
    intro m hm
    simp [hall m hm, h]

theorem filter_flatMap {α : Type} (f : Nat → List α) (p : α → Bool) (l : List Nat) :
    (l.flatMap f).filter p = l.flatMap fun x => (f x).filter p := by
  induction l with
  | nil => rfl
  | cons x l ih => simp [List.flatMap_cons, List.filter_append, ih]

theorem flatMap_single {α : Type} (x : List α) (tp : Nat) : ∀ (l : List Nat), l.Nodup →
    (l.flatMap fun y => if y = tp then x else []) = if tp ∈ l then x else [] := by
  intro l
  induction l with
  | nil => intro _; simp
  | cons y l ih =>
    intro h
    rw [List.nodup_cons] at h
    rw [List.flatMap_cons, ih h.2]
    by_cases e : y = tp
    · subst e
      simp [h.1]
    · have e' : ¬ tp = y := fun h => e h.symm
      simp [e, e']

theorem filter_marksOf (nd : Node) (order : List Nat) (h : IsOrder order nd.parts) (tp : Nat) :
    (marksOf true nd order).filter (fun m => m.1 = tp) = marksOfPart nd tp := by
  unfold marksOf
  rw [filter_flatMap]
  simp only [if_true]
  have : (order.flatMap fun x => (marksOfPart nd x).filter fun m => m.1 = tp) =
      order.flatMap fun y => if y = tp then marksOfPart nd tp else [] := by
    congr 1
    funext y
    rw [filter_marksOfPart]
    split
    · rename_i e; rw [e]
    · rfl
  rw [this, flatMap_single _ _ _ (h.nodup_iff.2 (parts_nodup nd))]
  split
  · rfl
  · rename_i hm
    have : ¬ ∃ e ∈ nd.evs, e.part = tp := fun hh => hm ((List.Perm.mem_iff h).2 (mem_parts.2 hh))
    unfold marksOfPart Node.chain
    rw [List.filter_eq_nil_iff.2]
    · rfl
    · intro e he hp
      exact this ⟨e, he, by simpa using hp⟩

theorem marksOf_false (nd : Node) (order : List Nat) : marksOf false nd order = [] := by
  simp [marksOf]

/-- What a step of the pool does to the list of ended transactions. -/
theorem ended_step {c : Cfg} {s s' : Pool} {l : Label} (h : Eos.step c s l = some s') :
    (s'.ended = s.ended ∧ ∀ o, l ≠ .endTxn o) ∨
    ∃ p f o, l = .endTxn o ∧ s.com = .fin p [] f [] ∧
      s'.ended = s.ended ++ [(s.nodeGen p, decide ((s.nodes p).produceCnt ≠ 0))] := by
  have hp : ∀ p tp r, (produce s p tp r).ended = s.ended := by
    intro p tp r; unfold produce; dsimp only; split <;> rfl
  have hr : ∀ n p tp, (relinquish n s p tp).ended = s.ended := by
    intro n p tp; unfold relinquish; dsimp only; split <;> rfl
  cases l with
  | endTxn o =>
    unfold Eos.step at h
    simp only at h
    split at h
    · rename_i p f hc
      split at h
      · cases h; exact .inr ⟨p, f, o, rfl, hc, rfl⟩
      · simp at h
    · simp at h
  | _ =>
    refine .inl ⟨?_, by intro o; simp⟩
    unfold Eos.step at h
    simp only at h
    repeat' split at h
    all_goals first
      | (cases h; rfl)
      | (cases h; exact hp _ _ _)
      | (cases h; exact hr _ _ _)
      | simp at h

theorem reach_pool {c : Cfg} {on : Bool} {s : St} (h : Reach c on s) : Eos.Reach c s.pool ∧ s.on = on := by
  induction h with
  | init => exact ⟨.init, rfl⟩
  | step l order _ hl hs ih =>
    unfold step at hs
    split at hs
    · simp at hs
    · rename_i pool' hp
      split at hs
      · split at hs
        · cases hs; exact ⟨.step _ ih.1 hl hp, ih.2⟩
        · simp at hs
      · cases hs; exact ⟨.step _ ih.1 hl hp, ih.2⟩

/-- The marks of a partition are those of the ended transactions, one after the other, each from the newest event to the oldest. -/
theorem marks_eq {c : Cfg} (hn : 0 < c.poolSize) {on : Bool} {s : St} (h : Reach c on s) (tp : Nat) :
    s.marks.filter (fun m => m.1 = tp) =
      if on then (s.pool.ended.map Prod.fst).flatMap fun g => genMarks s.pool.added g tp else [] := by
  induction h with
  | init => cases on <;> simp [St.init, Pool.init]
  | @step s s' l order hr hl hs ih =>
    obtain ⟨hpool, hon⟩ := reach_pool hr
    obtain ⟨a, ha, r, B, O, F, H⟩ := ended_old hn hpool
    -- the ended transactions keep their events
    have hkeep : ∀ pool', Eos.step c s.pool l = some pool' → ∀ g, g ∈ s.pool.ended.map Prod.fst →
        genMarks pool'.added g tp = genMarks s.pool.added g tp := by
      intro pool' hp g hg
      obtain ⟨a', h2, r'⟩ := sim_step hn l hl B O r hp
      rw [r.ended] at hg
      have := (frozen l B F h2 hg).2.1
      unfold genMarks evOf
      rw [r'.added, r.added, this]
    have hfm : ∀ pool', Eos.step c s.pool l = some pool' →
        ((s.pool.ended.map Prod.fst).flatMap fun g => genMarks pool'.added g tp) =
        (s.pool.ended.map Prod.fst).flatMap fun g => genMarks s.pool.added g tp := by
      intro pool' hp
      rw [List.flatMap_def, List.flatMap_def]
      congr 1
      apply List.map_congr_left
      intro g hg
      exact hkeep pool' hp g hg
    unfold step at hs
    split at hs
    · simp at hs
    · rename_i pool' hp
      rcases ended_step hp with ⟨he, hne⟩ | ⟨p, f, o, rfl, hc, he⟩
      · split at hs
        · exact absurd rfl (hne _)
        · cases hs
          dsimp only
          rw [ih, he, hfm pool' hp]
      · rw [hc] at hs
        simp only at hs
        split at hs
        · rename_i hord
          cases hs
          dsimp only
          rw [List.filter_append, ih, he, hon]
          cases on with
          | false => simp [marksOf_false]
          | true =>
            simp only [if_true, List.map_append, List.flatMap_append, hfm pool' hp]
            congr 1
            rw [filter_marksOf _ _ hord]
            -- the node of the transaction that ends
            have hcom := r.com
            rw [hc] at hcom
            have hac : a.com = .fin [] f [] ∧ p = a.lo % c.poolSize := by
              cases hx : a.com with
              | fin cur fl rest =>
                rw [hx] at hcom
                simp only [toCom, Com.fin.injEq] at hcom
                obtain ⟨h1, h2, h3, h4⟩ := hcom
                subst h2; subst h3; subst h4
                exact ⟨rfl, h1⟩
              | _ => rw [hx] at hcom; simp [toCom] at hcom
            have hst : a.st = a.lo + 1 := by have := B.st; rw [hac.1] at this; exact this
            have hrel : a.relinquished = none := by unfold A.relinquished; rw [hac.1]
            have hev : (s.pool.nodes p).evs = evOf s.pool.added a.lo := by
              rw [hac.2, r.nodes a.lo (Nat.le_refl _) (by omega), B.evs a.lo (Nat.le_refl _) (.inr hrel), r.added]
            have hgen : s.pool.nodeGen p = a.lo := by
              rw [hac.2]; exact r.nodeGen a.lo (Nat.le_refl _) (lo_le_gen B hst)
            have hadd : pool'.added = s.pool.added := by
              have : Eos.step c s.pool (.endTxn o) = some pool' := hp
              unfold Eos.step at this
              rw [hc] at this
              simp only at this
              split at this
              · cases this; rfl
              · simp at this
            rw [marksOfPart_eq _ _ hev, hadd]
            simp [hgen]
        · simp at hs

/-! ### The highest mark -/

/-- One step of `groupOffset`. -/
def bump (tp : Nat) (h : Option Nat) (m : Nat × Nat) : Option Nat :=
  if m.1 = tp then
    match h with
    | none => some (m.2 + 1)
    | some k => some (if k < m.2 + 1 then m.2 + 1 else k)
  else h

theorem groupOffset_eq (l : List (Nat × Nat)) (tp : Nat) : groupOffset l tp = l.foldl (bump tp) none := rfl

theorem bump_fold (tp : Nat) : ∀ (l : List (Nat × Nat)) (h : Option Nat),
    (∀ k, l.foldl (bump tp) h = some k →
      (h = some k ∨ ∃ m ∈ l, m.1 = tp ∧ k = m.2 + 1) ∧ (∀ j, h = some j → j ≤ k) ∧ ∀ m ∈ l, m.1 = tp → m.2 < k) ∧
    (l.foldl (bump tp) h = none → h = none ∧ ∀ m ∈ l, m.1 ≠ tp) := by
  intro l
  induction l with
  | nil =>
    intro h
    refine ⟨fun k hk => ⟨.inl hk, fun j hj => ?_, by simp⟩, fun hk => ⟨hk, by simp⟩⟩
    simp only [List.foldl_nil] at hk
    rw [hk] at hj; cases hj; exact Nat.le_refl _
  | cons m l ih =>
    intro h
    obtain ⟨h1, h2⟩ := ih (bump tp h m)
    simp only [List.foldl_cons]
    by_cases e : m.1 = tp
    · have hb : ∃ b, bump tp h m = some b ∧ m.2 + 1 ≤ b ∧ (∀ j, h = some j → j ≤ b) ∧ (h = some b ∨ b = m.2 + 1) := by
        unfold bump
        rw [if_pos e]
        cases h with
        | none => exact ⟨m.2 + 1, rfl, Nat.le_refl _, by simp, .inr rfl⟩
        | some k =>
          by_cases hlt : k < m.2 + 1
          · exact ⟨m.2 + 1, by simp [hlt], Nat.le_refl _, by intro j hj; cases hj; omega, .inr rfl⟩
          · exact ⟨k, by simp [hlt], by omega, by intro j hj; cases hj; omega, .inl rfl⟩
      obtain ⟨b, hb1, hb2, hb3, hb4⟩ := hb
      constructor
      · intro k hk
        obtain ⟨q1, q2, q3⟩ := h1 k hk
        have hbk := q2 b hb1
        refine ⟨?_, fun j hj => Nat.le_trans (hb3 j hj) hbk, ?_⟩
        · rcases q1 with q1 | ⟨m', hm', q⟩
          · rw [hb1] at q1; cases q1
            rcases hb4 with hb4 | hb4
            · exact .inl hb4
            · exact .inr ⟨m, List.mem_cons_self .., e, hb4⟩
          · exact .inr ⟨m', List.mem_cons_of_mem _ hm', q⟩
        · intro m' hm' e'
          rcases List.mem_cons.1 hm' with rfl | hm'
          · omega
          · exact q3 m' hm' e'
      · intro hk
        rw [hb1] at h2
        exact absurd (h2 (by rw [hb1] at hk; exact hk)).1 (by simp)
    · have hb : bump tp h m = h := by unfold bump; rw [if_neg e]
      rw [hb] at h1 h2 ⊢
      constructor
      · intro k hk
        obtain ⟨q1, q2, q3⟩ := h1 k hk
        refine ⟨?_, q2, ?_⟩
        · rcases q1 with q1 | ⟨m', hm', q⟩
          · exact .inl q1
          · exact .inr ⟨m', List.mem_cons_of_mem _ hm', q⟩
        · intro m' hm' e'
          rcases List.mem_cons.1 hm' with rfl | hm'
          · exact absurd e' e
          · exact q3 m' hm' e'
      · intro hk
        refine ⟨(h2 hk).1, ?_⟩
        intro m' hm'
        rcases List.mem_cons.1 hm' with rfl | hm'
        · exact e
        · exact (h2 hk).2 m' hm'

theorem groupOffset_some {l : List (Nat × Nat)} {tp k : Nat} (h : groupOffset l tp = some k) :
    (∃ o, (tp, o) ∈ l ∧ k = o + 1) ∧ ∀ o, (tp, o) ∈ l → o < k := by
  rw [groupOffset_eq] at h
  obtain ⟨h1, _, h3⟩ := (bump_fold tp l none).1 k h
  refine ⟨?_, fun o ho => h3 _ ho rfl⟩
  rcases h1 with h1 | ⟨⟨x, y⟩, hm, rfl, q⟩
  · simp at h1
  · exact ⟨y, hm, q⟩

theorem groupOffset_none {l : List (Nat × Nat)} {tp : Nat} (h : groupOffset l tp = none) : ∀ o, (tp, o) ∉ l := by
  rw [groupOffset_eq] at h
  intro o ho
  exact ((bump_fold tp l none).2 h).2 _ ho rfl

/-! ### Lists over the ended transactions -/

theorem range_last {α : Type} (f : Nat → List α) : ∀ (K : Nat) (x : α), ((List.range K).flatMap f).getLast? = some x →
    ∃ g, g < K ∧ x ∈ f g ∧ ∀ g', g < g' → g' < K → f g' = [] := by
  intro K
  induction K with
  | zero => intro x h; simp at h
  | succ K ih =>
    intro x h
    rw [List.range_succ, List.flatMap_append, List.getLast?_append] at h
    simp only [List.flatMap_cons, List.flatMap_nil, List.append_nil] at h
    cases hf : f K with
    | nil =>
      rw [hf] at h
      obtain ⟨g, h1, h2, h3⟩ := ih x (by simpa using h)
      refine ⟨g, by omega, h2, fun g' q1 q2 => ?_⟩
      by_cases e : g' = K
      · rw [e, hf]
      · exact h3 g' q1 (by omega)
    | cons y l =>
      refine ⟨K, by omega, ?_, fun g' q1 q2 => by omega⟩
      rw [List.getLast?_eq_getLast_of_ne_nil (by rw [hf]; simp)] at h
      simp only [Option.some_or, Option.some.injEq] at h
      rw [← h]
      exact List.getLast_mem _

theorem mem_genMarks {added : List (Ev × Nat)} {g tp : Nat} {m : Nat × Nat} :
    m ∈ genMarks added g tp ↔ ∃ e, (e, g) ∈ added ∧ e.part = tp ∧ e.off = some m.2 ∧ m.1 = tp := by
  unfold genMarks
  simp only [List.mem_filterMap, List.mem_reverse, List.mem_filter, decide_eq_true_eq, mem_evOf, Option.map_eq_some_iff]
  constructor
  · rintro ⟨e, ⟨h1, h2⟩, o, h3, rfl⟩
    exact ⟨e, h1, h2, h3, rfl⟩
  · rintro ⟨e, h1, h2, h3, h4⟩
    exact ⟨e, ⟨h1, h2⟩, m.2, h3, by rw [← h4]⟩

theorem mem_marks {c : Cfg} (hn : 0 < c.poolSize) {on : Bool} {s : St} (h : Reach c on s) {tp o : Nat} :
    (tp, o) ∈ s.marks ↔ on = true ∧ ∃ e g, (e, g) ∈ s.pool.added ∧ g ∈ s.pool.ended.map Prod.fst ∧ e.part = tp ∧
      e.off = some o := by
  have h1 := marks_eq hn h tp
  have h2 : (tp, o) ∈ s.marks ↔ (tp, o) ∈ s.marks.filter fun m => m.1 = tp := by simp
  rw [h2, h1]
  cases on with
  | false => simp
  | true =>
    simp only [if_true, List.mem_flatMap, true_and]
    constructor
    · rintro ⟨g, hg, hm⟩
      obtain ⟨e, q1, q2, q3, _⟩ := mem_genMarks.1 hm
      exact ⟨e, g, q1, hg, q2, q3⟩
    · rintro ⟨e, g, q1, hg, q2, q3⟩
      exact ⟨g, hg, mem_genMarks.2 ⟨e, q1, q2, q3, rfl⟩⟩

end Verif.Marks

import Verif.Eos.Sim
/-
Facts about the pool itself, taken over from the view by transactions.
-/
set_option linter.unusedSectionVars false
set_option linter.unusedSimpArgs false
namespace Verif.Eos

/-- What a step does to the records and the events of a transaction that has ended: nothing. -/
theorem frozen {c : Cfg} {a a' : A} (l : Label) (B : Base c.poolSize a) (F : Fin a)
    (h : astep c a l = some a') {g : Nat} (hg : g ∈ a.ended.map Prod.fst) :
    (a'.calls.filter fun o => o.gen = g) = (a.calls.filter fun o => o.gen = g) ∧
    (a'.added.filter fun x => x.2 = g) = (a.added.filter fun x => x.2 = g) ∧
    ∃ m, a'.ended = a.ended ++ m := by
  have hlt : g < a.lo ∨ (g = a.lo ∧ a.relinquished ≠ none) := by
    rw [F.ended, List.mem_range] at hg
    split at hg
    · exact .inl hg
    · by_cases e : g = a.lo
      · exact .inr ⟨e, by assumption⟩
      · exact .inl (by omega)
  have hpr : ∀ g' tp r, g' ≠ g → ((aproduce a g' tp r).calls.filter fun o => o.gen = g) = (a.calls.filter fun o => o.gen = g) := by
    intro g' tp r hne
    rw [(aproduce_frame a g' tp r).2.2.2.2.2.2.2.2.2.2, List.filter_append]
    simp [hne]
  cases l with
  | add e =>
    unfold astep at h
    simp only at h
    split at h
    · simp at h
    · rename_i hf hc
      split at h
      · simp at h
      · cases h
        refine ⟨rfl, ?_, [], by simp⟩
        have hne : ¬ a.gen = g := by
          rcases hlt with h | ⟨h, h'⟩
          · have := B.win.1
            rw [top_of_ne (by rw [hf]; simp)] at this
            omega
          · have := lo_lt_gen B (by rw [hf]; simp) (relinq_st B h')
            omega
        simp [hne]
    · simp at h
  | wait =>
    unfold astep at h
    simp only at h
    split at h
    · rename_i hc
      have hg' : a.lo ≠ g := by
        rcases hlt with h | ⟨h, h'⟩
        · omega
        · simp [A.relinquished, hc] at h'
      split at h
      · split at h
        · cases h
          exact ⟨hpr _ _ _ hg', by simp only; rw [(aproduce_frame _ _ _ _).2.2.2.2.2.2.2.2.1], [],
            by simp only; rw [(aproduce_frame _ _ _ _).2.2.2.2.2.2.2.2.2.1, List.append_nil]⟩
        · cases h; exact ⟨rfl, rfl, [], by simp⟩
      · simp at h
    · cases h; exact ⟨rfl, rfl, [], by simp⟩
    · simp at h
  | produce e x =>
    unfold astep at h
    simp only at h
    split at h
    · rename_i g' hg'
      split at h
      · rename_i hh
        cases h
        obtain ⟨⟨e', g2⟩, he', rfl⟩ := List.mem_map.1 hh.1
        obtain ⟨e2, k1, k2⟩ := B.asg1 _ _ hg'
        obtain ⟨rfl, rfl⟩ := added_unique B k1 he' k2
        have hne : g' ≠ g := by
          rintro rfl
          rcases hlt with h | ⟨h, h'⟩
          · exact hh.2 (B.old _ _ he' h)
          · subst h; exact hh.2 (B.last h' _ he')
        exact ⟨hpr _ _ _ hne, by rw [(aproduce_frame _ _ _ _).2.2.2.2.2.2.2.2.1], [],
          by rw [(aproduce_frame _ _ _ _).2.2.2.2.2.2.2.2.2.1, List.append_nil]⟩
      · simp at h
    · simp at h
  | release =>
    unfold astep at h
    simp only at h
    split at h
    · cases h
      rename_i tp rest hc
      have hfr : (arelinquish c.poolSize a tp).calls = a.calls ∧
          (arelinquish c.poolSize a tp).added = a.added ∧ (arelinquish c.poolSize a tp).ended = a.ended := by
        unfold arelinquish; split <;> simp [aflushPartition]
      exact ⟨by simp only; rw [hfr.1], by simp only; rw [hfr.2.1], [], by simp only; rw [hfr.2.2, List.append_nil]⟩
    · cases h; exact ⟨rfl, rfl, [], by simp⟩
    · simp at h
  | endTxn order =>
    unfold astep at h
    simp only at h
    split at h
    · split at h
      · cases h; exact ⟨rfl, rfl, _, rfl⟩
      · simp at h
    · simp at h
  | _ =>
    unfold astep at h
    simp only at h
    repeat' split at h
    all_goals first
      | (cases h; exact ⟨rfl, rfl, [], by simp [abeginCommit]⟩)
      | simp at h

section
variable {c : Cfg} (hn : 0 < c.poolSize) {s : Pool} (h : Reach c s)
include hn h

theorem ended_old : ∃ a, AReach c a ∧ R c.poolSize s a ∧ Base c.poolSize a ∧ Order c.poolSize a ∧ Fin a ∧
    ∀ g, g ∈ s.ended.map Prod.fst → g < a.lo ∨ (g = a.lo ∧ a.relinquished ≠ none) := by
  obtain ⟨a, ha, r⟩ := sim_reach hn h
  have F := fin_reach hn ha
  refine ⟨a, ha, r, base_reach hn ha, order_reach hn ha, F, ?_⟩
  intro g hg
  rw [r.ended, F.ended, List.mem_range] at hg
  split at hg
  · exact .inl hg
  · by_cases e : g = a.lo
    · exact .inr ⟨e, by assumption⟩
    · exact .inl (by omega)

theorem ended_done {g : Nat} (hg : g ∈ s.ended.map Prod.fst) : ∀ e, (e, g) ∈ s.added → e.id ∈ s.done := by
  obtain ⟨a, ha, r, B, O, F, H⟩ := ended_old hn h
  intro e he
  rw [r.added] at he
  rw [r.done]
  rcases H g hg with h1 | ⟨rfl, h2⟩
  · exact B.old e g he h1
  · exact B.last h2 e he

theorem ended_sent {g : Nat} (hg : g ∈ s.ended.map Prod.fst) (tp : Nat) :
    ofTp s.sent g tp = ofTp s.calls g tp := by
  obtain ⟨a, ha, r, B, O, F, H⟩ := ended_old hn h
  rw [r.sent, r.calls]
  rcases H g hg with h1 | ⟨rfl, h2⟩
  · exact O.flow g tp (.inl h1)
  · cases hh : (a.nodes a.lo).has tp with
    | false => exact O.flow _ tp (.inr (.inr hh))
    | true => exact O.flow _ tp (.inr (.inl (own_lo B O (relinq_st B h2) hh)))

theorem ended_commits {g : Nat} (hg : g ∈ s.ended.map Prod.fst) (tp : Nat) :
    commits s.sent g tp = expect (evOf s.added g) tp := by
  have h1 := ended_sent hn h hg tp
  obtain ⟨a, ha, r, B, O, F, H⟩ := ended_old hn h
  have h2 := F.past g tp (H g hg)
  unfold commits at h2 ⊢
  rw [h1, r.calls, r.added, h2]

end

theorem newest_none {evs : List Ev} {tp : Nat} (h : ∀ e ∈ evs, e.part = tp → e.off = none) : newest evs tp = none := by
  unfold newest
  have : ((evs.filter fun e => e.part = tp).reverse.filterMap Ev.off) = [] := by
    rw [List.filterMap_eq_nil_iff]
    intro e he
    simp only [List.mem_reverse, List.mem_filter, decide_eq_true_eq] at he
    exact h e he.1 he.2
  rw [this]; rfl

theorem newest_some {pre post : List Ev} {e : Ev} {tp o : Nat} (hp : e.part = tp) (ho : e.off = some o)
    (h : ∀ x ∈ post, x.part = tp → x.off = none) : newest (pre ++ e :: post) tp = some o := by
  have h1 := newest_none h
  unfold newest at h1 ⊢
  rw [List.filter_append, List.filter_cons, if_pos (by simpa using hp), List.reverse_append, List.reverse_cons,
    List.filterMap_append, List.filterMap_append]
  have h2 : ((post.filter fun e => e.part = tp).reverse.filterMap Ev.off) = [] := by
    simpa using h1
  rw [h2]
  simp [ho]

/-- The size of a transaction, for C06. -/
structure Small (c : Cfg) (a : A) : Prop where
  all : ∀ g, (evOf a.added g).length ≤ c.max
  idle : a.fwd = .idle → (evOf a.added a.gen).length < c.max

/-- States reached when the number of records of the transaction on deck is at most `max` whenever `tryFlush` looks at it. -/
inductive ReachFew (c : Cfg) : Pool → Prop where
  | init : ReachFew c (Pool.init c)
  | step {s s' : Pool} (l : Label) : ReachFew c s → l ≠ .commitFail true →
      (l = .tryFlush → (s.nodes s.onDeck).produceCnt ≤ c.max) → step c s l = some s' → ReachFew c s'

theorem ReachFew.reach {c : Cfg} {s : Pool} (h : ReachFew c s) : Reach c s := by
  induction h with
  | init => exact .init
  | step l _ hl _ hs ih => exact .step l ih hl hs

theorem small_step {c : Cfg} (ht : c.target ≤ c.max) (hmax : 0 < c.max) {a a' : A} (l : Label)
    (B : Base c.poolSize a) (S : Small c a)
    (hfew : l = .tryFlush → (a.nodes a.gen).produceCnt ≤ c.max) (h : astep c a l = some a') : Small c a' := by
  have hcnt : a.fwd ≠ .swap → (a.nodes a.gen).cnt = (evOf a.added a.gen).length := by
    intro hne
    have h1 := B.win.1
    rw [top_of_ne hne] at h1
    refine B.cnt a.gen h1 ?_
    by_cases hb : a.com = .back
    · left
      have := lo_lt_gen B hne (relinq_st B (by simp [A.relinquished, hb]))
      omega
    · exact .inr hb
  cases l with
  | add e =>
    unfold astep at h
    simp only at h
    split at h
    · simp at h
    · rename_i hf hc
      split at h
      · simp at h
      · cases h
        have := S.idle hf
        refine ⟨?_, by simp⟩
        intro g
        simp only
        rw [evOf_snoc]
        split
        · rename_i e1; subst e1; simp; omega
        · exact S.all g
    · simp at h
  | give =>
    unfold astep at h
    simp only at h
    split at h
    · cases h; exact ⟨S.all, by simp⟩
    · simp at h
  | check =>
    unfold astep at h
    simp only at h
    split at h
    · rename_i hf
      cases h
      refine ⟨S.all, ?_⟩
      intro hi
      simp only at hi ⊢
      split at hi
      · simp at hi
      · rename_i hlt
        have := hcnt (by rw [hf]; simp)
        rw [← this]
        unfold Node.load at hlt
        have h1 : (a.nodes a.gen).cnt ≤ Nat.max (a.nodes a.gen).cnt (a.nodes a.gen).produceCnt := Nat.le_max_left _ _
        omega
    · simp at h
  | tick =>
    unfold astep at h
    simp only at h
    split at h
    · cases h; exact ⟨S.all, by simp⟩
    · simp at h
  | tryFlush =>
    have hp := hfew rfl
    unfold astep at h
    simp only at h
    split at h
    · rename_i hf
      have h0 := hcnt (by rw [hf]; simp)
      have h1 := S.all a.gen
      have key : (a.nodes a.gen).load ≠ c.max → (evOf a.added a.gen).length < c.max := by
        intro hne
        unfold Node.load at hne
        rw [← h0] at h1 ⊢
        by_contra hc
        apply hne
        have : (a.nodes a.gen).cnt = c.max := by omega
        rw [this]
        exact Nat.max_eq_left hp
      repeat' split at h
      · cases h; exact ⟨S.all, by simp⟩
      · cases h; exact ⟨S.all, by simp⟩
      · cases h; exact ⟨S.all, fun _ => key (by assumption)⟩
      · cases h; exact ⟨S.all, fun _ => key (by assumption)⟩
    · simp at h
  | forced =>
    unfold astep at h
    simp only at h
    split at h
    · split at h
      · cases h; exact ⟨S.all, by simp⟩
      · simp at h
    · simp at h
  | swapIn =>
    unfold astep at h
    simp only at h
    split at h
    · split at h
      · cases h
        refine ⟨S.all, fun _ => ?_⟩
        simp only
        rw [evOf_nil]
        · exact hmax
        · intro x hx; have := B.le x hx; omega
      · simp at h
    · simp at h
  | release =>
    unfold astep at h
    simp only at h
    split at h
    · cases h
      rename_i tp rest hc
      have hfr : (arelinquish c.poolSize a tp).gen = a.gen ∧ (arelinquish c.poolSize a tp).fwd = a.fwd ∧
          (arelinquish c.poolSize a tp).added = a.added := by
        unfold arelinquish; split <;> simp [aflushPartition]
      obtain ⟨f1, f2, f3⟩ := hfr
      exact ⟨by simp only; rw [f3]; exact S.all, by simp only; rw [f3, f2, f1]; exact S.idle⟩
    · cases h; exact ⟨S.all, S.idle⟩
    · simp at h
  | wait =>
    unfold astep at h
    simp only at h
    split at h
    · split at h
      · split at h
        · cases h
          exact ⟨by simp only; rw [(aproduce_frame _ _ _ _).2.2.2.2.2.2.2.2.1]; exact S.all,
            by simp only; rw [(aproduce_frame _ _ _ _).2.2.2.2.2.2.2.2.1, (aproduce_frame _ _ _ _).2.2.2.2.1,
                (aproduce_frame _ _ _ _).2.2.1]; exact S.idle⟩
        · cases h; exact ⟨S.all, S.idle⟩
      · simp at h
    · cases h; exact ⟨S.all, S.idle⟩
    · simp at h
  | produce e x =>
    unfold astep at h
    simp only at h
    split at h
    · rename_i g' hg'
      split at h
      · cases h
        obtain ⟨f1, f2, f3, f4, f5, f6, f7, f8, f9, _⟩ := aproduce_frame a g' e.part (.user x)
        exact ⟨by rw [f9]; exact S.all, by rw [f9, f5, f3]; exact S.idle⟩
      · simp at h
    · simp at h
  | _ =>
    unfold astep at h
    simp only at h
    repeat' split at h
    all_goals first
      | (cases h; exact ⟨S.all, S.idle⟩)
      | simp at h

theorem small_reach {c : Cfg} (hn : 0 < c.poolSize) (ht : c.target ≤ c.max) (hmax : 0 < c.max) {s : Pool}
    (h : ReachFew c s) : ∃ a, AReach c a ∧ R c.poolSize s a ∧ Small c a := by
  induction h with
  | init => exact ⟨_, .init, sim_init hn, by simp [A.init, evOf], by simp [A.init, evOf, hmax]⟩
  | step l _ hl hf hs ih =>
    obtain ⟨a, h1, r, S⟩ := ih
    have B := base_reach hn h1
    obtain ⟨a', h2, r'⟩ := sim_step hn l hl B (order_reach hn h1) r hs
    refine ⟨a', .step l h1 h2, r', small_step ht hmax l B S ?_ h2⟩
    intro hlt
    have h3 := hf hlt
    subst hlt
    have hfw : a.fwd = .trying := by
      unfold astep at h2
      simp only at h2
      split at h2
      · assumption
      · simp at h2
    have h4 := B.win
    rw [top_of_ne (by rw [hfw]; simp)] at h4
    rw [r.onDeck, r.nodes a.gen h4.1 h4.2] at h3
    exact h3

end Verif.Eos

import Verif.Fleet.NoLoss
/-
Proofs for C94: exactly once, if workers start in order.
-/
namespace Verif.Fleet
open Verif.Eos Verif.Exact Verif.Effects

variable {c : Cfg} {src : Nat → List Nat} {w w' : World}

/-- The offsets of a partition in transactions from number `K` on. -/
def from_ (added : List (Ev × Nat)) (K tp : Nat) : List Nat :=
  (added.filter fun x => x.1.part = tp ∧ K ≤ x.2).filterMap fun x => x.1.off

/-- The offsets of a partition whose transactions have not ended. -/
def pend (i : Inc) (tp : Nat) : List Nat := from_ i.pool.added i.pool.ended.length tp

theorem mem_from {added : List (Ev × Nat)} {K tp o : Nat} :
    o ∈ from_ added K tp ↔ ∃ e g, (e, g) ∈ added ∧ e.part = tp ∧ e.off = some o ∧ K ≤ g := by
  unfold from_
  rw [List.mem_filterMap]
  constructor
  · rintro ⟨⟨e, g⟩, h1, h2⟩
    rw [List.mem_filter] at h1
    have : e.part = tp ∧ K ≤ g := by simpa using h1.2
    exact ⟨e, g, h1.1, this.1, h2, this.2⟩
  · rintro ⟨e, g, h1, h2, h3, h4⟩
    exact ⟨(e, g), List.mem_filter.2 ⟨h1, by simpa using ⟨h2, h4⟩⟩, h3⟩

/-- The offsets of transaction `K` come first. -/
theorem from_split {added : List (Ev × Nat)} (hm : (added.map Prod.snd).Pairwise (· ≤ ·)) (K tp : Nat) :
    from_ added K tp = ((evOf added K).filter fun e => e.part = tp).filterMap Ev.off ++ from_ added (K + 1) tp := by
  induction added with
  | nil => rfl
  | cons x l ih =>
    rw [List.map_cons, List.pairwise_cons] at hm
    have ih := ih hm.2
    unfold from_ evOf at ih ⊢
    by_cases hp : x.1.part = tp
    · rcases Nat.lt_trichotomy x.2 K with h | h | h
      · have a1 : ¬ K ≤ x.2 := by omega
        have a2 : ¬ K + 1 ≤ x.2 := by omega
        have a3 : ¬ x.2 = K := by omega
        simp only [List.filter_cons, hp, a1, a2, a3, and_false, decide_false, Bool.false_eq_true, if_false]
        exact ih
      · subst h
        have a2 : ¬ x.2 + 1 ≤ x.2 := by omega
        simp only [List.filter_cons, hp, a2, Nat.le_refl, and_self, and_false, decide_false, decide_true, if_true, Bool.false_eq_true,
          if_false, List.map_cons]
        cases ho : x.1.off with
        | none => simp only [List.filterMap_cons, ho]; exact ih
        | some o => simp only [List.filterMap_cons, ho, List.cons_append]; rw [ih]
      · -- all later ones are beyond K too
        have a1 : K ≤ x.2 := by omega
        have a2 : K + 1 ≤ x.2 := by omega
        have a3 : ¬ x.2 = K := by omega
        have hnone : (l.filter fun y => decide (y.2 = K)) = [] := by
          rw [List.filter_eq_nil_iff]
          intro y hy
          have := hm.1 y.2 (List.mem_map.2 ⟨y, hy, rfl⟩)
          simp; omega
        rw [hnone] at ih
        simp only [List.filter_cons, hp, a1, a2, a3, hnone, and_true, decide_false, decide_true, if_true, Bool.false_eq_true, if_false,
          List.map_nil, List.filter_nil, List.filterMap_nil, List.nil_append] at ih ⊢
        cases ho : x.1.off with
        | none => simp only [List.filterMap_cons, ho]; exact ih
        | some o => simp only [List.filterMap_cons, ho]; rw [ih]
    · by_cases hk : x.2 = K
      · simp only [List.filter_cons, hp, hk, false_and, decide_false, decide_true, if_true, Bool.false_eq_true, if_false, List.map_cons]
        exact ih
      · simp only [List.filter_cons, hp, hk, false_and, decide_false, Bool.false_eq_true, if_false]
        exact ih

/-- The offset in the commit record is the last one. -/
theorem newest_last {evs : List Ev} {tp : Nat} :
    newest evs tp = ((evs.filter fun e => e.part = tp).filterMap Ev.off).getLast? := by
  unfold newest
  rw [List.filterMap_reverse, List.head?_reverse]

theorem filter_drop_le {l A B : List Nat} {x y : Nat} (hl : l.Pairwise (· < ·)) (h : A ++ B = l.filter fun o => x ≤ o)
    (hy : A.getLast? = some y) : B = (l.filter fun o => y + 1 ≤ o) ∧ x ≤ y ∧ y ∈ l := by
  have hp : (A ++ B).Pairwise (· < ·) := by rw [h]; exact hl.sublist List.filter_sublist
  obtain ⟨hA, hB, hAB⟩ := List.pairwise_append.1 hp
  obtain ⟨A', rfl⟩ : ∃ A', A = A' ++ [y] := by
    rw [List.getLast?_eq_some_iff] at hy; exact hy
  have hyl : y ∈ l.filter fun o => x ≤ o := by rw [← h]; simp
  rw [List.mem_filter] at hyl
  have hxy : x ≤ y := by simpa using hyl.2
  refine ⟨?_, hxy, hyl.1⟩
  have h2 : (l.filter fun o => y + 1 ≤ o) = (l.filter fun o => x ≤ o).filter fun o => y + 1 ≤ o := by
    rw [List.filter_filter]
    apply List.filter_congr
    intro o _
    by_cases e : y + 1 ≤ o
    · have : x ≤ o := by omega
      simp [e, this]
    · simp [e]
  rw [h2, ← h, List.filter_append]
  have h3 : ((A' ++ [y]).filter fun o => decide (y + 1 ≤ o)) = [] := by
    rw [List.filter_eq_nil_iff]
    intro o ho
    rcases List.mem_append.1 ho with ho | ho
    · have := (List.pairwise_append.1 hA).2.2 o ho y (by simp)
      simp; omega
    · rw [List.mem_singleton] at ho; simp; omega
  have h4 : (B.filter fun o => decide (y + 1 ≤ o)) = B := by
    rw [List.filter_eq_self]
    intro o ho
    have := hAB y (by simp) o ho
    simp; omega
  rw [h3, h4, List.nil_append]

/-- `last tp` is the consumer that had a worker for the partition last. -/
structure Once (c : Cfg) (src : Nat → List Nat) (w : World) (last : Nat → Option Nat) : Prop where
  unborn : ∀ k, w.n ≤ k → w.inst k = Inc.start c
  ord : ∀ k tp, (own (w.inst k) tp).Pairwise (· < ·)
  sub : ∀ k tp, ∀ o ∈ own (w.inst k) tp, o ∈ src tp
  low : ∀ tp o, w.Handled tp o → o < w.wm tp
  uniq : ∀ k k' e e' o, (w.inst k).Committed e → (w.inst k').Committed e' → e.part = e'.part → e.off = some o → e'.off = some o → k = k'
  idle : ∀ k tp, last tp ≠ some k → w.alive k = true → pend (w.inst k) tp = [] ∧ w.work k tp = none
  act : ∀ k tp, last tp = some k → w.alive k = true → ∃ r, pend (w.inst k) tp ++ r = ((src tp).filter fun o => w.wm tp ≤ o) ∧
    ∀ l, w.work k tp = some l → r = l
  fut : ∀ k tp, w.n ≤ k → w.work k tp = none
  had : ∀ k tp, last tp = some k → k < w.n

theorem alive_lt {k : Nat} (h : w.alive k = true) : k < w.n ∧ w.dead k = false := by
  unfold World.alive at h
  rw [Bool.and_eq_true] at h
  exact ⟨by simpa using h.1, by simpa using h.2⟩

theorem pend_start (c : Cfg) (tp : Nat) : pend (Inc.start c) tp = [] := rfl

/-- An offset in the pool is committed or pending. -/
theorem own_cases (hn : 0 < c.poolSize) {i : Inc} (C : Core c i) {tp o : Nat} (h : o ∈ own i tp) :
    (∃ e, i.Committed e ∧ e.part = tp ∧ e.off = some o) ∨ o ∈ pend i tp := by
  obtain ⟨e, g, h1, h2, h3⟩ := mem_own.1 h
  by_cases hg : g < i.pool.ended.length
  · exact .inl ⟨e, (committed_lt hn C.reach h3).2 ⟨g, hg, h1⟩, h2, h3⟩
  · exact .inr (mem_from.2 ⟨e, g, h1, h2, h3, by omega⟩)

theorem wm_move {k : Nat} {i' : Inc} (tp : Nat) : (w.move k i').wm tp = ((fresh (w.inst k).pool i'.pool tp).getLast?).getD (w.wm tp) := by
  show ((w.log tp ++ fresh (w.inst k).pool i'.pool tp).getLast?).getD 0 = _
  rw [List.getLast?_append]
  unfold World.wm
  cases (fresh (w.inst k).pool i'.pool tp).getLast? <;> simp

/-- Adding an event commits nothing. -/
theorem adds_committed (hn : 0 < c.poolSize) {i i' : Inc} {e : Ev} (C : Core c i) (A : Adds c i e i') {d : Ev} {o : Nat}
    (ho : d.off = some o) : i'.Committed d ↔ i.Committed d := by
  constructor
  · intro h
    obtain ⟨g, ha, he, hg⟩ := A.kind
    rw [committed_lt hn A.core.reach ho] at h
    rw [committed_lt hn C.reach ho]
    obtain ⟨g', h1, h2⟩ := h
    rw [he] at h1
    rw [ha] at h2
    rcases List.mem_append.1 h2 with h2 | h2
    · exact ⟨g', h1, h2⟩
    · rw [List.mem_singleton] at h2
      cases h2
      omega
  · intro h; exact (A.keep d h).1

theorem own_adds {i i' : Inc} {e : Ev} (A : Adds c i e i') (tp : Nat) :
    own i' tp = own i tp ++ (if e.part = tp then e.off.toList else []) ∧
    pend i' tp = pend i tp ++ (if e.part = tp then e.off.toList else []) := by
  obtain ⟨g, ha, he, hg⟩ := A.kind
  unfold own pend from_
  rw [ha, he]
  by_cases hp : e.part = tp
  · cases ho : e.off <;> simp [List.filter_append, hp, hg, ho]
  · simp [List.filter_append, hp]

theorem wm_adds {k : Nat} {i' : Inc} {e : Ev} (A : Adds c (w.inst k) e i') (tp : Nat) : (w.move k i').wm tp = w.wm tp := by
  rw [wm_move, A.quiet]; rfl

theorem move_inst (w : World) (k : Nat) (i' : Inc) (j : Nat) : (w.move k i').inst j = if j = k then i' else w.inst j := rfl

/-- The committed source records are the same after the addition of an event. -/
theorem handled_adds (hn : 0 < c.poolSize) (hc : ∀ k, Core c (w.inst k)) {k : Nat} {i' : Inc} {e : Ev} (A : Adds c (w.inst k) e i')
    {j : Nat} {d : Ev} {o : Nat} (ho : d.off = some o) : ((w.move k i').inst j).Committed d ↔ (w.inst j).Committed d := by
  rw [move_inst]
  split
  · rename_i h; subst h; exact adds_committed hn (hc j) A ho
  · rfl

theorem once_adds (hn : 0 < c.poolSize) (hsrc : ∀ tp, (src tp).Pairwise (· < ·)) {last : Nat → Option Nat} (hc : ∀ k, Core c (w.inst k))
    (O : Once c src w last) {k : Nat} (hk : w.alive k = true) {i' : Inc} {e : Ev} {v : Option (List Nat)} (A : Adds c (w.inst k) e i')
    (hv : (e.off = none ∧ v = w.work k e.part) ∨ ∃ o rest, e.off = some o ∧ w.work k e.part = some (o :: rest) ∧ v = some rest) :
    Once c src ((w.move k i').setWork k e.part v) last := by
  have hwm := fun tp => wm_adds A tp
  have hcom : ∀ j d o, d.off = some o → (((w.move k i').setWork k e.part v).inst j).Committed d → (w.inst j).Committed d :=
    fun j d o ho h => (handled_adds hn hc A ho).1 h
  have hal : ∀ j, ((w.move k i').setWork k e.part v).alive j = w.alive j := fun j => rfl
  have hwork : ∀ j tp, ((w.move k i').setWork k e.part v).work j tp = if j = k ∧ tp = e.part then v else w.work j tp :=
    fun j tp => setWork_work _ _ _ _ _ _
  -- what is added is the next record of the source
  have hnew : ∀ o, e.off = some o → last e.part = some k ∧ o ∈ src e.part ∧ w.wm e.part ≤ o ∧ ∀ o' ∈ pend (w.inst k) e.part, o' < o := by
    intro o ho
    rcases hv with ⟨h, -⟩ | ⟨o1, rest, h1, h2, h3⟩
    · rw [h] at ho; cases ho
    · rw [h1] at ho
      cases ho
      have hl : last e.part = some k := by
        by_contra hne
        have := (O.idle k e.part hne hk).2
        rw [h2] at this; cases this
      obtain ⟨r, hr, hwl⟩ := O.act k e.part hl hk
      have := hwl _ h2
      subst this
      have hp : (pend (w.inst k) e.part ++ o :: rest).Pairwise (· < ·) := by rw [hr]; exact (hsrc _).sublist List.filter_sublist
      have hm : o ∈ (src e.part).filter fun o => w.wm e.part ≤ o := by rw [← hr]; simp
      rw [List.mem_filter] at hm
      exact ⟨hl, hm.1, by simpa using hm.2, fun o' ho' => (List.pairwise_append.1 hp).2.2 o' ho' o (by simp)⟩
  refine ⟨?_, ?_, ?_, ?_, ?_, ?_, ?_, ?_, O.had⟩
  · intro j hj
    have hjk : j ≠ k := by rintro rfl; have := (alive_lt hk).1; have : w.n ≤ j := hj; omega
    show (w.move k i').inst j = _
    rw [move_inst, if_neg hjk]
    exact O.unborn j hj
  · intro j tp
    show (own ((w.move k i').inst j) tp).Pairwise _
    rw [move_inst]
    split
    · rename_i h; subst h
      rw [(own_adds A tp).1]
      split
      · rename_i hp; subst hp
        cases ho : e.off with
        | none => simpa using O.ord j e.part
        | some o =>
          obtain ⟨-, -, h2, h3⟩ := hnew o ho
          rw [Option.toList_some, List.pairwise_append]
          refine ⟨O.ord j e.part, by simp, ?_⟩
          intro a ha b hb
          rw [List.mem_singleton] at hb; subst hb
          rcases own_cases hn (hc j) ha with ⟨d, d1, d2, d3⟩ | h
          · have := O.low e.part a ⟨j, d, d1, d2, d3⟩; omega
          · exact h3 a h
      · simpa using O.ord j tp
    · exact O.ord j tp
  · intro j tp o ho0
    have ho : o ∈ own ((w.move k i').inst j) tp := ho0
    clear ho0
    rw [move_inst] at ho
    split at ho
    · rename_i h; subst h
      rw [(own_adds A tp).1, List.mem_append] at ho
      rcases ho with ho | ho
      · exact O.sub j tp o ho
      · split at ho
        · rename_i hp; subst hp
          cases hoff : e.off with
          | none => rw [hoff] at ho; simp at ho
          | some o' =>
            rw [hoff] at ho
            simp only [Option.toList_some, List.mem_singleton] at ho
            subst ho
            exact (hnew o hoff).2.1
        · simp at ho
    · exact O.sub j tp o ho
  · rintro tp o ⟨j, d, h1, h2, h3⟩
    have := O.low tp o ⟨j, d, hcom j d o h3 h1, h2, h3⟩
    show o < (w.move k i').wm tp
    rw [hwm]; exact this
  · intro j j' d d' o h1 h2 h3 h4 h5
    exact O.uniq j j' d d' o (hcom j d o h4 h1) (hcom j' d' o h5 h2) h3 h4 h5
  · intro j tp hl ha
    obtain ⟨h1, h2⟩ := O.idle j tp hl ha
    refine ⟨?_, ?_⟩
    · show pend ((w.move k i').inst j) tp = []
      rw [move_inst]
      split
      · rename_i h; subst h
        rw [(own_adds A tp).2, h1]
        split
        · rename_i hp; subst hp
          cases hoff : e.off with
          | none => rfl
          | some o => exact absurd (hnew o hoff).1 hl
        · rfl
      · exact h1
    · rw [hwork]
      split
      · rename_i h
        obtain ⟨rfl, rfl⟩ := h
        rcases hv with ⟨-, h⟩ | ⟨o, rest, h3, h4, -⟩
        · rw [h]; exact h2
        · rw [h4] at h2; cases h2
      · exact h2
  · intro j tp hl ha
    obtain ⟨r, hr, hw⟩ := O.act j tp hl ha
    have hwm' : ((w.move k i').setWork k e.part v).wm tp = w.wm tp := hwm tp
    rw [hwm', hwork]
    show ∃ r, pend ((w.move k i').inst j) tp ++ r = _ ∧ _
    rw [move_inst]
    by_cases hjk : j = k
    · subst hjk
      rw [if_pos rfl, (own_adds A tp).2]
      by_cases hp : e.part = tp
      · subst hp
        rw [if_pos rfl, if_pos ⟨rfl, rfl⟩]
        rcases hv with ⟨h3, h4⟩ | ⟨o, rest, h3, h4, h5⟩
        · rw [h3, h4]
          exact ⟨r, by simpa using hr, hw⟩
        · have := hw _ h4
          subst this
          rw [h3, h5]
          refine ⟨rest, by simpa using hr, ?_⟩
          intro l hl; cases hl; rfl
      · rw [if_neg hp, if_neg (by rintro ⟨-, h⟩; exact hp h.symm)]
        exact ⟨r, by simpa using hr, hw⟩
    · rw [if_neg hjk, if_neg (by rintro ⟨h, -⟩; exact hjk h)]
      exact ⟨r, hr, hw⟩
  · intro j tp hj
    have hjk : j ≠ k := by rintro rfl; have := (alive_lt hk).1; have : w.n ≤ j := hj; omega
    rw [hwork, if_neg (by rintro ⟨h, -⟩; exact hjk h)]
    exact O.fut j tp hj

/-- What the end of a transaction does to one partition. -/
theorem once_goes (hn : 0 < c.poolSize) (hsrc : ∀ tp, (src tp).Pairwise (· < ·)) {last : Nat → Option Nat} (hc : ∀ k, Core c (w.inst k))
    (O : Once c src w last) {k : Nat} (hk : w.alive k = true) {i' : Inc} (G : Goes c (w.inst k) i') : Once c src (w.move k i') last := by
  have ha : i'.pool.added = (w.inst k).pool.added := by rcases G.kind with ⟨h, -⟩ | ⟨h, -⟩ <;> exact h
  have hown : ∀ j tp, own ((w.move k i').inst j) tp = own (w.inst j) tp := by
    intro j tp
    rw [move_inst]
    split
    · rename_i h; subst h; unfold own; rw [ha]
    · rfl
  -- partition by partition: either nothing changes, or the oldest pending offsets are committed
  have part : ∀ tp,
      ((w.move k i').wm tp = w.wm tp ∧ pend i' tp = pend (w.inst k) tp ∧
        ∀ e o, e.part = tp → e.off = some o → i'.Committed e → (w.inst k).Committed e) ∨
      ∃ A y, last tp = some k ∧ (w.move k i').wm tp = y + 1 ∧ pend (w.inst k) tp = A ++ pend i' tp ∧ A.getLast? = some y ∧
        ∀ e o, e.part = tp → e.off = some o → i'.Committed e → (w.inst k).Committed e ∨ o ∈ A := by
    intro tp
    rcases G.kind with ⟨-, h2, h3⟩ | ⟨h1, h2, h3⟩
    · left
      refine ⟨by rw [wm_move, h3]; rfl, by unfold pend; rw [ha, h2], ?_⟩
      intro e o _ ho he
      rw [committed_lt hn G.core.reach ho, ha, h2] at he
      exact (committed_lt hn (hc k).reach ho).2 he
    · have hmono := (C04_in_order hn (hc k).reach).2.1
      have hsplit := from_split hmono (w.inst k).pool.ended.length tp
      have hp' : pend i' tp = from_ (w.inst k).pool.added ((w.inst k).pool.ended.length + 1) tp := by unfold pend; rw [ha, h2]
      have hcomm : ∀ e o, e.part = tp → e.off = some o → i'.Committed e → (w.inst k).Committed e ∨
          o ∈ ((evOf (w.inst k).pool.added (w.inst k).pool.ended.length).filter fun e => e.part = tp).filterMap Ev.off := by
        intro e o hp ho he
        rw [committed_lt hn G.core.reach ho, ha, h2] at he
        obtain ⟨g, h4, h5⟩ := he
        by_cases hg : g < (w.inst k).pool.ended.length
        · exact .inl ((committed_lt hn (hc k).reach ho).2 ⟨g, hg, h5⟩)
        · have : g = (w.inst k).pool.ended.length := by omega
          subst this
          exact .inr (List.mem_filterMap.2 ⟨e, List.mem_filter.2 ⟨mem_evOf.2 h5, by simpa using hp⟩, ho⟩)
      generalize hA : ((evOf (w.inst k).pool.added (w.inst k).pool.ended.length).filter fun e => e.part = tp).filterMap Ev.off = A at *
      have hnw : newest (evOf (w.inst k).pool.added (w.inst k).pool.ended.length) tp = A.getLast? := by rw [newest_last, hA]
      cases hy : A.getLast? with
      | none =>
        left
        rw [List.getLast?_eq_none_iff] at hy
        subst hy
        refine ⟨by rw [wm_move, h3, hnw]; rfl, ?_, ?_⟩
        · rw [hp']; unfold pend; rw [hsplit]; rfl
        · intro e o hp ho he
          rcases hcomm e o hp ho he with h | h
          · exact h
          · simp at h
      | some y =>
        right
        have hpe : pend (w.inst k) tp = A ++ pend i' tp := by rw [hp']; exact hsplit
        refine ⟨A, y, ?_, by rw [wm_move, h3, hnw, hy]; rfl, hpe, hy, hcomm⟩
        by_contra hne
        have := (O.idle k tp hne hk).1
        rw [hpe] at this
        rw [(List.append_eq_nil_iff.1 this).1] at hy
        simp at hy
  -- the pending offsets that are committed, in terms of the source
  have moved : ∀ tp A y, last tp = some k → pend (w.inst k) tp = A ++ pend i' tp → A.getLast? = some y →
      ∃ r, pend i' tp ++ r = ((src tp).filter fun o => y + 1 ≤ o) ∧ (∀ l, w.work k tp = some l → r = l) ∧ w.wm tp ≤ y ∧
        ∀ o ∈ A, w.wm tp ≤ o ∧ o ≤ y := by
    intro tp A y hl hpe hy
    obtain ⟨r, hr, hw⟩ := O.act k tp hl hk
    rw [hpe, List.append_assoc] at hr
    obtain ⟨h1, h2, -⟩ := filter_drop_le (hsrc tp) hr hy
    refine ⟨r, h1, hw, h2, ?_⟩
    intro o ho
    have hm : o ∈ (src tp).filter fun o => w.wm tp ≤ o := by rw [← hr]; exact List.mem_append_left _ ho
    have hp : (A ++ (pend i' tp ++ r)).Pairwise (· < ·) := by rw [hr]; exact (hsrc tp).sublist List.filter_sublist
    obtain ⟨A', rfl⟩ : ∃ A', A = A' ++ [y] := by rw [List.getLast?_eq_some_iff] at hy; exact hy
    refine ⟨by simpa using (List.mem_filter.1 hm).2, ?_⟩
    rcases List.mem_append.1 ho with ho | ho
    · exact Nat.le_of_lt ((List.pairwise_append.1 (List.pairwise_append.1 hp).1).2.2 o ho y (by simp))
    · rw [List.mem_singleton] at ho; omega
  -- who committed what
  have hcom : ∀ j e o, e.off = some o → ((w.move k i').inst j).Committed e →
      ((w.inst j).Committed e ∧ o < w.wm e.part) ∨ (j = k ∧ w.wm e.part ≤ o ∧ o < (w.move k i').wm e.part) := by
    intro j e o ho he
    rw [move_inst] at he
    have old : (w.inst j).Committed e → ((w.inst j).Committed e ∧ o < w.wm e.part) := fun h => ⟨h, O.low _ _ ⟨j, e, h, rfl, ho⟩⟩
    split at he
    · rename_i h; subst h
      rcases part e.part with ⟨-, -, h3⟩ | ⟨A, y, h1, h2, h3, h4, h5⟩
      · exact .inl (old (h3 e o rfl ho he))
      · rcases h5 e o rfl ho he with h | h
        · exact .inl (old h)
        · right
          obtain ⟨r, -, -, -, h8⟩ := moved e.part A y h1 h3 h4
          have := h8 o h
          exact ⟨rfl, this.1, by rw [h2]; omega⟩
    · exact .inl (old he)
  have hwm : ∀ tp, w.wm tp ≤ (w.move k i').wm tp := by
    intro tp
    rcases part tp with ⟨h1, -⟩ | ⟨A, y, h1, h2, h3, h4, -⟩
    · rw [h1]
    · obtain ⟨r, -, -, h8, -⟩ := moved tp A y h1 h3 h4
      rw [h2]; omega
  refine ⟨?_, ?_, ?_, ?_, ?_, ?_, ?_, O.fut, O.had⟩
  · intro j hj
    have hjk : j ≠ k := by rintro rfl; have := (alive_lt hk).1; have : w.n ≤ j := hj; omega
    rw [move_inst, if_neg hjk]
    exact O.unborn j hj
  · intro j tp; rw [hown]; exact O.ord j tp
  · intro j tp; rw [hown]; exact O.sub j tp
  · rintro tp o ⟨j, e, h1, rfl, h3⟩
    have := hwm e.part
    rcases hcom j e o h3 h1 with ⟨-, h⟩ | ⟨-, -, h⟩ <;> omega
  · intro j j' e e' o h1 h2 h3 h4 h5
    rcases hcom j e o h4 h1 with ⟨a1, a2⟩ | ⟨a1, a2, -⟩ <;> rcases hcom j' e' o h5 h2 with ⟨b1, b2⟩ | ⟨b1, b2, -⟩
    · exact O.uniq j j' e e' o a1 b1 h3 h4 h5
    · rw [h3] at a2; omega
    · rw [h3] at a2; omega
    · rw [a1, b1]
  · intro j tp hl hal
    obtain ⟨h1, h2⟩ := O.idle j tp hl hal
    refine ⟨?_, h2⟩
    rw [move_inst]
    split
    · rename_i h; subst h
      rcases part tp with ⟨-, h3, -⟩ | ⟨A, y, h3, -⟩
      · rw [h3, h1]
      · exact absurd h3 hl
    · exact h1
  · intro j tp hl hal
    rw [move_inst]
    by_cases hjk : j = k
    · subst hjk
      rw [if_pos rfl]
      rcases part tp with ⟨h1, h3, -⟩ | ⟨A, y, -, h2, h3, h4, -⟩
      · rw [h1, h3]; exact O.act j tp hl hal
      · obtain ⟨r, h5, h6, -⟩ := moved tp A y hl h3 h4
        rw [h2]
        exact ⟨r, h5, h6⟩
    · rw [if_neg hjk]
      rcases part tp with ⟨h1, -⟩ | ⟨A, y, h1, -⟩
      · rw [h1]; exact O.act j tp hl hal
      · rw [hl] at h1; cases h1; exact absurd rfl hjk

theorem not_busy {i : Inc} (hn : 0 < c.poolSize) (C : Core c i) {tp : Nat} (h : ¬ Busy i tp) : pend i tp = [] := by
  rw [List.eq_nil_iff_forall_not_mem]
  intro o ho
  obtain ⟨e, g, h1, h2, h3, h4⟩ := mem_from.1 ho
  refine h ⟨e, g, h1, h2, by simp [h3], ?_⟩
  intro hm
  have : g ∈ i.pool.ended.map Prod.fst := List.mem_map.2 ⟨_, hm, rfl⟩
  rw [(C04_in_order hn C.reach).1, List.mem_range] at this
  omega

theorem once_calm (hn : 0 < c.poolSize) (hsrc : ∀ tp, (src tp).Pairwise (· < ·)) (h : Calm c src w) : ∃ last, Once c src w last := by
  induction h with
  | init =>
    refine ⟨fun _ => none, ⟨fun _ _ => rfl, ?_, ?_, ?_, ?_, ?_, ?_, fun _ _ _ => rfl, fun _ _ h => by cases h⟩⟩
    · intro k tp; exact List.Pairwise.nil
    · intro k tp o ho; simp [own, World.init, Inc.start, Pool.init] at ho
    · rintro tp o ⟨k, e, ⟨g, h1, -⟩, -⟩; simp [World.init, Inc.start, Pool.init] at h1
    · rintro k k' e e' o ⟨g, h1, -⟩; simp [World.init, Inc.start, Pool.init] at h1
    · intro k tp _ _; exact ⟨rfl, rfl⟩
    · intro k tp h; cases h
  | @step w w' a hr hord hs ih =>
    obtain ⟨last, O⟩ := ih
    have hc := cores hn hr.reach
    rcases step_cases hn hc hs with ⟨-, rfl⟩ | ⟨k, tp, x, rfl, hk, hw, hx, rfl⟩ | ⟨k, tp, hk, -, rfl⟩ |
      ⟨k, tp, id, o, rest, i', -, hk, hw, A, rfl⟩ | ⟨k, tp, id, i', -, hk, A, rfl⟩ | ⟨k, i', -, hk, G, rfl⟩ | ⟨k, -, hk, rfl⟩
    · -- a new consumer has nothing yet
      have old : ∀ k, k < w.n → ({ w with n := w.n + 1 } : World).alive k = true → w.alive k = true := by
        intro k hkn ha
        have h2 : w.dead k = false := (alive_lt ha).2
        simp [World.alive, hkn, h2]
      refine ⟨last, ⟨fun k hk => O.unborn k (by have : w.n + 1 ≤ k := hk; omega), O.ord, O.sub, O.low, O.uniq, ?_,
        fun k tp hl ha => O.act k tp hl (old k (O.had k tp hl) ha),
        fun k tp hk => O.fut k tp (by have : w.n + 1 ≤ k := hk; omega), fun k tp hl => Nat.lt_succ_of_lt (O.had k tp hl)⟩⟩
      intro k tp hl ha
      by_cases hkn : k < w.n
      · exact O.idle k tp hl (old k hkn ha)
      · refine ⟨?_, O.fut k tp (by omega)⟩
        show pend (w.inst k) tp = []
        rw [O.unborn k (by omega)]
        rfl
    · -- an orderly start
      obtain ⟨rfl, hfree⟩ := hord
      have hkn := (alive_lt hk).1
      have hwork : ∀ j tp', (w.setWork k tp (some ((src tp).filter fun o => w.wm tp ≤ o))).work j tp' =
          if j = k ∧ tp' = tp then some ((src tp).filter fun o => w.wm tp ≤ o) else w.work j tp' := fun j tp' => setWork_work _ _ _ _ _ _
      refine ⟨upd last tp (some k), ⟨O.unborn, O.ord, O.sub, O.low, O.uniq, ?_, ?_, ?_, ?_⟩⟩
      · intro j tp' hl ha
        by_cases ht : tp' = tp
        · subst ht
          rw [upd_self] at hl
          have hjk : j ≠ k := fun h => hl (by rw [h])
          rw [hwork, if_neg (by rintro ⟨h, -⟩; exact hjk h)]
          exact ⟨not_busy hn (hc j) (hfree j ha).2, (hfree j ha).1⟩
        · rw [upd_other _ _ ht] at hl
          rw [hwork, if_neg (by rintro ⟨-, h⟩; exact ht h)]
          exact O.idle j tp' hl ha
      · intro j tp' hl ha
        by_cases ht : tp' = tp
        · subst ht
          rw [upd_self] at hl
          cases hl
          refine ⟨(src tp').filter fun o => w.wm tp' ≤ o, ?_, ?_⟩
          · show pend (w.inst k) tp' ++ _ = _
            rw [not_busy hn (hc k) (hfree k hk).2]
            rfl
          · intro l hl
            rw [hwork, if_pos ⟨rfl, rfl⟩] at hl
            exact Option.some.inj hl
        · rw [upd_other _ _ ht] at hl
          rw [hwork, if_neg (by rintro ⟨-, h⟩; exact ht h)]
          exact O.act j tp' hl ha
      · intro j tp' hj
        have hjk : j ≠ k := by rintro rfl; have : w.n ≤ j := hj; omega
        rw [hwork, if_neg (by rintro ⟨h, -⟩; exact hjk h)]
        exact O.fut j tp' hj
      · intro j tp' hl
        by_cases ht : tp' = tp
        · subst ht; rw [upd_self] at hl; cases hl; exact hkn
        · rw [upd_other _ _ ht] at hl; exact O.had j tp' hl
    · have hwork : ∀ j tp', (w.setWork k tp none).work j tp' = if j = k ∧ tp' = tp then none else w.work j tp' :=
        fun j tp' => setWork_work _ _ _ _ _ _
      refine ⟨last, ⟨O.unborn, O.ord, O.sub, O.low, O.uniq, ?_, ?_, ?_, O.had⟩⟩
      · intro j tp' hl ha
        refine ⟨(O.idle j tp' hl ha).1, ?_⟩
        rw [hwork]
        split
        · rfl
        · exact (O.idle j tp' hl ha).2
      · intro j tp' hl ha
        obtain ⟨r, h1, h2⟩ := O.act j tp' hl ha
        refine ⟨r, h1, ?_⟩
        intro l hl
        rw [hwork] at hl
        split at hl
        · cases hl
        · exact h2 l hl
      · intro j tp' hj
        rw [hwork]
        split
        · rfl
        · exact O.fut j tp' hj
    · exact ⟨last, once_adds hn hsrc hc O hk A (.inr ⟨o, rest, rfl, hw, rfl⟩)⟩
    · have h1 := once_adds hn hsrc hc O hk (v := w.work k tp) A (.inl ⟨rfl, rfl⟩)
      have h2 : (w.move k i').setWork k tp (w.work k tp) = w.move k i' := by
        have : ((w.move k i').setWork k tp (w.work k tp)).work = w.work := by
          funext j tp'
          rw [setWork_work]
          split
          · rename_i h; rw [h.1, h.2]
          · rfl
        unfold World.setWork at this ⊢
        simp only at this
        rw [this]
        rfl
      rw [← h2]
      exact ⟨last, h1⟩
    · exact ⟨last, once_goes hn hsrc hc O hk G⟩
    · have old : ∀ j, ({ w with dead := upd w.dead k true } : World).alive j = true → w.alive j = true := by
        intro j ha
        obtain ⟨h1, h2⟩ := alive_lt ha
        have h2 : upd w.dead k true j = false := h2
        by_cases hj : j = k
        · subst hj; rw [upd_self] at h2; cases h2
        · rw [upd_other _ _ hj] at h2
          have h1 : j < w.n := h1
          simp [World.alive, h1, h2]
      exact ⟨last, ⟨O.unborn, O.ord, O.sub, O.low, O.uniq, fun j tp hl ha => O.idle j tp hl (old j ha),
        fun j tp hl ha => O.act j tp hl (old j ha), O.fut, O.had⟩⟩

end Verif.Fleet

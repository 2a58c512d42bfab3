import Verif.Fleet.Pool
/-
Proofs for C93: nothing is skipped.
-/
namespace Verif.Fleet
open Verif.Eos Verif.Exact Verif.Effects

variable {c : Cfg} {src : Nat → List Nat} {w w' : World}

theorem upd_self {α : Type} (f : Nat → α) (k : Nat) (a : α) : upd f k a k = a := by simp [upd]

theorem upd_other {α : Type} (f : Nat → α) {k j : Nat} (a : α) (h : j ≠ k) : upd f k a j = f j := by simp [upd, h]

/-- A step of the pool of a consumer, in terms of what the world sees of it. -/
structure Goes (c : Cfg) (i i' : Inc) : Prop where
  core : Core c i'
  keep : ∀ e, i.Committed e → i'.Committed e ∧ i'.made e = i.made e
  kind :
    (i'.pool.added = i.pool.added ∧ i'.pool.ended = i.pool.ended ∧ ∀ tp, fresh i.pool i'.pool tp = []) ∨
    (i'.pool.added = i.pool.added ∧ i'.pool.ended.length = i.pool.ended.length + 1 ∧
      ∀ tp, fresh i.pool i'.pool tp = ((newest (evOf i.pool.added i.pool.ended.length) tp).map (· + 1)).toList)

/-- The addition of an event. -/
structure Adds (c : Cfg) (i : Inc) (e : Ev) (i' : Inc) : Prop where
  core : Core c i'
  keep : ∀ d, i.Committed d → i'.Committed d ∧ i'.made d = i.made d
  kind : ∃ g, i'.pool.added = i.pool.added ++ [(e, g)] ∧ i'.pool.ended = i.pool.ended ∧ i.pool.ended.length ≤ g
  quiet : ∀ tp, fresh i.pool i'.pool tp = []

theorem goes_pool (hn : 0 < c.poolSize) {i : Inc} (I : Core c i) {l : Label} {p' : Pool} (hl : internal l = true)
    (h : Eos.step c i.pool l = some p') : Goes c i { i with pool := p' } := by
  have h3 : l ≠ .commitFail true := by rintro rfl; simp [internal] at hl
  have ha : p'.added = i.pool.added := added_step h (by rintro e rfl; simp [internal] at hl)
  refine ⟨core_pool I hl h, fun e he => ⟨committed_pool (prods := i.prods) I.reach h3 h hn he, rfl⟩, ?_⟩
  rcases fresh_step hn I.reach h3 h with ⟨h1, h2⟩ | ⟨h1, -, h2⟩
  · exact .inl ⟨ha, h1, h2⟩
  · exact .inr ⟨ha, h1, h2⟩

theorem goes_emit (hn : 0 < c.poolSize) {i : Inc} (I : Core c i) {d : Ev} {v : Nat} {p' : Pool}
    (h : Eos.step c i.pool (.produce d i.prods.length) = some p') : Goes c i ⟨p', i.prods ++ [(d, v)]⟩ := by
  have ha : p'.added = i.pool.added := added_step h (by intro e h; cases h)
  refine ⟨core_emit hn I h, fun e he => ⟨committed_pool (prods := i.prods) I.reach (by simp) h hn he, ?_⟩, ?_⟩
  · obtain ⟨g, hg, hne, -⟩ := C02_records_in_their_transaction hn I.reach h
    have hd : d ≠ e := by
      rintro rfl
      obtain ⟨g', h1, h2⟩ := he
      have := congrArg Prod.snd (seen_eq.inj_of_nodup (C04_in_order hn I.reach).2.2.2 hg h1 rfl)
      simp only at this
      subst this
      exact hne (List.mem_map.2 ⟨_, h2, rfl⟩)
    unfold Inc.made
    simp [List.filter_append, hd]
  · have he : p'.ended = i.pool.ended := by
      rcases Marks.ended_step h with ⟨h1, -⟩ | ⟨_, _, _, h1, _⟩
      · exact h1
      · cases h1
    rcases fresh_step hn I.reach (by simp) h with ⟨h1, h2⟩ | ⟨h1, -, h2⟩
    · exact .inl ⟨ha, h1, h2⟩
    · rw [he] at h1; omega

theorem adds_add (hn : 0 < c.poolSize) {i : Inc} (I : Core c i) {e : Ev} {p' : Pool} (h : Eos.step c i.pool (.add e) = some p') :
    Adds c i e { i with pool := p' } := by
  obtain ⟨g, h1, h2, h3⟩ := add_gen hn I.reach h
  refine ⟨core_add I h, fun d hd => ⟨committed_pool (prods := i.prods) I.reach (by simp) h hn hd, rfl⟩, ⟨g, h1, h2, h3⟩, ?_⟩
  rcases fresh_step hn I.reach (by simp) h with ⟨-, h2⟩ | ⟨h4, -, -⟩
  · exact h2
  · rw [h2] at h4; omega

/-- Everything that a step can do. -/
theorem step_cases (hn : 0 < c.poolSize) (hc : ∀ k, Core c (w.inst k)) {a : Act} (hs : step c src w a = some w') :
    (a = .start ∧ w' = { w with n := w.n + 1 }) ∨
    (∃ k tp x, a = .assign k tp x ∧ w.alive k = true ∧ w.work k tp = none ∧ x ∈ 0 :: w.log tp ∧
      w' = w.setWork k tp (some ((src tp).filter fun o => x ≤ o))) ∨
    (∃ k tp, w.alive k = true ∧ a = .revoke k tp ∧ w' = w.setWork k tp none) ∨
    (∃ k tp id o rest i', a = .feed k tp id ∧ w.alive k = true ∧ w.work k tp = some (o :: rest) ∧ Adds c (w.inst k) ⟨id, tp, some o⟩ i' ∧
      w' = (w.move k i').setWork k tp (some rest)) ∨
    (∃ k tp id i', a = .interject k tp id ∧ w.alive k = true ∧ Adds c (w.inst k) ⟨id, tp, none⟩ i' ∧ w' = w.move k i') ∨
    (∃ k i', (∀ j tp x, a ≠ .assign j tp x) ∧ w.alive k = true ∧ Goes c (w.inst k) i' ∧ w' = w.move k i') ∨
    (∃ k, a = .crash k ∧ w.alive k = true ∧ w' = { w with dead := upd w.dead k true }) := by
  cases a with
  | start => left; simp only [step, Option.some.injEq] at hs; exact ⟨rfl, hs.symm⟩
  | assign k tp x =>
    right; left
    simp only [step] at hs
    split at hs
    · rename_i h; cases hs; exact ⟨k, tp, x, rfl, h.1, h.2.1, h.2.2, rfl⟩
    · simp at hs
  | revoke k tp =>
    right; right; left
    simp only [step] at hs
    split at hs
    · rename_i h; cases hs; exact ⟨k, tp, h, rfl, rfl⟩
    · simp at hs
  | feed k tp id =>
    right; right; right; left
    simp only [step] at hs
    split at hs
    · rename_i h
      split at hs
      · rename_i o rest hw
        obtain ⟨p, hp, rfl⟩ := Option.map_eq_some_iff.1 hs
        exact ⟨k, tp, id, o, rest, _, rfl, h, hw, adds_add hn (hc k) hp, rfl⟩
      · simp at hs
    · simp at hs
  | interject k tp id =>
    right; right; right; right; left
    simp only [step] at hs
    split at hs
    · rename_i h
      obtain ⟨p, hp, rfl⟩ := Option.map_eq_some_iff.1 hs
      exact ⟨k, tp, id, _, rfl, h.1, adds_add hn (hc k) hp, rfl⟩
    · simp at hs
  | emit k e v =>
    right; right; right; right; right; left
    simp only [step] at hs
    split at hs
    · rename_i h
      obtain ⟨p, hp, rfl⟩ := Option.map_eq_some_iff.1 hs
      exact ⟨k, _, by simp, h, goes_emit hn (hc k) hp, rfl⟩
    · simp at hs
  | pool k l =>
    right; right; right; right; right; left
    simp only [step] at hs
    split at hs
    · rename_i h
      obtain ⟨p, hp, rfl⟩ := Option.map_eq_some_iff.1 hs
      exact ⟨k, _, by simp, h.1, goes_pool hn (hc k) h.2 hp, rfl⟩
    · simp at hs
  | crash k =>
    right; right; right; right; right; right
    simp only [step] at hs
    split at hs
    · rename_i h; cases hs; exact ⟨k, rfl, h, rfl⟩
    · simp at hs

theorem cores (hn : 0 < c.poolSize) (h : Reach c src w) : ∀ k, Core c (w.inst k) := by
  induction h with
  | init => intro k; exact core_start
  | @step w w' a _ hs ih =>
    have key : ∀ k i', Core c i' → ∀ j, Core c (upd w.inst k i' j) := by
      intro k i' hi j
      by_cases hj : j = k
      · subst hj; rw [upd_self]; exact hi
      · rw [upd_other _ _ hj]; exact ih j
    rcases step_cases hn ih hs with ⟨-, rfl⟩ | ⟨k, tp, x, -, -, -, -, rfl⟩ | ⟨k, tp, -, -, rfl⟩ | ⟨k, tp, id, o, rest, i', -, -, -, A, rfl⟩ |
      ⟨k, tp, id, i', -, -, A, rfl⟩ | ⟨k, i', -, -, G, rfl⟩ | ⟨k, -, -, rfl⟩
    · exact ih
    · exact ih
    · exact ih
    · exact key k i' A.core
    · exact key k i' A.core
    · exact key k i' G.core
    · exact ih

/-- What is committed stays committed, with the same records. -/
theorem keep_step (hn : 0 < c.poolSize) (hc : ∀ k, Core c (w.inst k)) {a : Act} (hs : step c src w a = some w') (k : Nat) (e : Ev)
    (h : (w.inst k).Committed e) : (w'.inst k).Committed e ∧ (w'.inst k).made e = (w.inst k).made e := by
  have key : ∀ k' i', (∀ e, (w.inst k').Committed e → i'.Committed e ∧ i'.made e = (w.inst k').made e) →
      (upd w.inst k' i' k).Committed e ∧ (upd w.inst k' i' k).made e = (w.inst k).made e := by
    intro k' i' hi
    by_cases hj : k = k'
    · subst hj; rw [upd_self]; exact hi e h
    · rw [upd_other _ _ hj]; exact ⟨h, rfl⟩
  rcases step_cases hn hc hs with ⟨-, rfl⟩ | ⟨k, tp, x, -, -, -, -, rfl⟩ | ⟨k, tp, -, -, rfl⟩ | ⟨k, tp, id, o, rest, i', -, -, -, A, rfl⟩ |
    ⟨k, tp, id, i', -, -, A, rfl⟩ | ⟨k, i', -, -, G, rfl⟩ | ⟨k, -, -, rfl⟩
  · exact ⟨h, rfl⟩
  · exact ⟨h, rfl⟩
  · exact ⟨h, rfl⟩
  · exact key k i' A.keep
  · exact key k i' A.keep
  · exact key k i' G.keep
  · exact ⟨h, rfl⟩

theorem handled_step (hn : 0 < c.poolSize) (hc : ∀ k, Core c (w.inst k)) {a : Act} (hs : step c src w a = some w') {tp o : Nat}
    (h : w.Handled tp o) : w'.Handled tp o := by
  obtain ⟨k, e, h1, h2, h3⟩ := h
  exact ⟨k, e, (keep_step hn hc hs k e h1).1, h2, h3⟩

/-! ### Nothing is skipped -/

structure NoLoss (src : Nat → List Nat) (w : World) : Prop where
  /-- what comes before an event in the source topic has been committed, or is before it in the pool -/
  seq : ∀ k (m : Nat) e g o, (w.inst k).pool.added[m]? = some (e, g) → e.off = some o → ∀ o' ∈ src e.part, o' < o →
    w.Handled e.part o' ∨ ∃ m' x, m' < m ∧ (w.inst k).pool.added[m']? = some x ∧ x.1.part = e.part ∧ x.1.off = some o'
  wk : ∀ k tp l, w.work k tp = some l → l.Pairwise (· < ·) ∧ ∀ o ∈ src tp, o ∈ l ∨ w.Handled tp o ∨ o ∈ own (w.inst k) tp
  lg : ∀ tp, ∀ x ∈ w.log tp, ∀ o ∈ src tp, o < x → w.Handled tp o

theorem mem_added {i : Inc} {e : Ev} {g : Nat} (h : (e, g) ∈ i.pool.added) : ∃ m : Nat, i.pool.added[m]? = some (e, g) :=
  List.getElem?_of_mem h

theorem fresh_handled (hn : 0 < c.poolSize) {k : Nat} {i' : Inc} (C : Core c (w.inst k)) (N : NoLoss src w) (G : Goes c (w.inst k) i')
    (hmono : ∀ tp o, w.Handled tp o → (w.move k i').Handled tp o) {tp x : Nat} (hx : x ∈ fresh (w.inst k).pool i'.pool tp) {o : Nat}
    (ho : o ∈ src tp) (hlt : o < x) : (w.move k i').Handled tp o := by
  rcases G.kind with ⟨-, -, h3⟩ | ⟨h1, h2, h3⟩
  · rw [h3] at hx; simp at hx
  · rw [h3] at hx
    cases hnw : newest (evOf (w.inst k).pool.added (w.inst k).pool.ended.length) tp with
    | none => rw [hnw] at hx; simp at hx
    | some y =>
      rw [hnw] at hx
      simp only [Option.map_some, Option.toList_some, List.mem_singleton] at hx
      subst hx
      obtain ⟨e, he, hp, hoff⟩ := Marks.newest_mem hnw
      have he' := mem_evOf.1 he
      obtain ⟨m, hm⟩ := mem_added he'
      -- whatever is in the pool up to this event is committed now
      have com : ∀ (m' : Nat) (x : Ev × Nat) o', m' ≤ m → (w.inst k).pool.added[m']? = some x → x.1.part = tp → x.1.off = some o' →
          (w.move k i').Handled tp o' := by
        intro m' x o' hle hx hxp hxo
        have hmo := (C04_in_order hn C.reach).2.1
        have hgen : x.2 ≤ (w.inst k).pool.ended.length := by
          rcases Nat.lt_or_eq_of_le hle with hlt | heq
          · rw [List.pairwise_iff_getElem] at hmo
            obtain ⟨h4, h5⟩ := List.getElem?_eq_some_iff.1 hx
            obtain ⟨h6, h7⟩ := List.getElem?_eq_some_iff.1 hm
            have := hmo m' m (by simpa using h4) (by simpa using h6) hlt
            simpa [h5, h7] using this
          · subst heq
            rw [hm] at hx
            cases hx
            exact Nat.le_refl _
        refine ⟨k, x.1, ?_, hxp, hxo⟩
        show (upd w.inst k i' k).Committed x.1
        rw [upd_self, committed_lt hn G.core.reach hxo]
        exact ⟨x.2, by rw [h2]; omega, by rw [h1]; exact List.mem_of_getElem? hx⟩
      by_cases hoy : o = y
      · subst hoy
        exact com m (e, _) o (Nat.le_refl _) hm hp hoff
      · rcases N.seq k m e _ y hm hoff o (by rw [hp]; exact ho) (by omega) with h | ⟨m', x, h4, h5, h6, h7⟩
        · rw [hp] at h; exact hmono tp o h
        · exact com m' x o (by omega) h5 (h6.trans hp) h7

theorem noLoss_goes (hn : 0 < c.poolSize) {k : Nat} {i' : Inc} (C : Core c (w.inst k)) (N : NoLoss src w) (G : Goes c (w.inst k) i')
    (hmono : ∀ tp o, w.Handled tp o → (w.move k i').Handled tp o) : NoLoss src (w.move k i') := by
  have ha : i'.pool.added = (w.inst k).pool.added := by rcases G.kind with ⟨h, -⟩ | ⟨h, -⟩ <;> exact h
  have hadd : ∀ j, ((w.move k i').inst j).pool.added = (w.inst j).pool.added := by
    intro j
    show (upd w.inst k i' j).pool.added = _
    by_cases hj : j = k
    · subst hj; rw [upd_self, ha]
    · rw [upd_other _ _ hj]
  refine ⟨?_, ?_, ?_⟩
  · intro j m e g o hm ho o' ho' hlt
    rw [hadd] at hm ⊢
    rcases N.seq j m e g o hm ho o' ho' hlt with h | h
    · exact .inl (hmono _ _ h)
    · exact .inr h
  · intro j tp l hl
    obtain ⟨h1, h2⟩ := N.wk j tp l hl
    refine ⟨h1, fun o ho => ?_⟩
    rcases h2 o ho with h | h | h
    · exact .inl h
    · exact .inr (.inl (hmono _ _ h))
    · refine .inr (.inr ?_)
      unfold own at h ⊢
      rw [hadd]; exact h
  · intro tp x hx o ho hlt
    rcases List.mem_append.1 hx with h | h
    · exact hmono _ _ (N.lg tp x h o ho hlt)
    · exact fresh_handled hn C N G hmono h ho hlt

theorem noLoss_adds {k : Nat} {i' : Inc} {e : Ev} (N : NoLoss src w) (A : Adds c (w.inst k) e i')
    (hmono : ∀ tp o, w.Handled tp o → (w.move k i').Handled tp o)
    (hseq : ∀ o, e.off = some o → ∀ o' ∈ src e.part, o' < o → w.Handled e.part o' ∨ o' ∈ own (w.inst k) e.part) :
    NoLoss src (w.move k i') := by
  obtain ⟨g, ha, -, -⟩ := A.kind
  have hadd : ∀ j, ∃ l, ((w.move k i').inst j).pool.added = (w.inst j).pool.added ++ l := by
    intro j
    show ∃ l, (upd w.inst k i' j).pool.added = _
    by_cases hj : j = k
    · subst hj; rw [upd_self, ha]; exact ⟨_, rfl⟩
    · rw [upd_other _ _ hj]; exact ⟨[], by simp⟩
  have hext : ∀ j (m : Nat) x, (w.inst j).pool.added[m]? = some x → ((w.move k i').inst j).pool.added[m]? = some x := by
    intro j m x hx
    obtain ⟨l, hl⟩ := hadd j
    rw [hl, List.getElem?_append_left (List.getElem?_eq_some_iff.1 hx).1]; exact hx
  refine ⟨?_, ?_, ?_⟩
  · intro j m d g' o hm ho o' ho' hlt
    have old : (w.inst j).pool.added[m]? = some (d, g') → (w.move k i').Handled d.part o' ∨
        ∃ m' x, m' < m ∧ ((w.move k i').inst j).pool.added[m']? = some x ∧ x.1.part = d.part ∧ x.1.off = some o' := by
      intro hm
      rcases N.seq j m d g' o hm ho o' ho' hlt with h | ⟨m', x, h1, h2, h3⟩
      · exact .inl (hmono _ _ h)
      · exact .inr ⟨m', x, h1, hext j m' x h2, h3⟩
    by_cases hj : j = k
    · subst hj
      have hm' : (i'.pool.added)[m]? = some (d, g') := by
        have : (w.move j i').inst j = i' := upd_self _ _ _
        rwa [this] at hm
      rw [ha] at hm'
      by_cases hlen : m < (w.inst j).pool.added.length
      · rw [List.getElem?_append_left hlen] at hm'
        exact old hm'
      · have hml : m = (w.inst j).pool.added.length := by
          have := (List.getElem?_eq_some_iff.1 hm').1
          simp at this; omega
        subst hml
        simp only [List.getElem?_concat_length, Option.some.injEq, Prod.mk.injEq] at hm'
        obtain ⟨rfl, rfl⟩ := hm'
        rcases hseq o ho o' ho' hlt with h | h
        · exact .inl (hmono _ _ h)
        · obtain ⟨d, q, h1, h2, h3⟩ := mem_own.1 h
          obtain ⟨m', h4⟩ := mem_added h1
          exact .inr ⟨m', _, (List.getElem?_eq_some_iff.1 h4).1, hext _ _ _ h4, h2, h3⟩
    · refine old ?_
      have : (w.move k i').inst j = w.inst j := upd_other _ _ hj
      rwa [this] at hm
  · intro j tp l hl
    obtain ⟨h1, h2⟩ := N.wk j tp l hl
    refine ⟨h1, fun o ho => ?_⟩
    rcases h2 o ho with h | h | h
    · exact .inl h
    · exact .inr (.inl (hmono _ _ h))
    · refine .inr (.inr ?_)
      obtain ⟨d, q, h1, h2, h3⟩ := mem_own.1 h
      obtain ⟨l, hl⟩ := hadd j
      exact mem_own.2 ⟨d, q, by rw [hl]; exact List.mem_append_left _ h1, h2, h3⟩
  · intro tp x hx o ho hlt
    have : x ∈ w.log tp := by
      have h : x ∈ w.log tp ++ fresh (w.inst k).pool i'.pool tp := hx
      rw [A.quiet, List.append_nil] at h
      exact h
    exact hmono _ _ (N.lg tp x this o ho hlt)

theorem setWork_work (w : World) (k tp : Nat) (v : Option (List Nat)) (j tp' : Nat) :
    (w.setWork k tp v).work j tp' = if j = k ∧ tp' = tp then v else w.work j tp' := by
  show upd w.work k (upd (w.work k) tp v) j tp' = _
  by_cases hj : j = k
  · subst hj
    rw [upd_self]
    by_cases ht : tp' = tp
    · subst ht; simp [upd_self]
    · simp [upd_other _ _ ht, ht]
  · simp [upd_other _ _ hj, hj]

theorem noLoss_setWork (N : NoLoss src w) {k tp : Nat} {v : Option (List Nat)}
    (hv : ∀ l, v = some l → l.Pairwise (· < ·) ∧ ∀ o ∈ src tp, o ∈ l ∨ w.Handled tp o ∨ o ∈ own (w.inst k) tp) :
    NoLoss src (w.setWork k tp v) := by
  refine ⟨N.seq, ?_, N.lg⟩
  intro j tp' l hl
  rw [setWork_work] at hl
  split at hl
  · rename_i h
    obtain ⟨rfl, rfl⟩ := h
    exact hv l hl
  · exact N.wk j tp' l hl

theorem noLoss_reach (hn : 0 < c.poolSize) (hsrc : ∀ tp, (src tp).Pairwise (· < ·)) (h : Reach c src w) : NoLoss src w := by
  induction h with
  | init =>
    refine ⟨?_, ?_, ?_⟩
    · intro k m e g o hm
      simp [World.init, Inc.start, Pool.init] at hm
    · intro k tp l hl; simp [World.init] at hl
    · intro tp x hx; simp [World.init] at hx
  | @step w w' a hr hs N =>
    have hc := cores hn hr
    have hmono : ∀ tp o, w.Handled tp o → w'.Handled tp o := fun tp o => handled_step hn hc hs
    rcases step_cases hn hc hs with ⟨-, rfl⟩ | ⟨k, tp, x, -, -, -, hx, rfl⟩ | ⟨k, tp, -, -, rfl⟩ | ⟨k, tp, id, o, rest, i', -, -, hw, A, rfl⟩ |
      ⟨k, tp, id, i', -, -, A, rfl⟩ | ⟨k, i', -, -, G, rfl⟩ | ⟨k, -, -, rfl⟩
    · exact ⟨N.seq, N.wk, N.lg⟩
    · refine noLoss_setWork N ?_
      intro l hl
      cases hl
      refine ⟨(hsrc tp).sublist List.filter_sublist, fun o ho => ?_⟩
      by_cases hle : x ≤ o
      · exact .inl (List.mem_filter.2 ⟨ho, by simpa using hle⟩)
      · right; left
        rcases List.mem_cons.1 hx with rfl | hx
        · omega
        · exact N.lg tp x hx o ho (by omega)
    · exact noLoss_setWork N (by intro l hl; cases hl)
    · have hmono' : ∀ tp o, w.Handled tp o → (w.move k i').Handled tp o := hmono
      obtain ⟨h1, h2⟩ := N.wk k tp _ hw
      have N' := noLoss_adds (src := src) N A hmono' (by
        intro o1 ho1 o' ho' hlt
        cases ho1
        rcases h2 o' ho' with h | h | h
        · rcases List.mem_cons.1 h with rfl | h
          · omega
          · have := (List.pairwise_cons.1 h1).1 o' h; omega
        · exact .inl h
        · exact .inr h)
      refine noLoss_setWork N' ?_
      intro l hl
      cases hl
      refine ⟨(List.pairwise_cons.1 h1).2, fun o' ho' => ?_⟩
      have hinst : (w.move k i').inst k = i' := upd_self _ _ _
      obtain ⟨g, ha, -, -⟩ := A.kind
      rw [hinst]
      rcases h2 o' ho' with h | h | h
      · rcases List.mem_cons.1 h with rfl | h
        · exact .inr (.inr (mem_own.2 ⟨⟨id, tp, some o'⟩, g, by rw [ha]; simp, rfl, rfl⟩))
        · exact .inl h
      · exact .inr (.inl (hmono' _ _ h))
      · obtain ⟨d, q, h3, h4, h5⟩ := mem_own.1 h
        exact .inr (.inr (mem_own.2 ⟨d, q, by rw [ha]; exact List.mem_append_left _ h3, h4, h5⟩))
    · exact noLoss_adds N A hmono (by intro o ho; cases ho)
    · exact noLoss_goes hn (hc k) N G hmono
    · exact ⟨N.seq, N.wk, N.lg⟩

end Verif.Fleet

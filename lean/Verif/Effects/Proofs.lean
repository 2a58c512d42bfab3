import Verif.Effects.Spec
import Verif.Exact.Proofs
import Verif.Recycle.Proofs
import Verif.Props.Marks
/-
Proofs for C76.
-/
namespace Verif.Effects
open Verif.Eos Verif.Exact

/-! ### One pool -/

/-- The record that a call stands for. -/
def recOf (prods : List (Ev × Nat)) (o : Out) : Option (Ev × Nat) :=
  match o.r with
  | .user k => prods[k]?
  | .commit _ _ => none

structure IncInv (c : Cfg) (src : Nat → List Nat) (s : Nat → Nat) (i : Inc) (rest : Nat → List Nat) : Prop where
  reach : Eos.Reach c i.pool
  recs : i.pool.calls.filterMap (recOf i.prods) = i.prods
  bound : ∀ o ∈ i.pool.calls, ∀ k, o.r = .user k → k < i.prods.length
  made : ∀ o ∈ i.pool.calls, ∀ x, recOf i.prods o = some x → x.1.part = o.part ∧ (x.1, o.gen) ∈ i.pool.added
  fed : ∀ tp, ((i.pool.added.filter fun x => x.1.part = tp).filterMap fun x => x.1.off) ++ rest tp =
    (src tp).filter fun o => s tp ≤ o

variable {c : Cfg} (hn : 0 < c.poolSize) {src : Nat → List Nat} {s : Nat → Nat} {i : Inc} {rest : Nat → List Nat}

theorem IncInv.inOrder (hsrc : ∀ tp, (src tp).Pairwise (· < ·)) (I : IncInv c src s i rest) (tp : Nat) :
    Marks.InOrder i.pool tp := by
  have h1 : ((src tp).filter fun o => s tp ≤ o).Pairwise (· < ·) := (hsrc tp).sublist List.filter_sublist
  rw [← I.fed tp, List.pairwise_append] at h1
  exact h1.1

/-- The marks that go with a run of the pool. -/
theorem marks_of {p : Pool} (h : Eos.Reach c p) : ∃ m, Marks.Reach c true ⟨p, true, m⟩ := by
  induction h with
  | init => exact ⟨[], .init⟩
  | @step p p' l _ hl hs ih =>
    obtain ⟨m, hm⟩ := ih
    by_cases he : ∃ o q a b d, l = .endTxn o ∧ p.com = .fin q a b d
    · obtain ⟨o, q, a, b, d, rfl, hc⟩ := he
      have hst : ∃ m', Marks.step c ⟨p, true, m⟩ (.endTxn o) (p.nodes q).parts = some ⟨p', true, m'⟩ := by
        simp only [Marks.step, hs, hc]
        rw [if_pos (show IsOrder _ _ from List.Perm.refl _)]
        exact ⟨_, rfl⟩
      obtain ⟨m', hst⟩ := hst
      exact ⟨m', .step (.endTxn o) (p.nodes q).parts hm hl hst⟩
    · refine ⟨m, .step l [] hm hl ?_⟩
      simp only [Marks.step, hs]
      split
      · rename_i o q a b d hq
        exact absurd ⟨o, q, a, b, d, rfl, hq⟩ he
      · rfl

include hn in
theorem committed_iff {p : Pool} (h : Eos.Reach c p) {o : Out} (ho : o ∈ p.sent) :
    (o.gen, true) ∈ p.ended ↔ o.gen < p.ended.length := by
  obtain ⟨a, ha, r, B, O, F, H⟩ := ended_old hn h
  have h4 := (C04_in_order hn h).1
  have hmem : o.gen < p.ended.length ↔ o.gen ∈ p.ended.map Prod.fst := by rw [h4, List.mem_range]
  rw [hmem]
  constructor
  · intro h; exact List.mem_map.2 ⟨_, h, rfl⟩
  · intro h
    obtain ⟨⟨g, b⟩, h1, h2⟩ := List.mem_map.1 h
    simp only at h2
    subst h2
    rw [r.sent] at ho
    rw [r.ended] at h1
    have hb := (F.flag _ b h1).2 ⟨o, O.sub o ho, rfl⟩
    subst hb
    rw [r.ended]; exact h1

include hn in
/-- The committed records of a partition, transaction by transaction. -/
theorem outs_eq {p : Pool} (h : Eos.Reach c p) (tp : Nat) :
    committedOuts p tp = (List.range p.ended.length).flatMap fun g => ofTp p.calls g tp := by
  have h4 := (C04_in_order hn h).1
  have hco : committedOuts p tp = (p.sent.filter fun o => o.part = tp).filter fun o => o.gen < p.ended.length := by
    unfold committedOuts
    rw [List.filter_filter]
    apply List.filter_congr
    intro o ho
    have := committed_iff hn h ho
    by_cases e1 : o.part = tp <;> simp [e1, this]
  rw [hco, filter_lt_eq_flatMap (C05_transaction_order hn h tp)]
  apply List.flatMap_congr
  intro g hg
  rw [← ended_sent hn h (by rw [h4]; exact hg)]
  unfold ofTp
  rw [List.filter_filter]
  apply List.filter_congr
  intro o _
  by_cases e1 : o.part = tp <;> by_cases e2 : o.gen = g <;> simp [e1, e2]

include hn in
/-- The offset records in the log are those of the transactions in order. -/
theorem offsets_eq {p : Pool} (h : Eos.Reach c p) (tp : Nat) :
    offsets (committedOuts p tp) = Marks.committedRecords p tp := by
  have h4 := (C04_in_order hn h).1
  rw [outs_eq hn h]
  unfold Marks.committedRecords offsets
  rw [h4, List.filterMap_flatMap]
  apply List.flatMap_congr
  intro g hg
  rw [← ended_sent hn h (by rw [h4]; exact hg)]
  unfold ofTp
  apply List.filterMap_congr
  intro o _
  cases o.r <;> rfl

/-- The watermark after this incarnation. -/
def endWm (s : Nat → Nat) (i : Inc) (tp : Nat) : Nat := ((offsets (committedOuts i.pool tp)).getLast?).getD (s tp)

theorem watermark_snoc (past : List Inc) (i : Inc) (tp : Nat) :
    watermark (past ++ [i]) tp = endWm (watermark past) i tp := by
  unfold watermark endWm
  rw [List.flatMap_append, List.flatMap_singleton, List.getLast?_append]
  cases (offsets (committedOuts i.pool tp)).getLast? <;> rfl

include hn in
/-- Which events are committed, by their offsets. -/
theorem committed_wm (hsrc : ∀ tp, (src tp).Pairwise (· < ·)) (I : IncInv c src s i rest) {e : Ev} {g o tp : Nat}
    (he : (e, g) ∈ i.pool.added) (hp : e.part = tp) (ho : e.off = some o) :
    i.Committed e ↔ o < endWm s i tp := by
  obtain ⟨m, hm⟩ := marks_of I.reach
  have h1 := Marks.C73_resume hn hm tp (I.inOrder hsrc tp) he hp ho
  rw [Marks.C73_agrees hn hm tp (I.inOrder hsrc tp)] at h1
  have hs : s tp ≤ o := by
    have : o ∈ (src tp).filter fun o => s tp ≤ o := by
      rw [← I.fed tp]
      exact List.mem_append_left _ (List.mem_filterMap.2 ⟨(e, g), List.mem_filter.2 ⟨he, by simpa using hp⟩, ho⟩)
    simpa using (List.mem_filter.1 this).2
  refine (show i.Committed e ↔ Marks.Committed i.pool e from Iff.rfl).trans (h1.trans ?_)
  unfold endWm
  rw [offsets_eq hn I.reach]
  dsimp only
  cases (Marks.committedRecords i.pool tp).getLast? with
  | none =>
    simp only [Option.getD_none, reduceCtorEq, false_and, exists_false, false_iff]
    omega
  | some k => simp

include hn in
/-- The watermark stays where it was or is that of a committed event. -/
theorem endWm_cases (hsrc : ∀ tp, (src tp).Pairwise (· < ·)) (I : IncInv c src s i rest) (tp : Nat) :
    endWm s i tp = s tp ∨
      ∃ e o, i.Committed e ∧ e.part = tp ∧ e.off = some o ∧ endWm s i tp = o + 1 ∧ s tp ≤ o := by
  obtain ⟨m, hm⟩ := marks_of I.reach
  have h1 := Marks.C73_agrees hn hm tp (I.inOrder hsrc tp)
  unfold endWm
  rw [offsets_eq hn I.reach, ← h1]
  cases hg : Marks.groupOffset m tp with
  | none => left; rfl
  | some k =>
    right
    obtain ⟨⟨o, h2, rfl⟩, -⟩ := Marks.groupOffset_some hg
    obtain ⟨e, hc, h3, h4⟩ := (Marks.C73_marked hn hm tp o).1 h2
    refine ⟨e, o, hc, h3, h4, rfl, ?_⟩
    obtain ⟨g, he, _⟩ := hc
    have : o ∈ (src tp).filter fun o => s tp ≤ o := by
      rw [← I.fed tp]
      exact List.mem_append_left _ (List.mem_filterMap.2 ⟨(e, g), List.mem_filter.2 ⟨he, by simpa using h3⟩, h4⟩)
    simpa using (List.mem_filter.1 this).2

include hn in
theorem endWm_le (hsrc : ∀ tp, (src tp).Pairwise (· < ·)) (I : IncInv c src s i rest) (tp : Nat) : s tp ≤ endWm s i tp := by
  rcases endWm_cases hn hsrc I tp with h | ⟨e, o, _, _, _, h, h'⟩ <;> omega

/-- A prefix of an increasing list has everything below what it has. -/
theorem prefix_mem {l m all : List Nat} (h : l ++ m = all) (hp : all.Pairwise (· < ·)) {x y : Nat} (hx : x ∈ l) (hy : y ∈ all)
    (hle : y ≤ x) : y ∈ l := by
  subst h
  rcases List.mem_append.1 hy with h | h
  · exact h
  · have := (List.pairwise_append.1 hp).2.2 x hx y h
    omega

include hn in
/-- All records of the source between the two watermarks were committed by this incarnation. -/
theorem between (hsrc : ∀ tp, (src tp).Pairwise (· < ·)) (I : IncInv c src s i rest) {tp o : Nat} (ho : o ∈ src tp)
    (h1 : s tp ≤ o) (h2 : o < endWm s i tp) : ∃ e, i.Committed e ∧ e.part = tp ∧ e.off = some o := by
  rcases endWm_cases hn hsrc I tp with h | ⟨e, j, hc, hp, hj, h, h'⟩
  · omega
  · have hall : ((src tp).filter fun o => s tp ≤ o).Pairwise (· < ·) := (hsrc tp).sublist List.filter_sublist
    obtain ⟨g, he, hg⟩ := hc
    have hm : j ∈ ((i.pool.added.filter fun x => x.1.part = tp).filterMap fun x => x.1.off) :=
      List.mem_filterMap.2 ⟨(e, g), List.mem_filter.2 ⟨he, by simpa using hp⟩, hj⟩
    have hmem := prefix_mem (I.fed tp) hall hm (List.mem_filter.2 ⟨ho, by simpa using h1⟩) (by omega)
    obtain ⟨⟨e', g'⟩, q1, q2⟩ := List.mem_filterMap.1 hmem
    rw [List.mem_filter] at q1
    have hp' : e'.part = tp := by simpa using q1.2
    exact ⟨e', (committed_wm hn hsrc I q1.1 hp' q2).2 h2, hp', q2⟩

/-! ### What readers see -/

theorem seen_def (i : Inc) (tp : Nat) : i.seen tp = (committedOuts i.pool tp).filterMap (recOf i.prods) := rfl

theorem filterMap_filter_eq {α β : Type} (f : α → Option β) (p : α → Bool) (q : β → Bool) (l : List α)
    (h : ∀ a ∈ l, ∀ b, f a = some b → (p a = q b)) : (l.filter p).filterMap f = (l.filterMap f).filter q := by
  induction l with
  | nil => rfl
  | cons a l ih =>
    have ih := ih (fun a ha => h a (List.mem_cons_of_mem _ ha))
    cases hf : f a with
    | none =>
      rw [List.filterMap_cons, hf]
      dsimp only
      rw [List.filter_cons]
      split
      · rw [List.filterMap_cons, hf]; exact ih
      · exact ih
    | some b =>
      have := h a (List.mem_cons_self ..) b hf
      rw [List.filterMap_cons, hf]
      dsimp only
      rw [List.filter_cons, List.filter_cons, ← this]
      split
      · rw [List.filterMap_cons, hf, ih]
      · exact ih

include hn in
/-- What readers see of a partition: transaction by transaction, the records of its events in the order of production. -/
theorem seen_eq (I : IncInv c src s i rest) (tp : Nat) :
    i.seen tp = (List.range i.pool.ended.length).flatMap fun g =>
      i.prods.filter fun x => x.1.part = tp ∧ (x.1, g) ∈ i.pool.added := by
  rw [seen_def, outs_eq hn I.reach, List.filterMap_flatMap]
  apply List.flatMap_congr
  intro g _
  have hids := (C04_in_order hn I.reach).2.2.2
  have : ofTp i.pool.calls g tp = i.pool.calls.filter fun o => o.gen = g ∧ o.part = tp := rfl
  rw [this, filterMap_filter_eq (recOf i.prods) _ (fun x => decide (x.1.part = tp ∧ (x.1, g) ∈ i.pool.added)), I.recs]
  intro o ho x hx
  obtain ⟨h1, h2⟩ := I.made o ho x hx
  rw [decide_eq_decide]
  constructor
  · rintro ⟨rfl, rfl⟩; exact ⟨h1, h2⟩
  · rintro ⟨q1, q2⟩
    refine ⟨?_, by rw [← h1]; exact q1⟩
    have := inj_of_nodup hids h2 q2 rfl
    exact congrArg Prod.snd this
where
  inj_of_nodup {l : List (Ev × Nat)} (h : (l.map fun x => x.1.id).Nodup) {a b : Ev × Nat} (ha : a ∈ l) (hb : b ∈ l)
      (e : a.1.id = b.1.id) : a = b := by
    induction l with
    | nil => simp at ha
    | cons x l ih =>
      rw [List.map_cons, List.nodup_cons] at h
      rcases List.mem_cons.1 ha with ha' | ha' <;> rcases List.mem_cons.1 hb with hb' | hb'
      · rw [ha', hb']
      · exact absurd (List.mem_map.2 ⟨b, hb', by rw [← e, ha']⟩) h.1
      · exact absurd (List.mem_map.2 ⟨a, ha', by rw [e, hb']⟩) h.1
      · exact ih h.2 ha' hb'

include hn in
/-- Committed, in terms of the number of the transaction. -/
theorem committed_gen (I : IncInv c src s i rest) {e : Ev} {v : Nat} (hm : (e, v) ∈ i.prods) :
    i.Committed e ↔ ∃ g, g < i.pool.ended.length ∧ (e, g) ∈ i.pool.added := by
  have h4 := (C04_in_order hn I.reach).1
  have hids := (C04_in_order hn I.reach).2.2.2
  constructor
  · rintro ⟨g, h1, h2⟩
    refine ⟨g, ?_, h1⟩
    have : g ∈ i.pool.ended.map Prod.fst := List.mem_map.2 ⟨_, h2, rfl⟩
    rw [h4, List.mem_range] at this
    exact this
  · rintro ⟨g, h1, h2⟩
    refine ⟨g, h2, ?_⟩
    rw [← I.recs] at hm
    obtain ⟨o, ho, hx⟩ := List.mem_filterMap.1 hm
    obtain ⟨h5, h6⟩ := I.made o ho _ hx
    have hgen : o.gen = g := congrArg Prod.snd (seen_eq.inj_of_nodup hids h6 h2 rfl)
    obtain ⟨a, ha, r, B, O, F, H⟩ := ended_old hn I.reach
    have hin : g ∈ i.pool.ended.map Prod.fst := by rw [h4, List.mem_range]; exact h1
    obtain ⟨⟨g', b⟩, q1, q2⟩ := List.mem_map.1 hin
    simp only at q2
    subst q2
    have q1' := q1
    rw [r.ended] at q1'
    have hb := (F.flag _ b q1').2 ⟨o, by rw [← r.calls]; exact ho, hgen⟩
    subst hb
    exact q1

include hn in
/-- What readers see of one event. -/
theorem seen_event (I : IncInv c src s i rest) (e : Ev) [Decidable (i.Committed e)] :
    ((i.seen e.part).filter fun x => x.1 = e).map Prod.snd = if i.Committed e then i.made e else [] := by
  have hids := (C04_in_order hn I.reach).2.2.2
  rw [seen_eq hn I, List.filter_flatMap]
  have hf : ∀ g, ((i.prods.filter fun x => x.1.part = e.part ∧ (x.1, g) ∈ i.pool.added).filter fun x => x.1 = e) =
      if (e, g) ∈ i.pool.added then i.prods.filter fun x => x.1 = e else [] := by
    intro g
    rw [List.filter_filter]
    split
    · rename_i h
      apply List.filter_congr
      intro x _
      by_cases hx : x.1 = e
      · simp [hx, h]
      · simp [hx]
    · rename_i h
      rw [List.filter_eq_nil_iff]
      intro x _
      simp only [Bool.and_eq_true, decide_eq_true_eq, not_and]
      rintro rfl
      tauto
  have hK : ∀ K, (List.range K).flatMap (fun g => ((i.prods.filter fun x => x.1.part = e.part ∧ (x.1, g) ∈ i.pool.added).filter
      fun x => x.1 = e)) = if ∃ g, g < K ∧ (e, g) ∈ i.pool.added then i.prods.filter fun x => x.1 = e else [] := by
    intro K
    induction K with
    | zero => simp
    | succ K ih =>
      rw [List.range_succ, List.flatMap_append, ih, List.flatMap_singleton, hf]
      by_cases h1 : ∃ g, g < K ∧ (e, g) ∈ i.pool.added
      · obtain ⟨g, hg, hga⟩ := h1
        have h2 : (e, K) ∉ i.pool.added := by
          intro h
          have := congrArg Prod.snd (seen_eq.inj_of_nodup hids hga h rfl)
          simp only at this; omega
        rw [if_pos ⟨g, hg, hga⟩, if_neg h2, if_pos ⟨g, by omega, hga⟩, List.append_nil]
      · rw [if_neg h1, List.nil_append]
        by_cases h2 : (e, K) ∈ i.pool.added
        · rw [if_pos h2, if_pos ⟨K, by omega, h2⟩]
        · rw [if_neg h2, if_neg]
          rintro ⟨g, hg, hga⟩
          rcases Nat.lt_succ_iff_lt_or_eq.1 hg with h | h
          · exact h1 ⟨g, h, hga⟩
          · subst h; exact h2 hga
  rw [hK]
  unfold Inc.made
  by_cases hmade : i.prods.filter (fun x => x.1 = e) = []
  · rw [hmade]; simp
  · obtain ⟨x, hx⟩ := List.exists_mem_of_ne_nil _ hmade
    rw [List.mem_filter] at hx
    obtain ⟨e', v⟩ := x
    have hee : e' = e := by simpa using hx.2
    subst hee
    have := committed_gen hn I hx.1
    by_cases hc : i.Committed e'
    · rw [if_pos hc, if_pos (this.1 hc)]
    · rw [if_neg hc, if_neg (fun h => hc (this.2 h))]; rfl

/-! ### The steps -/

theorem added_step {p p' : Pool} {l : Label} (h : Eos.step c p l = some p') (hl : ∀ e, l ≠ .add e) : p'.added = p.added := by
  have hpa : ∀ q tp r, (produce p q tp r).added = p.added := by
    intro q tp r; unfold produce; dsimp only; split <;> rfl
  have hrl : ∀ q tp, (relinquish c.poolSize p q tp).added = p.added := by
    intro q tp; unfold relinquish; dsimp only; split <;> rfl
  have same : ∀ {p'' : Pool}, some p'' = some p' → p''.added = p.added → p'.added = p.added := by
    intro p'' h4 h1
    rw [← Option.some.inj h4, h1]
  cases l <;>
  · unfold Eos.step at h
    simp only at h
    repeat' split at h
    all_goals first
      | exact absurd rfl (hl _)
      | exact same h rfl
      | exact same h (hpa _ _ _)
      | exact same h (hrl _ _)
      | cases h

theorem added_add {p p' : Pool} {e : Ev} (h : Eos.step c p (.add e) = some p') :
    ∃ g, p'.added = p.added ++ [(e, g)] ∧ p'.calls = p.calls := by
  unfold Eos.step at h
  simp only at h
  repeat' split at h
  all_goals first
    | (cases h; exact ⟨_, rfl, rfl⟩)
    | cases h

/-- Only the application's calls add records of the application. -/
theorem calls_quiet {p p' : Pool} {l : Label} (h : Eos.step c p l = some p') (hl : ∀ e x, l ≠ .produce e x) :
    p'.calls = p.calls ∨ ∃ g tp off, p'.calls = p.calls ++ [⟨g, tp, .commit tp off⟩] := by
  by_cases hw : l = .wait
  · subst hw
    unfold Eos.step at h
    simp only at h
    repeat' split at h
    all_goals first
      | (cases h; exact .inr ⟨_, _, _, (Recycle.produce_calls ..).1⟩)
      | (cases h; exact .inl rfl)
      | cases h
  · exact .inl (Recycle.calls_step h hw hl)

theorem recOf_append {prods : List (Ev × Nat)} {o : Out} (m : List (Ev × Nat)) (h : ∀ k, o.r = .user k → k < prods.length) :
    recOf (prods ++ m) o = recOf prods o := by
  unfold recOf
  cases hr : o.r with
  | user k => exact List.getElem?_append_left (h k hr)
  | commit _ _ => rfl

theorem inv_pool (I : IncInv c src s i rest) {l : Label} {p' : Pool} (hl : internal l = true) (h : Eos.step c i.pool l = some p') :
    IncInv c src s { i with pool := p' } rest := by
  have h1 : ∀ e, l ≠ .add e := by rintro e rfl; simp [internal] at hl
  have h2 : ∀ e x, l ≠ .produce e x := by rintro e x rfl; simp [internal] at hl
  have h3 : l ≠ .commitFail true := by rintro rfl; simp [internal] at hl
  have ha := added_step h h1
  refine ⟨.step l I.reach h3 h, ?_, ?_, ?_, ?_⟩
  · rcases calls_quiet h h2 with hc | ⟨g, tp, off, hc⟩
    · dsimp only; rw [hc]; exact I.recs
    · dsimp only; rw [hc, List.filterMap_append, I.recs]; simp [recOf]
  · rcases calls_quiet h h2 with hc | ⟨g, tp, off, hc⟩
    · dsimp only; rw [hc]; exact I.bound
    · dsimp only; rw [hc]
      intro o ho k hk
      rcases List.mem_append.1 ho with ho | ho
      · exact I.bound o ho k hk
      · rw [List.mem_singleton] at ho; subst ho; simp at hk
  · dsimp only; rw [ha]
    rcases calls_quiet h h2 with hc | ⟨g, tp, off, hc⟩
    · rw [hc]; exact I.made
    · rw [hc]
      intro o ho x hx
      rcases List.mem_append.1 ho with ho | ho
      · exact I.made o ho x hx
      · rw [List.mem_singleton] at ho; subst ho; simp [recOf] at hx
  · dsimp only; rw [ha]; exact I.fed

theorem inv_add (I : IncInv c src s i rest) {e : Ev} {p' : Pool} (h : Eos.step c i.pool (.add e) = some p') {rest' : Nat → List Nat}
    (hr : ∀ tp, (if e.part = tp then e.off.toList else []) ++ rest' tp = rest tp) :
    IncInv c src s { i with pool := p' } rest' := by
  obtain ⟨g, ha, hc⟩ := added_add h
  refine ⟨.step _ I.reach (by simp) h, ?_, ?_, ?_, ?_⟩
  · dsimp only; rw [hc]; exact I.recs
  · dsimp only; rw [hc]; exact I.bound
  · dsimp only; rw [hc, ha]
    intro o ho x hx
    obtain ⟨q1, q2⟩ := I.made o ho x hx
    exact ⟨q1, List.mem_append_left _ q2⟩
  · intro tp
    dsimp only
    rw [ha, List.filter_append, List.filterMap_append, List.append_assoc, ← I.fed tp, ← hr tp]
    congr 2
    by_cases hp : e.part = tp
    · cases ho : e.off <;> simp [hp, ho]
    · simp [hp]

include hn in
theorem inv_emit (I : IncInv c src s i rest) {e : Ev} {v : Nat} {p' : Pool}
    (h : Eos.step c i.pool (.produce e i.prods.length) = some p') : IncInv c src s ⟨p', i.prods ++ [(e, v)]⟩ rest := by
  obtain ⟨g, hg, -, hc⟩ := C02_records_in_their_transaction hn I.reach h
  have ha := added_step h (by intro e h; cases h)
  have hnew : recOf (i.prods ++ [(e, v)]) ⟨g, e.part, .user i.prods.length⟩ = some (e, v) := by simp [recOf]
  refine ⟨.step _ I.reach (by simp) h, ?_, ?_, ?_, ?_⟩
  · dsimp only
    rw [hc, List.filterMap_append]
    have : i.pool.calls.filterMap (recOf (i.prods ++ [(e, v)])) = i.pool.calls.filterMap (recOf i.prods) := by
      apply List.filterMap_congr
      intro o ho
      exact recOf_append _ (I.bound o ho)
    rw [this, I.recs, List.filterMap_cons, hnew]
    rfl
  · dsimp only
    rw [hc]
    intro o ho k hk
    rw [List.length_append, List.length_singleton]
    rcases List.mem_append.1 ho with ho | ho
    · have := I.bound o ho k hk; omega
    · rw [List.mem_singleton] at ho; subst ho
      simp only [Rec.user.injEq] at hk
      omega
  · dsimp only
    rw [hc, ha]
    intro o ho x hx
    rcases List.mem_append.1 ho with ho | ho
    · rw [recOf_append _ (I.bound o ho)] at hx
      exact I.made o ho x hx
    · rw [List.mem_singleton] at ho; subst ho
      rw [hnew] at hx
      cases hx
      exact ⟨rfl, hg⟩
  · dsimp only; rw [ha]; exact I.fed

theorem inv_start : IncInv c src s (Inc.start c) fun tp => (src tp).filter fun o => s tp ≤ o :=
  ⟨.init, by simp [Inc.start, Pool.init], by simp [Inc.start, Pool.init], by simp [Inc.start, Pool.init],
    by simp [Inc.start, Pool.init]⟩

/-! ### The world -/

structure Inv (c : Cfg) (src : Nat → List Nat) (w : World) : Prop where
  past : ∀ j i, w.past[j]? = some i → ∃ rest, IncInv c src (watermark (w.past.take j)) i rest
  cur : IncInv c src (watermark w.past) w.cur w.next

theorem Inv.all {w : World} (I : Inv c src w) {j : Nat} {i : Inc} (h : w.incs[j]? = some i) :
    ∃ rest, IncInv c src (watermark (w.incs.take j)) i rest := by
  unfold World.incs at h ⊢
  rcases Nat.lt_trichotomy j w.past.length with hj | hj | hj
  · rw [List.getElem?_append_left hj] at h
    rw [List.take_append_of_le_length hj.le]
    exact I.past j i h
  · subst hj
    simp only [List.getElem?_concat_length, Option.some.injEq] at h
    subst h
    rw [List.take_left]
    exact ⟨_, I.cur⟩
  · rw [List.getElem?_eq_none (by simp; omega)] at h
    simp at h

include hn in
theorem inv_reach {w : World} (h : Reach c src w) : Inv c src w := by
  induction h with
  | init => exact ⟨by simp [boot], inv_start⟩
  | @step w w' a _ hs I =>
    cases a with
    | pool l =>
      simp only [step] at hs
      split at hs
      · rename_i hl
        obtain ⟨p, hp, rfl⟩ := Option.map_eq_some_iff.1 hs
        exact ⟨I.past, inv_pool I.cur hl hp⟩
      · simp at hs
    | feed tp id =>
      simp only [step] at hs
      split at hs
      · rename_i o rest hnx
        obtain ⟨p, hp, rfl⟩ := Option.map_eq_some_iff.1 hs
        refine ⟨I.past, inv_add I.cur hp ?_⟩
        intro tp'
        dsimp only
        by_cases h : tp = tp'
        · subst h; rw [if_pos rfl, hnx]; simp [upd]
        · rw [if_neg h]; simp [upd, Ne.symm h]
      · simp at hs
    | interject tp id =>
      simp only [step] at hs
      obtain ⟨p, hp, rfl⟩ := Option.map_eq_some_iff.1 hs
      refine ⟨I.past, inv_add I.cur hp ?_⟩
      intro tp'
      simp
    | emit e v =>
      simp only [step] at hs
      obtain ⟨p, hp, rfl⟩ := Option.map_eq_some_iff.1 hs
      exact ⟨I.past, inv_emit hn I.cur hp⟩
    | crash =>
      simp only [step, Option.some.injEq] at hs
      subst hs
      refine ⟨?_, inv_start⟩
      intro j i hj
      exact I.all hj

/-- The watermark of the first incarnations of a list. -/
theorem watermark_take_succ {l : List Inc} {j : Nat} {i : Inc} (h : l[j]? = some i) (tp : Nat) :
    watermark (l.take (j + 1)) tp = endWm (watermark (l.take j)) i tp := by
  rw [List.take_add_one, h, ← watermark_snoc]
  rfl

include hn in
theorem wm_mono (hsrc : ∀ tp, (src tp).Pairwise (· < ·)) {w : World} (I : Inv c src w) (tp : Nat) {j k : Nat} (hjk : j ≤ k) :
    watermark (w.incs.take j) tp ≤ watermark (w.incs.take k) tp := by
  induction hjk with
  | refl => exact Nat.le_refl _
  | @step k _ ih =>
    refine Nat.le_trans ih ?_
    cases hk : w.incs[k]? with
    | none => 
      rw [List.take_add_one, hk]; simp
    | some i =>
      rw [watermark_take_succ hk]
      obtain ⟨rest, J⟩ := I.all hk
      exact endWm_le hn hsrc J tp

include hn in
/-- The offsets that an incarnation commits lie between the watermarks before and after it. -/
theorem committed_range (hsrc : ∀ tp, (src tp).Pairwise (· < ·)) {w : World} (I : Inv c src w) {j : Nat} {i : Inc}
    (hj : w.incs[j]? = some i) {e : Ev} {o : Nat} (hc : i.Committed e) (ho : e.off = some o) :
    o ∈ src e.part ∧ watermark (w.incs.take j) e.part ≤ o ∧ o < watermark (w.incs.take (j + 1)) e.part := by
  obtain ⟨rest, J⟩ := I.all hj
  obtain ⟨g, he, hg⟩ := hc
  have h1 := (committed_wm hn hsrc J he rfl ho).1 ⟨g, he, hg⟩
  rw [watermark_take_succ hj]
  have : o ∈ (src e.part).filter fun o => watermark (w.incs.take j) e.part ≤ o := by
    rw [← J.fed e.part]
    exact List.mem_append_left _ (List.mem_filterMap.2 ⟨(e, g), List.mem_filter.2 ⟨he, by simp⟩, ho⟩)
  rw [List.mem_filter] at this
  exact ⟨this.1, by simpa using this.2, h1⟩

include hn in
/-- Two commits of one offset are the same event of the same incarnation. -/
theorem committed_unique (hsrc : ∀ tp, (src tp).Pairwise (· < ·)) {w : World} (I : Inv c src w) {j j' : Nat} {i i' : Inc}
    (hj : w.incs[j]? = some i) (hj' : w.incs[j']? = some i') {e e' : Ev} {o : Nat} (hc : i.Committed e) (hc' : i'.Committed e')
    (ho : e.off = some o) (ho' : e'.off = some o) (hp : e.part = e'.part) : j = j' ∧ e = e' := by
  obtain ⟨-, a1, a2⟩ := committed_range hn hsrc I hj hc ho
  obtain ⟨-, b1, b2⟩ := committed_range hn hsrc I hj' hc' ho'
  rw [← hp] at b1 b2
  have hjj : j = j' := by
    rcases Nat.lt_trichotomy j j' with h | h | h
    · have := wm_mono hn hsrc I e.part (show j + 1 ≤ j' from h); omega
    · exact h
    · have := wm_mono hn hsrc I e.part (show j' + 1 ≤ j from h); omega
  refine ⟨hjj, ?_⟩
  subst hjj
  rw [hj] at hj'
  cases hj'
  obtain ⟨rest, J⟩ := I.all hj
  obtain ⟨g, he, _⟩ := hc
  obtain ⟨g', he', _⟩ := hc'
  have hio := J.inOrder hsrc e.part
  by_contra hne
  -- the offsets of the partition are without duplicates
  have key : ∀ (l : List (Ev × Nat)), ((l.filter fun x => x.1.part = e.part).filterMap fun x => x.1.off).Pairwise (· < ·) →
      ∀ g g', (e, g) ∈ l → (e', g') ∈ l → False := by
    intro l
    induction l with
    | nil => intro _ g g' h; simp at h
    | cons x l ih =>
      intro hl g g' h1 h2
      have hl' : ((l.filter fun x => x.1.part = e.part).filterMap fun x => x.1.off).Pairwise (· < ·) := by
        by_cases hx : x.1.part = e.part
        · rw [List.filter_cons_of_pos (by simpa using hx)] at hl
          cases hxo : x.1.off with
          | none => rwa [List.filterMap_cons, hxo] at hl
          | some o => rw [List.filterMap_cons, hxo] at hl; exact (List.pairwise_cons.1 hl).2
        · rwa [List.filter_cons_of_neg (by simpa using hx)] at hl
      have hmem : ∀ (d : Ev) (k : Nat), (d, k) ∈ l → d.part = e.part → d.off = some o →
          o ∈ (l.filter fun x => x.1.part = e.part).filterMap fun x => x.1.off := by
        intro d k hd hdp hdo
        exact List.mem_filterMap.2 ⟨(d, k), List.mem_filter.2 ⟨hd, by simpa using hdp⟩, hdo⟩
      rcases List.mem_cons.1 h1 with h3 | h3 <;> rcases List.mem_cons.1 h2 with h4 | h4
      · exact hne (congrArg Prod.fst (h3.trans h4.symm))
      · subst h3
        rw [List.filter_cons_of_pos (by simp), List.filterMap_cons, ho] at hl
        have := (List.pairwise_cons.1 hl).1 o (hmem e' g' h4 hp.symm ho')
        omega
      · subst h4
        rw [List.filter_cons_of_pos (by simpa using hp.symm), List.filterMap_cons, ho'] at hl
        have := (List.pairwise_cons.1 hl).1 o (hmem e g h3 rfl ho)
        omega
      · exact ih hl' g g' h3 h4
  exact key _ hio g g' he he'

theorem flatMap_single {α β : Type} {f : α → List β} : ∀ {l : List α} {k : Nat} {x : α}, l[k]? = some x →
    (∀ j y, l[j]? = some y → j ≠ k → f y = []) → l.flatMap f = f x := by
  intro l
  induction l with
  | nil => intro k x h; simp at h
  | cons a l ih =>
    intro k x h hne
    rw [List.flatMap_cons]
    cases k with
    | zero =>
      simp only [List.getElem?_cons_zero, Option.some.injEq] at h
      subst h
      have : l.flatMap f = [] := by
        rw [List.flatMap_eq_nil_iff]
        intro y hy
        obtain ⟨j, hj⟩ := List.getElem?_of_mem hy
        exact hne (j + 1) y (by simpa using hj) (by omega)
      rw [this, List.append_nil]
    | succ k =>
      rw [hne 0 a (by simp) (by omega), List.nil_append]
      exact ih (by simpa using h) (fun j y hy hk => hne (j + 1) y (by simpa using hy) (by omega))

include hn in
/-- What readers see belongs to committed events of the partition. -/
theorem seen_committed (J : IncInv c src s i rest) {tp : Nat} {x : Ev × Nat} (hx : x ∈ i.seen tp) :
    i.Committed x.1 ∧ x.1.part = tp := by
  rw [seen_eq hn J, List.mem_flatMap] at hx
  obtain ⟨g, hg, hx⟩ := hx
  rw [List.mem_filter] at hx
  have h2 : x.1.part = tp ∧ (x.1, g) ∈ i.pool.added := by simpa using hx.2
  exact ⟨(committed_gen hn J (v := x.2) hx.1).2 ⟨g, List.mem_range.1 hg, h2.2⟩, h2.1⟩

include hn in
theorem wm_le (hsrc : ∀ tp, (src tp).Pairwise (· < ·)) {w : World} (I : Inv c src w) (tp k : Nat) :
    watermark (w.incs.take k) tp ≤ w.wm tp := by
  unfold World.wm
  by_cases hlt : k ≤ w.incs.length
  · have := wm_mono hn hsrc I tp hlt
    rwa [List.take_length] at this
  · rw [List.take_of_length_le (by omega)]

theorem committed_pool {p p' : Pool} {prods prods' : List (Ev × Nat)} {l : Label} (hr : Eos.Reach c p) (hl : l ≠ .commitFail true)
    (hs : Eos.step c p l = some p') (hn : 0 < c.poolSize) {e : Ev} (h : (⟨p, prods⟩ : Inc).Committed e) :
    (⟨p', prods'⟩ : Inc).Committed e := by
  obtain ⟨g, h1, h2⟩ := h
  exact ⟨g, added_mono hs _ h1, (C02_nothing_after_the_end hn hr hl hs h2).1⟩

include hn in
/-- What an incarnation has committed stays committed, with the same records. -/
theorem incs_step {w w' : World} (h : Reach c src w) {a : Act} (hs : step c src w a = some w') (j : Nat) (i : Inc)
    (hj : w.incs[j]? = some i) : ∃ i', w'.incs[j]? = some i' ∧ ∀ e, i.Committed e → i'.Committed e ∧ i'.made e = i.made e := by
  have I := inv_reach hn h
  -- a step of the current incarnation
  have cur : ∀ (i' : Inc), w'.past = w.past → w'.cur = i' →
      (∀ e, w.cur.Committed e → i'.Committed e ∧ i'.made e = w.cur.made e) →
      ∃ i', w'.incs[j]? = some i' ∧ ∀ e, i.Committed e → i'.Committed e ∧ i'.made e = i.made e := by
    intro i' hp hc hi
    unfold World.incs at hj ⊢
    rw [hp, hc]
    rcases Nat.lt_trichotomy j w.past.length with hlt | hlt | hlt
    · rw [List.getElem?_append_left hlt] at hj ⊢
      exact ⟨i, hj, fun e he => ⟨he, rfl⟩⟩
    · subst hlt
      simp only [List.getElem?_concat_length, Option.some.injEq] at hj
      subst hj
      exact ⟨i', by simp, hi⟩
    · rw [List.getElem?_eq_none (by simp; omega)] at hj
      simp at hj
  cases a with
  | pool l =>
    simp only [step] at hs
    split at hs
    · rename_i hl
      obtain ⟨p, hp, rfl⟩ := Option.map_eq_some_iff.1 hs
      have h3 : l ≠ .commitFail true := by rintro rfl; simp [internal] at hl
      exact cur _ rfl rfl fun e he => ⟨committed_pool I.cur.reach h3 hp hn he, rfl⟩
    · simp at hs
  | feed tp id =>
    simp only [step] at hs
    split at hs
    · obtain ⟨p, hp, rfl⟩ := Option.map_eq_some_iff.1 hs
      exact cur _ rfl rfl fun e he => ⟨committed_pool I.cur.reach (by simp) hp hn he, rfl⟩
    · simp at hs
  | interject tp id =>
    simp only [step] at hs
    obtain ⟨p, hp, rfl⟩ := Option.map_eq_some_iff.1 hs
    exact cur _ rfl rfl fun e he => ⟨committed_pool I.cur.reach (by simp) hp hn he, rfl⟩
  | emit d v =>
    simp only [step] at hs
    obtain ⟨p, hp, rfl⟩ := Option.map_eq_some_iff.1 hs
    refine cur _ rfl rfl fun e he => ⟨committed_pool I.cur.reach (by simp) hp hn he, ?_⟩
    obtain ⟨g, hg, hne, -⟩ := C02_records_in_their_transaction hn I.cur.reach hp
    have hd : d ≠ e := by
      rintro rfl
      obtain ⟨g', h1, h2⟩ := he
      have := congrArg Prod.snd (seen_eq.inj_of_nodup (C04_in_order hn I.cur.reach).2.2.2 hg h1 rfl)
      simp only at this
      subst this
      exact hne (List.mem_map.2 ⟨_, h2, rfl⟩)
    unfold Inc.made
    simp [List.filter_append, hd]
  | crash =>
    simp only [step, Option.some.injEq] at hs
    subst hs
    refine ⟨i, ?_, fun e he => ⟨he, rfl⟩⟩
    unfold World.incs at hj ⊢
    dsimp only [boot]
    rw [List.getElem?_append_left]
    · exact hj
    · exact (List.getElem?_eq_some_iff.1 hj).1

end Verif.Effects

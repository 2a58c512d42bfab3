import Verif.Flush.Head
/-
The invariant of the batcher with its clock.
-/
namespace Verif.Flush

open Verif.Batcher

set_option linter.unusedSectionVars false

variable {K : Type} [DecidableEq K]

/-- What is known of the clock of executor `i`. -/
structure Loc (delay L E : Nat) (s : S K) (i : Nat) : Prop where
  since : s.since i ≤ s.now
  start : s.start i ≤ s.now
  late : (s.b.execs i).late = (s.fired i).length
  fires : ∀ f ∈ s.fired i, f ≤ s.now ∧ s.now ≤ f + L
  armed : (s.b.execs i).timer = .armed → s.now ≤ s.due i + L
  exec : (s.b.execs i).executing = true → s.now ≤ s.start i + E
  empty : (s.b.execs i).executing = false → size (s.b.execs i) = 0 → (s.b.execs i).timer = .nil
  opn : (s.b.execs i).executing = false → 0 < size (s.b.execs i) → s.due i = s.since i + delay ∧
    ((s.b.execs i).timer = .fired → ∃ f ∈ s.fired i, s.since i + delay ≤ f ∧ f ≤ s.since i + delay + L) ∧
    ((s.b.execs i).timer = .armed → ∀ f ∈ s.fired i, f ≤ s.since i)

/-- What a step does to the functions that wait for the lock. -/
def Waiting (s : S K) (F : Nat → List Nat) (l : Batcher.Label K) (i : Nat) : Prop :=
  (l = .fire i ∧ F i = s.fired i ++ [s.now] ∧ s.due i ≤ s.now) ∨ (l = .flush i ∧ ∃ j, j < (s.fired i).length ∧ F i = (s.fired i).eraseIdx j) ∨
    (l ≠ .fire i ∧ l ≠ .flush i ∧ F i = s.fired i)

theorem loc_step {delay L E : Nat} {s : S K} {b : State K} {l : Batcher.Label K} {F : Nat → List Nat} {i : Nat} (G : Good s.b)
    (hs1 : Batcher.step s.b l = some b) (hE : Eff s.b b l i) (hW : Waiting s F l i) (P : Loc delay L E s i) : Loc delay L E { note delay s b with fired := F } i := by
  have S := G.1.str
  have hlate : (∀ f ∈ F i, f ≤ s.now ∧ s.now ≤ f + L) := by
    intro f hf
    rcases hW with ⟨_, h, _⟩ | ⟨_, j, _, h⟩ | ⟨_, _, h⟩ <;> rw [h] at hf
    · rcases List.mem_append.1 hf with hf | hf
      · exact P.fires f hf
      · rw [List.mem_singleton] at hf; omega
    · exact P.fires f (List.mem_of_mem_eraseIdx hf)
    · exact P.fires f hf
  have hsince : (note delay s b).since i ≤ s.now := by
    simp only [note]; split
    · exact Nat.le_refl _
    · exact P.since
  have hstart : (note delay s b).start i ≤ s.now := by
    simp only [note]; split
    · exact Nat.le_refl _
    · exact P.start
  rcases Bool.eq_false_or_eq_true (s.b.execs i).executing with he | he
  · -- the executor is executing
    have hti := (S.eok i).untimed he
    have hs : (note delay s b).since i = s.now := by simp [note, he]
    by_cases hends : Ends s.b l i
    · have g := hE.ends he hends
      have hFi : F i = s.fired i := by
        rcases hW with ⟨h, _⟩ | ⟨h, _⟩ | ⟨_, _, h⟩
        · rw [hends.1] at h; simp at h
        · rw [hends.1] at h; simp at h
        · exact h
      refine ⟨hsince, hstart, ?_, hlate, ?_, ?_, ?_, ?_⟩
      · change (b.execs i).late = (F i).length
        rw [g.late, hFi]; exact P.late
      · intro ht
        have : (note delay s b).due i = s.now + delay := by
          have : (b.execs i).timer = .armed := ht
          simp [note, this, hti]
        change s.now ≤ (note delay s b).due i + L
        omega
      · intro hx
        have hq := (g.busy hx).2
        have : (note delay s b).start i = s.now := by
          simp [note, hq, hends.2, cleared]
        change s.now ≤ (note delay s b).start i + E
        omega
      · intro hx h0
        rcases (g.idle hx).2 with ⟨_, h⟩ | ⟨h, _⟩
        · exact h.trans hti
        · change size (b.execs i) = 0 at h0
          omega
      · intro hx hpos
        rcases (g.idle hx).2 with ⟨h, _⟩ | ⟨_, h⟩
        · change 0 < size (b.execs i) at hpos
          rw [h] at hpos
          simp [size, cleared] at hpos
        · have ht : (b.execs i).timer = .armed := by rw [h]; simp [cleared, hti]
          have hd : (note delay s b).due i = s.now + delay := by simp [note, ht, hti]
          refine ⟨hd.trans (by change _ = (note delay s b).since i + delay; rw [hs]), fun hf => ?_, fun _ f hf => ?_⟩
          · change (b.execs i).timer = .fired at hf
            rw [ht] at hf; simp at hf
          · change f ≤ (note delay s b).since i
            rw [hs]; exact (hlate f hf).1
    · obtain ⟨h1, h2, h3, h4, h5, h6, h7⟩ := hE.busy he hends
      have hst : (note delay s b).start i = s.start i := by
        simp only [note]; rw [if_neg]; rintro ⟨a, c⟩; exact c (h5 a)
      refine ⟨hsince, hstart, ?_, hlate, ?_, ?_, ?_, ?_⟩
      · change (b.execs i).late = (F i).length
        have := P.late
        rcases hW with ⟨h, hF, _⟩ | ⟨h, j, hj, hF⟩ | ⟨_, h, hF⟩
        · exfalso
          -- a timer of an executing executor is not running
          subst h
          simp [Batcher.step, hti] at hs1
        · rw [hF, List.length_eraseIdx_of_lt hj]
          rcases h6 with ⟨_, h6⟩ | ⟨h6, _⟩
          · omega
          · exact absurd h h6
        · rw [hF]
          rcases h6 with ⟨h6, _⟩ | ⟨_, h6⟩
          · exact absurd h6 h
          · omega
      · intro ht
        change (b.execs i).timer = .armed at ht
        rw [h2] at ht; simp at ht
      · intro _
        change s.now ≤ (note delay s b).start i + E
        rw [hst]; exact P.exec he
      · intro hx
        change (b.execs i).executing = false at hx
        rw [h1] at hx; simp at hx
      · intro hx
        change (b.execs i).executing = false at hx
        rw [h1] at hx; simp at hx
  · -- the executor is not executing
    have hgos := (S.eok i).idle he
    rcases hE.idle he with ⟨hl, hta, hb⟩ | ⟨hl, hm, hb⟩ | ⟨hl1, hl2, g⟩
    · -- the timer fires
      have hpos : 0 < size (s.b.execs i) := by
        rcases Nat.eq_zero_or_pos (size (s.b.execs i)) with h | h
        · have := P.empty he h
          rw [hta] at this; simp at this
        · exact h
      obtain ⟨o1, o2, o3⟩ := P.opn he hpos
      obtain ⟨hF, hdue⟩ : F i = s.fired i ++ [s.now] ∧ s.due i ≤ s.now := by
        rcases hW with ⟨_, h⟩ | ⟨h, _⟩ | ⟨h, _⟩
        · exact h
        · rw [hl] at h; simp at h
        · exact absurd hl h
      have hs : (note delay s b).since i = s.since i := by simp [note, he]; omega
      have hd : (note delay s b).due i = s.due i := by simp [note, hb]
      refine ⟨hsince, hstart, ?_, hlate, ?_, ?_, ?_, ?_⟩
      · change (b.execs i).late = (F i).length
        rw [hb, hF]; simp [P.late]
      · intro ht; change (b.execs i).timer = .armed at ht; rw [hb] at ht; simp at ht
      · intro hx; change (b.execs i).executing = true at hx; rw [hb] at hx; simp [he] at hx
      · intro _ h0; change size (b.execs i) = 0 at h0; rw [hb] at h0; simp only [size] at h0 hpos; omega
      · intro _ _
        refine ⟨?_, fun _ => ⟨s.now, ?_, ?_, ?_⟩, fun ht => ?_⟩
        · change (note delay s b).due i = (note delay s b).since i + delay
          rw [hs, hd]; exact o1
        · change s.now ∈ F i
          rw [hF]; simp
        · change (note delay s b).since i + delay ≤ s.now
          omega
        · change s.now ≤ (note delay s b).since i + delay + L
          have := P.armed hta
          omega
        · change (b.execs i).timer = .armed at ht; rw [hb] at ht; simp at ht
    · -- a timer function gets the lock
      obtain ⟨j, hj, hF⟩ : ∃ j, j < (s.fired i).length ∧ F i = (s.fired i).eraseIdx j := by
        rcases hW with ⟨h, _⟩ | ⟨_, h⟩ | ⟨_, h, _⟩
        · rw [hl] at h; simp at h
        · exact h
        · exact absurd hl h
      have hst : (note delay s b).start i = s.now := by
        simp only [note]; rw [if_pos]; rw [hb, hgos]; simp
      refine ⟨hsince, hstart, ?_, hlate, ?_, ?_, ?_, ?_⟩
      · change (b.execs i).late = (F i).length
        rw [hF, List.length_eraseIdx_of_lt hj]
        have := P.late
        omega
      · intro ht; change (b.execs i).timer = .armed at ht; rw [hb] at ht; simp at ht
      · intro _; change s.now ≤ (note delay s b).start i + E; omega
      · intro hx; change (b.execs i).executing = false at hx; rw [hb] at hx; simp at hx
      · intro hx; change (b.execs i).executing = false at hx; rw [hb] at hx; simp at hx
    · -- items are added
      have hFi : F i = s.fired i := by
        rcases hW with ⟨h, _⟩ | ⟨h, _⟩ | ⟨_, _, h⟩
        · exact absurd h hl1
        · exact absurd h hl2
        · exact h
      have hnil : (s.b.execs i).timer = .nil → size (s.b.execs i) = 0 := by
        intro h
        by_contra hc
        exact (S.eok i).timed he (by simp only [size] at hc; omega) h
      refine ⟨hsince, hstart, ?_, hlate, ?_, ?_, ?_, ?_⟩
      · change (b.execs i).late = (F i).length
        rw [g.late, hFi]; exact P.late
      · intro ht
        change (b.execs i).timer = .armed at ht
        change s.now ≤ (note delay s b).due i + L
        by_cases h : (s.b.execs i).timer = .armed
        · have : (note delay s b).due i = s.due i := by simp [note, h]
          rw [this]; exact P.armed h
        · have : (note delay s b).due i = s.now + delay := by simp [note, h, ht]
          omega
      · intro hx
        have hq := (g.busy hx).2
        have : (note delay s b).start i = s.now := by
          simp [note, hq, hgos]
        change s.now ≤ (note delay s b).start i + E
        omega
      · intro hx h0
        change size (b.execs i) = 0 at h0
        rcases (g.idle hx).2 with ⟨h, h'⟩ | ⟨h, _⟩
        · exact h'.trans (P.empty he (by omega))
        · omega
      · intro hx hpos
        change 0 < size (b.execs i) at hpos
        change (note delay s b).due i = (note delay s b).since i + delay ∧
          ((b.execs i).timer = .fired → ∃ f ∈ F i, (note delay s b).since i + delay ≤ f ∧ f ≤ (note delay s b).since i + delay + L) ∧
          ((b.execs i).timer = .armed → ∀ f ∈ F i, f ≤ (note delay s b).since i)
        have fresh : (s.b.execs i).timer = .nil → (b.execs i).timer = .armed → (note delay s b).due i = (note delay s b).since i + delay ∧
          ((b.execs i).timer = .fired → ∃ f ∈ F i, (note delay s b).since i + delay ≤ f ∧ f ≤ (note delay s b).since i + delay + L) ∧
          ((b.execs i).timer = .armed → ∀ f ∈ F i, f ≤ (note delay s b).since i) := by
          intro ht ht'
          have h1 : (note delay s b).since i = s.now := by simp [note, hnil ht]
          have h2 : (note delay s b).due i = s.now + delay := by simp [note, ht, ht']
          rw [h1, h2]
          exact ⟨rfl, fun h => by rw [ht'] at h; simp at h, fun _ f hf => (hlate f hf).1⟩
        have old : 0 < size (s.b.execs i) → (b.execs i).timer = (s.b.execs i).timer → (note delay s b).due i = (note delay s b).since i + delay ∧
          ((b.execs i).timer = .fired → ∃ f ∈ F i, (note delay s b).since i + delay ≤ f ∧ f ≤ (note delay s b).since i + delay + L) ∧
          ((b.execs i).timer = .armed → ∀ f ∈ F i, f ≤ (note delay s b).since i) := by
          intro h ht
          have h1 : (note delay s b).since i = s.since i := by simp only [note]; rw [if_neg]; rw [he]; simp; omega
          have h2 : (note delay s b).due i = s.due i := by simp [note, ht]
          rw [h1, h2, ht, hFi]
          exact P.opn he h
        rcases (g.idle hx).2 with ⟨h, h'⟩ | ⟨_, h'⟩
        · exact old (by omega) h'
        · by_cases ht : (s.b.execs i).timer = .nil
          · rw [if_pos ht] at h'
            exact fresh ht h'
          · rw [if_neg ht] at h'
            refine old ?_ h'
            rcases Nat.eq_zero_or_pos (size (s.b.execs i)) with h0 | h0
            · exact absurd (P.empty he h0) ht
            · exact h0

/-! ### All executors, and the first of the pending items -/

/-- The execution that the first of the pending items waits for had begun when it became the first. -/
def Blocked (s : S K) (x : Item K) : Prop :=
  (∃ j, s.b.assign x.key = some j ∧ (s.b.execs j).executing = true ∧ s.start j ≤ s.front) ∨
    ∀ j, j < s.b.n → (s.b.execs j).executing = true ∧ s.start j ≤ s.front

/-- The invariant of the batcher with its clock. -/
structure Tm (delay L E : Nat) (s : S K) : Prop where
  full : Full s.b
  some : 1 ≤ s.b.n
  loc : ∀ i, Loc delay L E s i
  front : s.front ≤ s.now
  blk : ∀ x r, s.b.pending = x :: r → Blocked s x

theorem note_start {delay : Nat} {s : S K} {b : State K} {l : Batcher.Label K} {j : Nat} (hE : Eff s.b b l j) (he : (s.b.execs j).executing = true)
    (hn : ¬ Ends s.b l j) : (note delay s b).start j = s.start j := by
  obtain ⟨_, _, _, _, h5, _⟩ := hE.busy he hn
  simp only [note]; rw [if_neg]; rintro ⟨a, c⟩; exact c (h5 a)

theorem blk_step {delay L E : Nat} {s : S K} {b : State K} {l : Batcher.Label K} (T : Tm delay L E s) (h : Batcher.step s.b l = some b) {x : Item K}
    {r : List (Item K)} (hp : b.pending = x :: r) : Blocked (note delay s b) x := by
  have G := T.full.good
  have G' := good_step G h
  obtain ⟨eff, pend, asg⟩ := eff_step G h
  have hstart : ∀ j, (note delay s b).start j ≤ s.now := by
    intro j
    simp only [note]; split
    · exact Nat.le_refl _
    · exact (T.loc j).start
  by_cases hh : b.pending.head? = s.b.pending.head?
  · have hfr : (note delay s b).front = s.front := by simp [note, hh]
    obtain ⟨r0, hp0⟩ : ∃ r0, s.b.pending = x :: r0 := by
      rw [hp] at hh
      cases hq : s.b.pending with
      | nil => rw [hq] at hh; simp at hh
      | cons y r0 => rw [hq] at hh; simp at hh; exact ⟨r0, by rw [hh]⟩
    have hnd := pending_nodup G T.full.acc
    rw [hp0] at hnd
    have B := T.blk x r0 hp0
    -- the execution waited for goes on
    have goes : ∀ j, s.b.assign x.key = some j → (s.b.execs j).executing = true → s.start j ≤ s.front → ¬ Ends s.b l j → Blocked (note delay s b) x := by
      intro j h1 h2 h3 h4
      refine .inl ⟨j, asg _ _ h1 h4, ((eff j).busy h2 h4).1, ?_⟩
      rw [note_start (eff j) h2 h4, hfr]; exact h3
    by_cases hends : ∃ i, Ends s.b l i
    · obtain ⟨i, hi⟩ := hends
      obtain ⟨j, hji, h1, h2⟩ := head_kept G h hi hp0 (List.nodup_cons.1 hnd).1 (by rw [hp]; simp)
      have hje : ¬ Ends s.b l j := fun hj => by
        have := hi.1.symm.trans hj.1
        simp at this; omega
      refine goes j h1 h2 ?_ hje
      rcases B with ⟨j', h1', _, h3'⟩ | B
      · rw [h1] at h1'
        simp only [Option.some.injEq] at h1'
        rw [h1']; exact h3'
      · exact (B j (G.1.str.asg _ _ h1)).2
    · have hne : ∀ j, ¬ Ends s.b l j := fun j hj => hends ⟨j, hj⟩
      rcases B with ⟨j, h1, h2, h3⟩ | B
      · exact goes j h1 h2 h3 (hne j)
      · refine .inr fun j hj => ?_
        have hn : b.n = s.b.n := (fixed_step h).1
        have hj' : j < s.b.n := by rw [← hn]; exact hj
        obtain ⟨h2, h3⟩ := B j hj'
        refine ⟨((eff j).busy h2 (hne j)).1, ?_⟩
        rw [note_start (eff j) h2 (hne j), hfr]; exact h3
  · have hfr : (note delay s b).front = s.now := by simp [note, hh]
    have hn : b.n = s.b.n := (fixed_step h).1
    rcases G'.2 x (by rw [hp]; simp) with ⟨j, h1, h2⟩ | hall
    · exact .inl ⟨j, h1, h2, by rw [hfr]; exact hstart j⟩
    · exact .inr fun j hj => ⟨hall j hj, by rw [hfr]; exact hstart j⟩

theorem tm_note {delay L E : Nat} {s : S K} {b : State K} {l : Batcher.Label K} {F : Nat → List Nat} (T : Tm delay L E s)
    (h : Batcher.step s.b l = some b) (hW : ∀ i, Waiting s F l i) : Tm delay L E { note delay s b with fired := F } where
  full := full_step T.full h
  some := by
    change 1 ≤ b.n
    rw [(fixed_step h).1]; exact T.some
  loc i := loc_step T.full.good h ((eff_step T.full.good h).1 i) (hW i) (T.loc i)
  front := by
    change (note delay s b).front ≤ s.now
    simp only [note]; split
    · exact T.front
    · exact Nat.le_refl _
  blk x r hp := blk_step T h hp

theorem tm_pass {delay L E : Nat} {s : S K} {d : Nat} (T : Tm delay L E s) (h : InTime L E s d) : Tm delay L E { s with now := s.now + d } where
  full := T.full
  some := T.some
  loc i := by
    have P := T.loc i
    obtain ⟨h1, h2, h3⟩ := h i
    refine ⟨Nat.le_trans P.since (Nat.le_add_right _ _), Nat.le_trans P.start (Nat.le_add_right _ _), P.late, fun f hf => ⟨?_, h2 f hf⟩, h1, h3, P.empty, P.opn⟩
    exact Nat.le_trans (P.fires f hf).1 (Nat.le_add_right _ _)
  front := Nat.le_trans T.front (Nat.le_add_right _ _)
  blk := T.blk

/-- Every step is one of these. -/
theorem step_cases {delay : Nat} {s s' : S K} {l : Label K} (h : step delay s l = some s') :
    (∃ d, l = .pass d ∧ s' = { s with now := s.now + d }) ∨
    ∃ m b F, Batcher.step s.b m = some b ∧ s' = { note delay s b with fired := F } ∧ (∀ i, Waiting s F m i) ∧
      (l = .does m ∨ ∃ i j, l = .flush i j ∧ m = .flush i) := by
  have upd_w : ∀ (i i' : Nat) (v : List Nat), i' ≠ i → upd s.fired i v i' = s.fired i' := fun i i' v h => upd_ne _ _ h
  cases l with
  | pass d =>
    simp only [step, Option.some.injEq] at h
    exact .inl ⟨d, rfl, h.symm⟩
  | flush i j =>
    simp only [step] at h
    split at h
    · rename_i hj
      simp only [Option.map_eq_some_iff] at h
      obtain ⟨b, hb, rfl⟩ := h
      refine .inr ⟨.flush i, b, _, hb, rfl, fun i' => ?_, .inr ⟨i, j, rfl, rfl⟩⟩
      by_cases hi : i' = i
      · subst hi
        exact .inr (.inl ⟨rfl, j, hj, upd_self _ _ _⟩)
      · exact .inr (.inr ⟨by simp, by simp; omega, upd_w _ _ _ hi⟩)
    · simp at h
  | does m =>
    have rest : (∀ i, m ≠ .fire i) → (∀ i, m ≠ .flush i) → (Batcher.step s.b m).map (note delay s) = some s' →
        ∃ m' b F, Batcher.step s.b m' = some b ∧ s' = { note delay s b with fired := F } ∧ (∀ i, Waiting s F m' i) ∧
          ((Label.does m : Label K) = .does m' ∨ ∃ i j, (Label.does m : Label K) = .flush i j ∧ m' = .flush i) := by
      intro h1 h2 h
      simp only [Option.map_eq_some_iff] at h
      obtain ⟨b, hb, rfl⟩ := h
      exact ⟨m, b, s.fired, hb, rfl, fun i => .inr (.inr ⟨h1 i, h2 i, rfl⟩), .inl rfl⟩
    cases m with
    | flush i => simp [step] at h
    | fire i =>
      simp only [step] at h
      split at h
      · rename_i hd
        simp only [Option.map_eq_some_iff] at h
        obtain ⟨b, hb, rfl⟩ := h
        refine .inr ⟨.fire i, b, _, hb, rfl, fun i' => ?_, .inl rfl⟩
        by_cases hi : i' = i
        · subst hi
          exact .inl ⟨rfl, upd_self _ _ _, hd⟩
        · exact .inr (.inr ⟨by simp; omega, by simp, upd_w _ _ _ hi⟩)
      · simp at h
    | call t B => exact .inr (rest (by simp) (by simp) h)
    | add t => exact .inr (rest (by simp) (by simp) h)
    | go i j => exact .inr (rest (by simp) (by simp) h)

theorem tm_next {delay L E : Nat} {s s' : S K} (T : Tm delay L E s) (h : Next delay L E s s') : Tm delay L E s' := by
  obtain ⟨l, hl, h⟩ := h
  rcases step_cases h with ⟨d, rfl, rfl⟩ | ⟨m, b, F, hb, rfl, hW, _⟩
  · exact tm_pass T (hl d rfl)
  · exact tm_note T hb hW

theorem tm_goes {delay L E : Nat} {s s' : S K} (T : Tm delay L E s) (h : Goes delay L E s s') : Tm delay L E s' := by
  induction h with
  | refl => exact T
  | step _ h ih => exact tm_next ih h

theorem tm_init {delay L E max n : Nat} (hm : 1 ≤ max) (hn : 1 ≤ n) : Tm delay L E (S.init K max n) where
  full := full_init max n hm
  some := hn
  loc i := by
    refine ⟨Nat.le_refl _, Nat.le_refl _, rfl, ?_, ?_, ?_, ?_, ?_⟩ <;> simp [S.init, Batcher.init, size]
  front := Nat.le_refl _
  blk x r hp := by simp [S.init, Batcher.init] at hp

theorem tm_prompt {delay L E max n : Nat} (hm : 1 ≤ max) (hn : 1 ≤ n) {s : S K} (h : Prompt delay L E max n s) : Tm delay L E s :=
  tm_goes (tm_init hm hn) h

/-- How long the first of the pending items has been the first. -/
theorem front_bound {delay L E : Nat} {s : S K} (T : Tm delay L E s) (h : s.b.pending ≠ []) : s.now ≤ s.front + E := by
  cases hp : s.b.pending with
  | nil => exact absurd hp h
  | cons x r =>
    obtain ⟨j, h1, h2⟩ : ∃ j, (s.b.execs j).executing = true ∧ s.start j ≤ s.front := by
      rcases T.blk x r hp with ⟨j, _, h⟩ | h
      · exact ⟨j, h⟩
      · exact ⟨0, h 0 T.some⟩
    have := (T.loc j).exec h1
    omega

/-- How long an open batch has been open. -/
theorem open_bound {delay L E : Nat} {s : S K} (T : Tm delay L E s) {i : Nat} (he : (s.b.execs i).executing = false)
    (hs : 0 < size (s.b.execs i)) : s.now ≤ s.since i + delay + 2 * L := by
  have P := T.loc i
  obtain ⟨o1, o2, o3⟩ := P.opn he hs
  cases ht : (s.b.execs i).timer with
  | nil => exact absurd ht ((T.full.good.1.str.eok i).timed he hs)
  | armed => have := P.armed ht; omega
  | fired =>
    obtain ⟨f, hf, _, h2⟩ := o2 ht
    have := (P.fires f hf).2
    omega

end Verif.Flush

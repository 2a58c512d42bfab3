import Verif.Flush.Proofs
/-
How long an item takes.
-/
namespace Verif.Flush

open Verif.Batcher

set_option linter.unusedSectionVars false

variable {K : Type} [DecidableEq K]

/-- An item is in executor `i` and has not been completed. -/
def In (s : S K) (x : Item K) (i : Nat) : Prop := x ∈ (s.b.execs i).unfinished ∨ x ∈ (s.b.execs i).unnooped

/-- `T` is late enough for `x` to be completed. -/
def Within (delay L E : Nat) (s : S K) (x : Item K) (T : Nat) : Prop :=
  (∃ A B, s.b.pending = A ++ x :: B ∧ s.front + E * (A.length + 1) + (delay + 2 * L) + E ≤ T) ∨
  (∃ i, In s x i ∧ (s.b.execs i).executing = false ∧ s.since i + (delay + 2 * L) + E ≤ T) ∨
  (∃ i, In s x i ∧ (s.b.execs i).executing = true ∧ s.start i + E ≤ T) ∨
  x ∈ s.b.done

theorem in_size {s : S K} {x : Item K} {i : Nat} (G : Good s.b) (h : In s x i) :
    x ∈ (s.b.execs i).items ∨ x ∈ (s.b.execs i).noops := by
  rcases h with h | h
  · exact .inl (unfinished_items G.1.str h)
  · exact .inr (unnooped_noops G.1.str h)

theorem size_pos {e : Exec K} {x : Item K} (h : x ∈ e.items ∨ x ∈ e.noops) : 0 < size e := by
  unfold size
  rcases h with h | h
  · have := List.length_pos_of_mem h; omega
  · have := List.length_pos_of_mem h; omega

/-- What is in an executor whose goroutine has not begun is not completed. -/
theorem in_of {e : Exec K} {x : Item K} (hg : e.gos = [] ∨ e.gos = [.queued]) (h : x ∈ e.items ∨ x ∈ e.noops) : x ∈ e.unfinished ∨ x ∈ e.unnooped := by
  unfold Exec.unfinished Exec.unnooped
  rcases hg with hg | hg <;> rw [hg] <;> exact h

theorem within_now {delay L E : Nat} {s : S K} {x : Item K} {T : Nat} (I : Tm delay L E s) (h : Within delay L E s x T) (hd : x ∉ s.b.done) : s.now ≤ T := by
  rcases h with ⟨A, B, hp, h⟩ | ⟨i, hi, he, h⟩ | ⟨i, hi, he, h⟩ | h
  · have := front_bound I (by rw [hp]; simp)
    have : E ≤ E * (A.length + 1) := Nat.le_mul_of_pos_right _ (by omega)
    omega
  · have := open_bound I he (size_pos (in_size I.full.good hi))
    omega
  · have := (I.loc i).exec he
    omega
  · exact absurd h hd

theorem done_step {s s' : State K} {l : Batcher.Label K} (h : Batcher.step s l = some s') : s.done <+: s'.done := by
  cases l with
  | call t b =>
    simp only [Batcher.step] at h
    split at h
    · simp only [Option.some.injEq] at h; subst h; exact List.prefix_refl _
    · simp at h
  | add t =>
    simp only [Batcher.step] at h
    split at h
    · simp at h
    · rename_i x r hx
      simp only [Option.some.injEq] at h
      subst h
      rw [(addOne_fields { s with adders := upd s.adders t r } x).2.2.2.2.1]
      exact List.prefix_refl _
  | fire i =>
    simp only [Batcher.step] at h
    split at h
    · simp only [Option.some.injEq] at h; subst h; exact List.prefix_refl _
    · simp at h
  | flush i =>
    simp only [Batcher.step] at h
    split at h
    · simp at h
    · rename_i m hm
      simp only [Option.some.injEq] at h
      have := (same_condExec (s.setE i { s.execs i with late := m }) i).done
      rw [h] at this
      rw [this]; exact List.prefix_refl _
  | go i j =>
    simp only [Batcher.step, Option.map_eq_some_iff] at h
    obtain ⟨p, hp, hs⟩ := h
    cases p with
    | queued => simp only [goStep] at hs; split at hs <;> subst hs <;> exact List.prefix_refl _
    | running => simp only [goStep] at hs; subst hs; exact List.prefix_refl _
    | completing r =>
      cases r with
      | nil => simp only [goStep] at hs; subst hs; exact List.prefix_refl _
      | cons x r => simp only [goStep] at hs; subst hs; exact List.prefix_append _ _
    | nooping r =>
      cases r with
      | nil =>
        simp only [goStep] at hs
        have := (same_finish s i j).done
        rw [hs] at this
        rw [this]; exact List.prefix_refl _
      | cons x r => simp only [goStep] at hs; subst hs; exact List.prefix_append _ _

/-- A pending item which stays pending comes closer to the front. -/
theorem pending_step {delay L E : Nat} {s : S K} {b : State K} {l : Batcher.Label K} (I : Tm delay L E s) (h : Batcher.step s.b l = some b) {x : Item K}
    {A B : List (Item K)} (hp : s.b.pending = A ++ x :: B) (hx : x ∈ b.pending) :
    ∃ A' B', b.pending = A' ++ x :: B' ∧ (note delay s b).front + E * (A'.length + 1) ≤ s.front + E * (A.length + 1) := by
  have G := I.full.good
  have hnd := pending_nodup G I.full.acc
  have hfr := front_bound I (by rw [hp]; simp)
  have same : b.pending.head? = s.b.pending.head? → ∀ A' B', b.pending = A' ++ x :: B' → A'.length ≤ A.length →
      ∃ A' B', b.pending = A' ++ x :: B' ∧ (note delay s b).front + E * (A'.length + 1) ≤ s.front + E * (A.length + 1) := by
    intro hh A' B' hb hl
    refine ⟨A', B', hb, ?_⟩
    have : (note delay s b).front = s.front := by simp [note, hh]
    have : E * (A'.length + 1) ≤ E * (A.length + 1) := Nat.mul_le_mul_left E (by omega)
    omega
  rcases (eff_step G h).2.1 with hb | ⟨t, y, r, _, _, hb⟩ | ⟨i, _, hb⟩
  · exact same (by rw [hb]) A B (by rw [hb, hp]) (Nat.le_refl _)
  · refine same (by rw [hb, hp]; cases A <;> simp) A (B ++ [y]) (by rw [hb, hp]; simp) (Nat.le_refl _)
  · rw [hp] at hb hnd
    obtain ⟨A', B', hb', hA, _⟩ := sub_split hnd hb hx
    rcases Nat.lt_or_ge A'.length A.length with hl | hl
    · refine ⟨A', B', hb', ?_⟩
      have h1 : (note delay s b).front ≤ s.front + E := by
        simp only [note]; split <;> omega
      have h2 := Nat.mul_le_mul_left E (show A'.length + 2 ≤ A.length + 1 by omega)
      have h3 : E * (A'.length + 2) = E * (A'.length + 1) + E := Nat.mul_succ _ _
      omega
    · have := hA.eq_of_length_le hl
      subst this
      exact same (by rw [hb', hp]; cases A' <;> simp) A' B' hb' (Nat.le_refl _)

theorem within_note {delay L E : Nat} {s : S K} {b : State K} {l : Batcher.Label K} {F : Nat → List Nat} (I : Tm delay L E s)
    (h : Batcher.step s.b l = some b) (hW : ∀ i, Waiting s F l i) {x : Item K} {T : Nat} (hx : Within delay L E s x T) :
    Within delay L E { note delay s b with fired := F } x T := by
  have G := I.full.good
  have I' := tm_note I h hW
  have G' := good_step G h
  have gr := grow_step h
  obtain ⟨eff, -, -⟩ := eff_step G h
  rcases hx with ⟨A, B, hp, hT⟩ | ⟨i, hi, he, hT⟩ | ⟨i, hi, he, hT⟩ | hd
  · by_cases hb : x ∈ b.pending
    · obtain ⟨A', B', h1, h2⟩ := pending_step I h hp hb
      exact .inl ⟨A', B', h1, by change (note delay s b).front + _ + _ + _ ≤ T; omega⟩
    · by_cases hd : x ∈ b.done
      · exact .inr (.inr (.inr hd))
      · have hfr := front_bound I (by rw [hp]; simp)
        have : E ≤ E * (A.length + 1) := Nat.le_mul_of_pos_right _ (by omega)
        have ha : x ∈ b.added := (gr.1).subset (pending_open G I.full.acc (by rw [hp]; simp)).1
        rcases whereabouts G' ha hd with ⟨i, _, _, hi⟩ | h
        · have P := I'.loc i
          have p1 : (note delay s b).since i ≤ s.now := P.since
          have p2 : (note delay s b).start i ≤ s.now := P.start
          rcases Bool.eq_false_or_eq_true (b.execs i).executing with he | he
          · exact .inr (.inr (.inl ⟨i, hi, he, by change (note delay s b).start i + E ≤ T; omega⟩))
          · exact .inr (.inl ⟨i, hi, he, by change (note delay s b).since i + _ + E ≤ T; omega⟩)
        · exact absurd h hb
  · have hm := in_size G hi
    have hpos := size_pos hm
    have hop := open_bound I he hpos
    have hgos := (G.1.str.eok i).idle he
    have hs : (note delay s b).since i = s.since i := by simp only [note]; rw [if_neg]; rw [he]; simp; omega
    have opens : (b.execs i).executing = false → (b.execs i).gos = [] → (x ∈ (b.execs i).items ∨ x ∈ (b.execs i).noops) →
        Within delay L E { note delay s b with fired := F } x T := fun h1 h2 h3 =>
      .inr (.inl ⟨i, in_of (.inl h2) h3, h1, by change (note delay s b).since i + _ + E ≤ T; omega⟩)
    have starts : (b.execs i).executing = true → (b.execs i).gos = [.queued] → (x ∈ (b.execs i).items ∨ x ∈ (b.execs i).noops) →
        Within delay L E { note delay s b with fired := F } x T := fun h1 h2 h3 => by
      have p2 : (note delay s b).start i ≤ s.now := (I'.loc i).start
      exact .inr (.inr (.inl ⟨i, in_of (.inr h2) h3, h1, by change (note delay s b).start i + E ≤ T; omega⟩))
    rcases (eff i).idle he with ⟨_, _, hb⟩ | ⟨_, _, hb⟩ | ⟨_, _, g⟩
    · exact opens (by rw [hb]; exact he) (by rw [hb]; exact hgos) (by rw [hb]; exact hm)
    · exact starts (by rw [hb]) (by rw [hb]) (by rw [hb]; exact hm)
    · have hm' : x ∈ (b.execs i).items ∨ x ∈ (b.execs i).noops := hm.imp (g.items x) (g.noops x)
      rcases Bool.eq_false_or_eq_true (b.execs i).executing with hb | hb
      · exact starts hb (by rw [(g.busy hb).2, hgos]; rfl) hm'
      · exact opens hb (by rw [(g.idle hb).1, hgos]) hm'
  · by_cases hE : Ends s.b l i
    · exfalso
      rcases hi with hi | hi
      · simp [Exec.unfinished, hE.2] at hi
      · simp [Exec.unnooped, hE.2] at hi
    · obtain ⟨h1, _, _, _, _, _, h7⟩ := (eff i).busy he hE
      rcases h7 x hi with h | h
      · refine .inr (.inr (.inl ⟨i, h, h1, ?_⟩))
        change (note delay s b).start i + E ≤ T
        rw [note_start (eff i) he hE]; exact hT
      · exact .inr (.inr (.inr h))
  · exact .inr (.inr (.inr ((done_step h).subset hd)))

theorem within_goes {delay L E : Nat} {s s' : S K} (I : Tm delay L E s) (h : Goes delay L E s s') {x : Item K} {T : Nat} (hx : Within delay L E s x T) :
    Within delay L E s' x T := by
  induction h with
  | refl => exact hx
  | step g h ih =>
    have I' := tm_goes I g
    obtain ⟨l, hl, h⟩ := h
    rcases step_cases h with ⟨d, rfl, rfl⟩ | ⟨m, b, F, hb, rfl, hW, _⟩
    · exact ih
    · exact within_note I' hb hW ih

theorem within_add {delay L E : Nat} {s s' : S K} {t : Nat} {x : Item K} {r : List (Item K)} (I : Tm delay L E s) (ha : s.b.adders t = x :: r)
    (h : step delay s (.does (.add t)) = some s') :
    Within delay L E s' x (s.now + E * (s.b.pending.length + 1) + (delay + 2 * L) + E) ∧ s'.now = s.now ∧ x ∈ s'.b.added := by
  have G := I.full.good
  simp only [step, Option.map_eq_some_iff] at h
  obtain ⟨b, hb, rfl⟩ := h
  have hx : x ∉ s.b.added := I.full.acc.fresh t x (by rw [ha]; simp)
  have hxp : x ∉ s.b.pending := fun h => hx (pending_open G I.full.acc h).1
  have I' := tm_note (F := s.fired) I hb (fun i => .inr (.inr ⟨by simp, by simp, rfl⟩))
  have hE : E ≤ E * (s.b.pending.length + 1) := Nat.le_mul_of_pos_right _ (by omega)
  have hadd : b.added = s.b.added ++ [x] ∧ b.done = s.b.done := by
    simp only [Batcher.step, ha, Option.some.injEq] at hb
    subst hb
    have := addOne_fields { s.b with adders := upd s.b.adders t r } x
    exact ⟨this.2.2.2.1, this.2.2.2.2.1⟩
  refine ⟨?_, rfl, by change x ∈ b.added; rw [hadd.1]; simp⟩
  have hd : x ∉ b.done := fun h => hx (done_added G.1 (by rw [hadd.2] at h; exact h))
  rcases whereabouts I'.full.good (show x ∈ b.added by rw [hadd.1]; simp) hd with ⟨i, _, _, hi⟩ | hp
  · have P := I'.loc i
    have p1 : (note delay s b).since i ≤ s.now := P.since
    have p2 : (note delay s b).start i ≤ s.now := P.start
    rcases Bool.eq_false_or_eq_true (b.execs i).executing with he | he
    · exact .inr (.inr (.inl ⟨i, hi, he, by omega⟩))
    · exact .inr (.inl ⟨i, hi, he, by omega⟩)
  · have hf : (note delay s b).front ≤ s.now := I'.front
    rcases (eff_step G hb).2.1 with h | ⟨t', y, r', ht, hy, h⟩ | ⟨i, hi, _⟩
    · change x ∈ b.pending at hp
      rw [h] at hp; exact absurd hp hxp
    · simp only [Batcher.Label.add.injEq] at ht
      subst ht
      rw [ha] at hy
      simp only [List.cons.injEq] at hy
      rw [← hy.1] at h
      exact .inl ⟨s.b.pending, [], h, by omega⟩
    · have := hi.1; simp at this

/-- A pending item leaves the list in time. -/
theorem pending_goes {delay L E : Nat} {s s' : S K} (I : Tm delay L E s) (h : Goes delay L E s s') {x : Item K} {A B : List (Item K)}
    (hp : s.b.pending = A ++ x :: B) : x ∈ s'.b.added ∧ (x ∈ s'.b.pending → s'.now ≤ s.now + E * (A.length + 1)) := by
  have key : x ∈ s'.b.added ∧ (x ∈ s'.b.pending → ∃ A' B', s'.b.pending = A' ++ x :: B' ∧ s'.front + E * (A'.length + 1) ≤ s.front + E * (A.length + 1)) := by
    induction h with
    | refl => exact ⟨(pending_open I.full.good I.full.acc (by rw [hp]; simp)).1, fun _ => ⟨A, B, hp, Nat.le_refl _⟩⟩
    | step g h ih =>
      rename_i s1 s2
      have I' := tm_goes I g
      obtain ⟨l, hl, h⟩ := h
      rcases step_cases h with ⟨d, rfl, rfl⟩ | ⟨m, b, F, hb, rfl, hW, _⟩
      · exact ih
      · obtain ⟨h1, h2⟩ := ih
        refine ⟨(grow_step hb).1.subset h1, fun hx => ?_⟩
        have hx1 : x ∈ s1.b.pending := by
          rcases (eff_step I'.full.good hb).2.1 with h | ⟨t, y, r, _, hy, h⟩ | ⟨i, _, h⟩
          · change x ∈ b.pending at hx; rw [h] at hx; exact hx
          · change x ∈ b.pending at hx
            rw [h] at hx
            rcases List.mem_append.1 hx with hx | hx
            · exact hx
            · rw [List.mem_singleton] at hx
              subst hx
              exact absurd h1 (I'.full.acc.fresh t x (by rw [hy]; simp))
          · exact h.subset hx
        obtain ⟨A1, B1, e1, e2⟩ := h2 hx1
        obtain ⟨A2, B2, e3, e4⟩ := pending_step I' hb e1 hx
        exact ⟨A2, B2, e3, Nat.le_trans e4 e2⟩
  refine ⟨key.1, fun hx => ?_⟩
  obtain ⟨A', B', h1, h2⟩ := key.2 hx
  have := front_bound (tm_goes I h) (by rw [h1]; simp)
  have := I.front
  have : E ≤ E * (A'.length + 1) := Nat.le_mul_of_pos_right _ (by omega)
  omega

end Verif.Flush

import Verif.Batches.Items
/-
Proofs for C114: what was computed can be completed.
-/
namespace Verif.Batches
open Verif.Scheduler (Job sub upd)
open Verif.Batcher (Item Batch)
open Verif.Keyed (fk upd_self upd_other)

set_option linter.unusedSectionVars false

variable {K σ X : Type} [DecidableEq K] {c : Cfg K σ X} {w w' : W K σ} {H H' : Nat → List (Job K)}

/-- A state in which there is one event, which the batcher has. -/
structure One (c : Cfg K σ X) (w0 : W K σ) (wm : Nat → Nat) (p : Nat) (y : Job K) (H : Nat → List (Job K)) (w : W K σ) : Prop where
  fr : From c w0 w
  ba : Base c H w
  only : ∀ q, ∀ z ∈ H q, z = y ∧ q = p
  has : y ∈ H p
  ev : w.ev p = [y]
  base : w.base = wm
  com : w.com = fun _ => 0
  prod : w.prod = fun _ => []

/-- A step of the batcher is possible here. -/
theorem One.inner (hm : 1 ≤ c.maxSize) (ha : 1 ≤ c.asyncSize) {w0 : W K σ} {wm : Nat → Nat} {p : Nat} {y : Job K} (O : One c w0 wm p y H w) {l : Batcher.Label K} {b : Batcher.State K}
    (hl : ∀ t Bt, l ≠ .call t Bt) (hb : Batcher.step w.bat l = some b) : ∃ w', One c w0 wm p y H w' ∧ w'.bat = b := by
  have B := O.ba
  obtain ⟨w', hw, hbat⟩ : ∃ w', step c w (.inner l) = some w' ∧ w'.bat = b := by
    have e : step c w (.inner l) = (match b.called.drop w.bat.called.length with
        | [] => some { w with bat := b }
        | i :: _ =>
          match w.evt i with
          | some y => if (w.jobs y.caller).length < c.asyncSize then some { w with bat := b, jobs := upd w.jobs y.caller (w.jobs y.caller ++ [y]) } else none
          | none => none) := by
      cases l with
      | call t Bt => exact absurd rfl (hl t Bt)
      | _ => simp only [step, hb]; rfl
    rw [e]
    rcases (Batcher.grow_step hb).2 with hc | ⟨i, hc⟩
    · rw [hc]; simp
    · have A := (Batcher.full_reach hm (reach_more B.br hb)).acc
      have one : ∀ j ∈ b.called, j = y.id := by
        intro j hj
        obtain ⟨Bt, h1, -⟩ := (A.callback j).1 hj
        rw [(noncall hl hb).1] at h1
        obtain ⟨q, z, hz, rfl⟩ := B.bat' j Bt h1
        rw [(O.only q z hz).1]
      have hi : i = y.id := one i (by rw [hc]; simp)
      have hnil : w.bat.called = [] := by
        cases hcd : w.bat.called with
        | nil => rfl
        | cons j r =>
          have hj := one j (by rw [hc, hcd]; simp)
          have hn := A.once
          rw [hc, hcd, hi, hj] at hn
          simp at hn
      have hjobs : w.jobs p = [] := by
        cases hjb : w.jobs p with
        | nil => rfl
        | cons z r =>
          have h1 : z ∈ fk z.key (w.jobs p) := List.mem_filter.mpr ⟨by rw [hjb]; simp, by simp⟩
          have h2 := B.cA p z.key
          rw [hnil] at h2
          have h3 : fk z.key (w.jobs p) = [] := by
            have := congrArg List.length h2
            simp [sub] at this
            exact this.2
          rw [h3] at h1; cases h1
      obtain ⟨hcal, -, het, -⟩ := B.ev_mem (B.H_ev O.has)
      rw [hc, hi]
      simp only [List.drop_left, het, hcal, hjobs, List.length_nil]
      rw [if_pos (by omega)]
      exact ⟨_, rfl, rfl⟩
  refine ⟨w', ?_, hbat⟩
  have hB := base_inner B hw
  have hfr := From.step (.inner l) O.fr hw
  obtain ⟨b', -, -, ⟨-, rfl⟩ | ⟨i, y', -, -, -, rfl⟩⟩ := inner_cases hw
  · exact ⟨hfr, hB, O.only, O.has, O.ev, O.base, O.com, O.prod⟩
  · exact ⟨hfr, hB, O.only, O.has, O.ev, O.base, O.com, O.prod⟩

/-- All items are added. -/
theorem One.add_all (hm : 1 ≤ c.maxSize) (ha : 1 ≤ c.asyncSize) {w0 : W K σ} {wm : Nat → Nat} {p : Nat} {y : Job K} : ∀ (n : Nat) (w : W K σ), One c w0 wm p y H w →
    (w.bat.adders p).length = n → ∃ w', One c w0 wm p y H w' ∧ w'.bat.adders p = [] := by
  intro n
  induction n with
  | zero => intro w O h; exact ⟨w, O, List.length_eq_zero_iff.mp h⟩
  | succ n ih =>
    intro w O h
    cases hx : w.bat.adders p with
    | nil => rw [hx] at h; simp at h
    | cons x r =>
      have hs : Batcher.step w.bat (.add p) = some (Batcher.addOne { w.bat with adders := Batcher.upd w.bat.adders p r } x) := by simp only [Batcher.step, hx]
      obtain ⟨w', O', hb⟩ := O.inner hm ha (by simp) hs
      refine ih w' O' ?_
      rw [hb, (Batcher.addOne_fields _ x).1]
      simp only [Batcher.upd_self]
      rw [hx] at h; simpa using h

/-- The batcher comes to rest. -/
theorem One.rest (hm : 1 ≤ c.maxSize) (ha : 1 ≤ c.asyncSize) {w0 : W K σ} {wm : Nat → Nat} {p : Nat} {y : Job K} : ∀ (n : Nat) (w : W K σ), One c w0 wm p y H w →
    w.bat.adders p = [] → w.bat.work ≤ n → ∃ w', One c w0 wm p y H w' ∧ w'.bat.adders p = [] ∧ ∀ l : Batcher.Label K, l.internal = true → Batcher.step w'.bat l = none := by
  intro n
  induction n with
  | zero =>
    intro w O h hw
    refine ⟨w, O, h, fun l hl => ?_⟩
    cases hs : Batcher.step w.bat l with
    | none => rfl
    | some b => have := Batcher.step_work (Batcher.full_reach hm O.ba.br).good hl hs; omega
  | succ n ih =>
    intro w O h hw
    by_cases hq : ∀ l : Batcher.Label K, l.internal = true → Batcher.step w.bat l = none
    · exact ⟨w, O, h, hq⟩
    · push Not at hq
      obtain ⟨l, hl, hs⟩ := hq
      obtain ⟨b, hb⟩ := Option.ne_none_iff_exists'.mp hs
      have hnc : ∀ t Bt, l ≠ .call t Bt := by rintro t Bt rfl; simp [Batcher.Label.internal] at hl
      obtain ⟨w', O', e⟩ := O.inner hm ha hnc hb
      have hwk := Batcher.step_work (Batcher.full_reach hm O.ba.br).good hl hb
      refine ih w' O' ?_ (by rw [e]; omega)
      rw [e]
      rcases (noncall hnc hb).2 with ⟨-, h2⟩ | ⟨t, x, r, h2, -, h3⟩
      · rw [h2]; exact h
      · rw [h3]
        by_cases ht : p = t
        · subst ht; rw [h] at h2; cases h2
        · rw [Batcher.upd_ne _ _ ht]; exact h

/-- After a start, the next record is done, and the process started again. -/
theorem next_one {w0 : W K σ} (hm : 1 ≤ c.maxSize) (hn : 1 ≤ c.conc) (ha : 1 ≤ c.asyncSize) {vis : Nat → List (K × Nat)} {wm : Nat → Nat} (h : From c w0 (boot c vis wm)) {p : Nat}
    {k : K} {x : X} (hx : (c.src p)[wm p]? = some (k, x)) : ∃ vis', From c w0 (boot c vis' (upd wm p (wm p + 1))) := by
  -- the record becomes an event
  obtain ⟨w1, hw1⟩ : ∃ w1, w1 = { (boot c vis wm) with
      evq := upd (fun _ => []) p [⟨k, p, 0⟩], ev := upd (fun _ => []) p [⟨k, p, 0⟩], off := upd (fun _ => 0) 0 (wm p), evt := upd (fun _ => none) 0 (some ⟨k, p, 0⟩), next := 1 } := ⟨_, rfl⟩
  have s1 : step c (boot c vis wm) (.arrive p) = some w1 := by simp [step, boot, hx, hw1]
  have B1 := base_arrive hm (boot_base c vis wm) s1
  have hq1 : w1.evq = upd (fun _ => []) p [⟨k, p, 0⟩] := by rw [hw1]
  have hv1 : value c w1 ⟨k, p, 0⟩ = some x := by simp [value, hw1, upd, hx]
  -- the handler gives it to the batcher
  obtain ⟨b2, hb2⟩ : ∃ b2, Batcher.step w1.bat (.call p (batchOf c ⟨k, p, 0⟩ x)) = some b2 := by
    simp only [Batcher.step, hw1, boot, Batcher.init]
    exact ⟨_, rfl⟩
  have s2 : step c w1 (.handle p) = some { w1 with bat := b2, evq := upd w1.evq p [] } := by
    have ha1 : w1.bat.adders p = [] := by simp [hw1, boot, Batcher.init]
    simp only [step, ha1, hq1, upd_self, hv1, hb2, Option.map_some]
  obtain ⟨H, B2, -⟩ := base_handle hm B1 s2
  have hevq2 : ∀ q, upd w1.evq p [] q = [] := by
    intro q
    by_cases hq : q = p
    · subst hq; rw [upd_self]
    · rw [upd_other _ _ hq, hq1, upd_other _ _ hq]
  have hH : ∀ q, H q = w1.ev q := by
    intro q
    have := B2.hq q
    simp only [hevq2, List.append_nil] at this
    exact this
  have O2 : One c w0 wm p ⟨k, p, 0⟩ H { w1 with bat := b2, evq := upd w1.evq p [] } := by
    refine ⟨.step (.handle p) (.step (.arrive p) h s1) s2, B2, ?_, ?_, ?_, ?_, ?_, ?_⟩
    · intro q z hz
      rw [hH q, hw1] at hz
      simp only at hz
      by_cases hq : q = p
      · subst hq; rw [upd_self] at hz; simpa using hz
      · rw [upd_other _ _ hq] at hz; cases hz
    · rw [hH p, hw1]; simp [upd]
    · simp [hw1, upd]
    · simp [hw1, boot]
    · simp [hw1, boot]
    · simp [hw1, boot]
  obtain ⟨w3, O3, h3⟩ := O2.add_all hm ha _ _ rfl
  obtain ⟨w4, O4, h4, hquiet⟩ := O3.rest hm ha _ w3 h3 (Nat.le_refl _)
  have B4 := O4.ba
  -- the callback is due
  obtain ⟨x', hv4, hb4⟩ := B4.bat p _ O4.has
  have hcalled : 0 ∈ w4.bat.called := by
    have A := (Batcher.full_reach hm B4.br).acc
    have := (Batcher.C25_quiet hm hn B4.br hquiet).2.2 (batchOf c ⟨k, p, 0⟩ x') hb4 (by
      intro i hi
      rcases A.all _ _ hb4 i hi with h | ⟨t, h⟩
      · exact h
      · obtain ⟨z, hz, -⟩ := B4.ad t i h
        rw [(O4.only t z hz).2, h4] at h; cases h)
    have h1 : w4.bat.called.count 0 = 1 := this
    exact List.count_pos_iff.mp (by omega)
  have hjobs : (⟨k, p, 0⟩ : Job K) ∈ w4.jobs p := by
    have h1 : (⟨k, p, 0⟩ : Job K) ∈ sub p k (w4.bat.called.filterMap w4.evt) :=
      List.mem_filter.mpr ⟨List.mem_filterMap.mpr ⟨0, hcalled, (B4.ev_mem (B4.H_ev O4.has)).2.2.1⟩, by simp⟩
    rw [← B4.cA p k, O4.prod] at h1
    simp [fk] at h1
    exact h1
  obtain ⟨rest, hr⟩ : ∃ rest, w4.jobs p = ⟨k, p, 0⟩ :: rest := by
    cases hjb : w4.jobs p with
    | nil => rw [hjb] at hjobs; cases hjobs
    | cons z r =>
      have h1 : z ∈ sub p z.key (w4.bat.called.filterMap w4.evt) := by
        rw [← B4.cA p z.key]
        exact List.mem_append_right _ (List.mem_filter.mpr ⟨by rw [hjb]; simp, by simp⟩)
      obtain ⟨b, hb, he⟩ := List.mem_filterMap.mp (List.mem_filter.mp h1).1
      obtain ⟨q, z', hz', -, hze, -⟩ := B4.called_H hm hb
      rw [he] at hze
      cases hze
      rw [(O4.only q z hz').1]
      exact ⟨r, rfl⟩
  have s5 : step c w4 (.job p) = some (work c { w4 with jobs := upd w4.jobs p rest } ⟨k, p, 0⟩ x') := by
    simp only [step, h4, hr, hv4]
  have r5 := From.step (.job p) O4.fr s5
  obtain ⟨w5, hw5⟩ : ∃ w5, w5 = work c { w4 with jobs := upd w4.jobs p rest } (⟨k, p, 0⟩ : Job K) x' := ⟨_, rfl⟩
  rw [← hw5] at r5
  have e1 : w5.ev p = [⟨k, p, 0⟩] := by rw [hw5]; exact O4.ev
  have e2 : w5.base = wm := by rw [hw5]; exact O4.base
  have e3 : w5.com = fun _ => 0 := by rw [hw5]; exact O4.com
  obtain ⟨rs, e4⟩ : ∃ rs, w5.prod p = [(⟨k, p, 0⟩, rs)] := by
    rw [hw5]
    simp only [work]
    rw [upd_self, O4.prod]
    exact ⟨_, rfl⟩
  -- committed, and started again
  obtain ⟨w6, hw6⟩ : ∃ w6, step c w5 (.commit p 1) = some w6 := by
    simp only [step]
    rw [if_pos ?_]
    · exact ⟨_, rfl⟩
    · rw [e1, e3, e4]; simp
  have hr6 := From.step (.crash) (.step (.commit p 1) r5 hw6) rfl
  have hwm : w6.wm = upd wm p (wm p + 1) := by
    simp only [step] at hw6
    split at hw6
    · cases hw6
      funext q
      show w5.base q + upd w5.com p (w5.com p + 1) q = _
      rw [e2, e3]
      by_cases hq : q = p
      · subst hq; rw [upd_self, upd_self]
      · rw [upd_other _ _ hq, upd_other _ _ hq]; rfl
    · cases hw6
  rw [hwm] at hr6
  exact ⟨_, hr6⟩

/-- From every state, all records of a partition can still be done. -/
theorem can_finish (hm : 1 ≤ c.maxSize) (hn : 1 ≤ c.conc) (ha : 1 ≤ c.asyncSize) {p : Nat} (hle : w.wm p ≤ (c.src p).length) :
    ∃ w', From c w w' ∧ w'.wm p = (c.src p).length := by
  have key : ∀ n (vis : Nat → List (K × Nat)) (wm : Nat → Nat), From c w (boot c vis wm) → wm p + n = (c.src p).length → ∃ w', From c w w' ∧ w'.wm p = (c.src p).length := by
    intro n
    induction n with
    | zero => intro vis wm h hn; exact ⟨_, h, by simpa [boot, W.wm] using hn⟩
    | succ n ih =>
      intro vis wm h hlen
      have hx : (c.src p)[wm p]? = some ((c.src p)[wm p]'(by omega)) := List.getElem?_eq_getElem _
      obtain ⟨vis', h'⟩ := next_one hm hn ha h (k := ((c.src p)[wm p]'(by omega)).1) (x := ((c.src p)[wm p]'(by omega)).2) hx
      exact ih vis' _ h' (by rw [upd_self]; omega)
  exact key ((c.src p).length - w.wm p) w.vis w.wm (.step .crash .init rfl) (by omega)

theorem From.trans {w0 : W K σ} (h : From c w0 w) (h' : From c w w') : From c w0 w' := by
  induction h' with
  | init => exact h
  | step x _ hx ih => exact .step x ih hx

theorem wm_le (hm : 1 ≤ c.maxSize) (h : Reach c w) (p : Nat) : w.wm p ≤ (c.src p).length := by
  induction h with
  | init => simp [init, boot, W.wm]
  | @step w w' x hr hx ih =>
    obtain ⟨H, B⟩ := base_reach hm (.step x hr hx)
    by_cases hcr : x = .crash
    · subst hcr; cases hx; simpa [boot, W.wm] using ih
    · by_cases h0 : w'.com p = 0
      · have hb : w'.base = w.base := by
          cases x with
          | crash => exact absurd rfl hcr
          | arrive q =>
            simp only [step] at hx
            split at hx
            · cases hx; rfl
            · cases hx
          | handle q =>
            obtain ⟨H0, B0⟩ := base_reach hm hr
            obtain ⟨-, -, -, -, -, -, h, -⟩ := base_handle hm B0 hx
            exact h
          | job q =>
            simp only [step] at hx
            split at hx
            · split at hx
              · cases hx; rfl
              · cases hx
            · cases hx
          | commit q m =>
            simp only [step] at hx
            split at hx
            · cases hx; rfl
            · cases hx
          | inner l => obtain ⟨b, -, -, ⟨-, rfl⟩ | ⟨i, y, -, -, -, rfl⟩⟩ := inner_cases hx <;> rfl
        unfold W.wm at ih ⊢
        rw [hb, h0]; omega
      · have hlt : w'.com p - 1 < (w'.ev p).length := by have := B.com p; omega
        obtain ⟨-, -, -, -, x', hx'⟩ := B.evs p (w'.com p - 1) _ (List.getElem?_eq_getElem hlt)
        have := (List.getElem?_eq_some_iff.mp hx').1
        unfold W.wm; omega

end Verif.Batches

import Verif.Whole.Seen
import Verif.Live.Ends
import Verif.Worker.Progress
import Mathlib.Tactic.Common
/-
What is left when a consumer has come to rest.
-/
set_option linter.unusedSimpArgs false
namespace Verif.Whole
open Verif.Eos (Ev Pool)
open Verif.Effects (Inc)
open Verif.Worker (PW It)

/-! ### A worker -/

section
variable {cw : Worker.Cfg} {s : PW}

/-- The worker can do nothing itself, except to take the answer of the pool. -/
def OwnQuiet (cw : Worker.Cfg) (s : PW) : Prop := ∀ l, own l = true → finishes l = true → l ≠ .got → Worker.step cw s l = none

theorem it_prefix {l m : List It} {x : It} {a b : List It} (h : l ++ x :: m = a ++ b) (hx : x ∉ a) {y : It} (hy : y ∈ a) : y ∈ l := by
  induction l generalizing a with
  | nil =>
    cases a with
    | nil => cases hy
    | cons z a => simp at h; exact absurd (by simp [h.1]) hx
  | cons z l ih =>
    cases a with
    | nil => cases hy
    | cons u a =>
      simp only [List.cons_append, List.cons.injEq] at h
      rcases List.mem_cons.1 hy with rfl | hy
      · rw [h.1]; simp
      · exact List.mem_cons_of_mem _ (ih h.2 (fun hc => hx (List.mem_cons_of_mem _ hc)) hy)

theorem own_jobs (hr : Worker.Reach cw s) (hq : OwnQuiet cw s) (hw : Worker.takesJobs s.wk = true) : s.jobs = [] := by
  have B := Worker.invB_reach hr
  cases he : s.jobs with
  | nil => rfl
  | cons a l =>
    exfalso
    obtain ⟨it, b⟩ := a
    have := hq .job rfl rfl (by simp)
    simp only [Worker.step, he, hw, if_true] at this
    cases b with
    | false => simp at this
    | true =>
      have hm : it ∈ s.pend := by
        rcases B.j1 it (by rw [he]; simp) with h | h
        · exact h
        · rw [h] at hw; cases hw
      have hs : s.slots ≠ 0 := by
        rw [B.slots]
        exact Nat.pos_iff_ne_zero.1 (List.length_pos_of_mem (show it ∈ Worker.live s by unfold Worker.live; simp [hm]))
      simp [Worker.completeEv, hs] at this

theorem own_pend (hr : Worker.Reach cw s) (hq : OwnQuiet cw s) (hw : Worker.takesJobs s.wk = true) : s.pend = [] := by
  have hj := own_jobs hr hq hw
  cases he : s.pend with
  | nil => rfl
  | cons it l =>
    exfalso
    have := hq (.async it true) rfl rfl (by simp)
    simp [Worker.step, he, hj] at this

/-- A worker that can do nothing has completed every event that got a producer. -/
theorem given_done (hr : Worker.Reach cw s) (ha : Worker.Asc s) (he : 1 ≤ cw.ecap) (hpl : ∀ it ∈ s.sched, it.off ≠ none) (hq : OwnQuiet cw s)
    (hg : ∀ it, s.wk = .assign it → s.prod it.id = none) {it : It} (h : Given s it) : it.id ∈ s.done := by
  have A := Worker.invA_reach hr
  have B := Worker.invB_reach hr
  have C := Worker.invC_reach hr
  have D := Worker.invD_reach hr ha
  obtain ⟨h1, h2⟩ := h
  have hnd : (s.sched.map It.id).Nodup := by rw [A.ids]; exact List.nodup_range
  have hinj : ∀ x ∈ s.sched, x.id = it.id → x = it := fun x hx hi => List.inj_on_of_nodup_map hnd hx h1 hi
  obtain ⟨pre, k1, k2⟩ := A.dec
  have hpre : it ∈ pre := by
    obtain ⟨y, hy, hyi⟩ := List.mem_map.1 ((k2 it.id).1 (by rw [h2]; simp))
    rw [← hinj y (by rw [k1]; exact List.mem_append.2 (.inl hy)) hyi]; exact hy
  have hdis : ∀ x ∈ Worker.undecided s, x ≠ it := by
    rintro x hx rfl
    rw [k1, List.map_append, List.nodup_append] at hnd
    exact hnd.2.2 _ (List.mem_map.2 ⟨x, hpre, rfl⟩) _ (List.mem_map.2 ⟨x, hx, rfl⟩) rfl
  have hacc : it ∈ s.accepted := by
    have := h1
    rw [A.acc] at this
    rcases List.mem_append.1 this with h | h
    · exact h
    · exact absurd rfl (hdis it (by unfold Worker.undecided; exact List.mem_append.2 (.inr h)))
  have hcnt := B.cnt it.id
  have hpos := Worker.ids_pos hacc
  by_cases hrel : it.id ∈ s.released
  · rcases B.rel _ hrel with h | h
    · exact h
    · rw [h2] at h; cases h
  exfalso
  rw [List.count_eq_zero_of_not_mem hrel, Nat.add_zero] at hcnt
  have hlive : it ∈ Worker.live s := by
    have hm : it.id ∈ (Worker.live s).map It.id := by
      rw [← List.count_pos_iff]; unfold Worker.ids at hcnt hpos; omega
    obtain ⟨x, hx, hxi⟩ := List.mem_map.1 hm
    have hxs : x ∈ s.sched := by rw [A.acc]; exact List.mem_append.2 (.inl (B.sub x hx))
    rw [← hinj x hxs hxi]; exact hx
  have hoff : it.off.isSome = true := Option.isSome_iff_ne_none.2 (hpl it h1)
  cases hw : s.wk with
  | boot => rw [(D.b hw).1] at h1; cases h1
  | run x => have := hq (.ret false) rfl rfl (by simp); simp [Worker.step, hw] at this
  | stopped =>
    have hz := C.zero (.inr (C.st.2 hw))
    have hcz : s.sched.countP (Worker.counts s) = 0 := by have := C.w; rw [hz] at this; omega
    have := List.countP_eq_zero.1 hcz it h1
    apply hrel
    have hf : it.id ∈ s.fin := by
      by_contra hf
      apply this
      unfold Worker.counts
      exact decide_eq_true ⟨hf, by rw [h2]; simp⟩
    exact (B.dn _ (B.fin.2 _ hf)).1
  | idle =>
    have hp := own_pend hr hq (by rw [hw]; rfl)
    have hev : s.evq = [] := by
      have := hq .handle rfl rfl (by simp)
      cases hev : s.evq with
      | nil => rfl
      | cons a l => simp [Worker.step, hw, hev] at this
    unfold Worker.live at hlive
    rw [hp, hev, hw] at hlive
    simp only [List.append_nil, Worker.wkIt, List.mem_append] at hlive
    rcases hlive with (h | h) | h
    · exact hdis it (by unfold Worker.undecided; simp [h]) rfl
    · cases hpu : s.push with
      | put x b =>
        rw [hpu] at h
        simp only [Worker.putIt, List.mem_singleton] at h
        subst h
        have := hq .put rfl rfl (by simp)
        simp only [Worker.step, hpu, hoff, if_true, hev] at this
        rw [if_pos (show ([] : List It).length < cw.ecap from he)] at this
        cases this
      | _ => rw [hpu] at h; cases h
    · have := B.ijs it h; rw [this] at hoff; cases hoff
  | assign x =>
    have hp := own_pend hr hq (by rw [hw]; rfl)
    have hx := hg x hw
    have hxl : x ∈ Worker.live s := by unfold Worker.live; rw [hw]; simp [Worker.wkIt]
    have hxs : x ∈ s.sched := by rw [A.acc]; exact List.mem_append.2 (.inl (B.sub x hxl))
    have hxo : x.off.isSome = true := Option.isSome_iff_ne_none.2 (hpl x hxs)
    have hxp : x ∉ pre := fun h => (k2 x.id).2 (List.mem_map.2 ⟨x, h, rfl⟩) hx
    obtain ⟨past, q1, _, _⟩ := D.q
    have hall : s.sched.filter (·.off.isSome) = s.sched :=
      List.filter_eq_self.2 fun y hy => Option.isSome_iff_ne_none.2 (hpl y hy)
    have hpipe : Worker.pipe s = x :: ((s.evq ++ Worker.putIt s.push ++ Worker.addIt s.push ++ Worker.slotIt s.push).filter (·.off.isSome)) := by
      unfold Worker.pipe
      rw [hw]
      simp only [Worker.wkWait, List.cons_append, List.nil_append, List.filter_cons, hxo, if_true]
    rw [hall, hpipe, k1] at q1
    have hpast : it ∈ past := it_prefix q1.symm hxp hpre
    have hnot : it ∉ s.evq ++ Worker.putIt s.push := by
      intro hm
      have hnd' := hnd
      rw [k1, q1, List.map_append, List.nodup_append] at hnd'
      refine hnd'.2.2 _ (List.mem_map.2 ⟨it, hpast, rfl⟩) _ (List.mem_map.2 ⟨it, ?_, rfl⟩) rfl
      refine List.mem_cons_of_mem _ (List.mem_filter.2 ⟨?_, hoff⟩)
      exact List.mem_append.2 (.inl (List.mem_append.2 (.inl hm)))
    unfold Worker.live at hlive
    rw [hp, hw] at hlive
    simp only [List.append_nil, Worker.wkIt, List.mem_append, List.mem_singleton] at hlive
    rcases hlive with (((h | h) | h) | h) | h
    · exact hdis it (by unfold Worker.undecided; simp [h]) rfl
    · exact hnot (List.mem_append.2 (.inr h))
    · exact hnot (List.mem_append.2 (.inl h))
    · have := B.ijs it h; rw [this] at hoff; cases hoff
    · rw [h] at h2; rw [h2] at hx; cases hx

/-- When the pool has nothing left to do for it either, the worker is at rest. -/
theorem worker_rest (hq : OwnQuiet cw s) (hg : ∀ it, s.wk = .assign it → s.prod it.id = none) (hb : s.buf = [])
    (hf : ∀ i ∈ s.done, i ∈ s.fin) (hroot : s.roots = 0) (hw : s.wk ≠ .boot) : Worker.Quiet cw s := by
  intro l hl
  cases l with
  | offer => cases hl
  | interject => cases hl
  | revoke => cases hl
  | ready wm => simp [Worker.step, hw]
  | assign r => simp [Worker.step, hb]
  | finalize i =>
    simp only [Worker.step]
    rw [if_neg]
    rintro ⟨h1, h2⟩; exact h2 (hf i h1)
  | root => simp [Worker.step, hroot]
  | got =>
    simp only [Worker.step]
    split
    · rename_i it hit; rw [hg it hit]
    · rfl
  | async it b => exact hq _ rfl hl (by simp)
  | _ => exact hq _ rfl rfl (by simp)

end

/-! ### The pool -/

section
variable {c : Eos.Cfg} {p : Pool}

theorem pool_asg (hn : 0 < c.poolSize) (h : Eos.Reach c p) (q : ∀ l, runs c p l = true → Eos.step c p l = none) {e : Ev}
    (he : e ∈ p.added.map Prod.fst) : (p.asg e.id).isSome := by
  obtain ⟨a, ha, r⟩ := Eos.sim_reach hn h
  have B := Eos.base_reach hn ha
  obtain ⟨⟨e', g⟩, hg, rfl⟩ := List.mem_map.1 he
  rw [r.added] at hg
  rw [r.asg]
  rcases B.asg2 _ _ hg with h | h
  · rw [h]; rfl
  · have := q .give rfl
    simp [Eos.step, r.fwd.trans h.2.1] at this

/-- When the events are completed and the pool can do nothing, its transactions have ended. -/
theorem pool_rest (hn : 0 < c.poolSize) (hp : 0 < c.pending) (h : Eos.Reach c p) (ok : p.com ≠ .stopped)
    (hd : ∀ e ∈ p.added.map Prod.fst, e.id ∈ p.done) (q : ∀ l, runs c p l = true → Eos.step c p l = none) :
    p.com = .idle ∧ p.cq = [] ∧ p.fwd = .idle ∧ (p.nodes p.onDeck).cnt = 0 ∧ ∀ e g, (e, g) ∈ p.added → g < p.ended.length := by
  obtain ⟨a, ha, r⟩ := Eos.sim_reach hn h
  have B := Eos.base_reach hn ha
  have F := Eos.fin_reach hn ha
  have hdone : ∀ e g, (e, g) ∈ a.added → e.id ∈ p.done := fun e g h =>
    hd e (List.mem_map.2 ⟨(e, g), by rw [r.added]; exact h, rfl⟩)
  have hcom : a.com = .idle := by
    have rc := r.com
    cases hc : a.com with
    | idle => rfl
    | stopped => rw [hc] at rc; exact absurd rc ok
    | begun =>
      rw [hc] at rc
      have := q (.beginCommit (p.nodes (a.lo % c.poolSize)).parts) rfl
      simp [Eos.step, rc, Eos.toCom, Eos.IsOrder] at this
    | relinq rest =>
      rw [hc] at rc
      have := q .release rfl
      cases rest <;> simp [Eos.step, rc, Eos.toCom] at this
    | back =>
      rw [hc] at rc
      have := q .giveBack rfl
      simp [Eos.step, rc, Eos.toCom] at this
    | fin cur flag rest =>
      rw [hc] at rc
      cases cur with
      | nil =>
        cases rest with
        | nil =>
          have := q (.endTxn (p.nodes (a.lo % c.poolSize)).parts) rfl
          simp [Eos.step, rc, Eos.toCom, Eos.IsOrder] at this
        | cons tp rest =>
          have := q .wait rfl
          simp [Eos.step, rc, Eos.toCom] at this
      | cons e es =>
        exfalso
        have hev : e ∈ (a.nodes a.lo).evs := by
          obtain ⟨dn, ct, _, _, h3⟩ := B.fin _ _ _ hc
          cases ct with
          | none => cases h3
          | some tp =>
            obtain ⟨pre, h4, _⟩ := h3
            have : e ∈ (a.nodes a.lo).chain tp := by rw [h4]; simp
            exact (Eos.mem_chain.1 this).1
        rw [B.evs a.lo (Nat.le_refl _) (.inr (by unfold Eos.A.relinquished; rw [hc])), Eos.mem_evOf] at hev
        have hd := hdone e _ hev
        have := q .wait rfl
        simp only [Eos.step, rc, Eos.toCom, if_true, if_pos hd] at this
        repeat' split at this
        all_goals cases this
  have hst : a.st = a.lo := by have := B.st; rw [hcom] at this; exact this
  have hscom : p.com = .idle := by rw [r.com, hcom]; rfl
  have hcq : p.cq = [] := by
    cases hq : p.cq with
    | nil => rfl
    | cons x l =>
      have := q .take rfl
      simp [Eos.step, hscom, hq] at this
  have htop : a.top = a.lo := by
    have h1 := r.cq
    rw [hcq] at h1
    have h2 : (List.range' a.st (a.top - a.st)).length = 0 := by
      rw [← List.length_map (f := (· % c.poolSize)), ← h1]; rfl
    rw [List.length_range'] at h2
    have := B.top
    omega
  have hfwd : p.fwd = .idle := by
    cases hf : p.fwd with
    | idle => rfl
    | added e => have := q .give rfl; simp [Eos.step, hf] at this
    | given => have := q .check rfl; simp [Eos.step, hf] at this
    | trying =>
      have := q .tryFlush rfl
      simp only [Eos.step, hf] at this
      repeat' split at this
      all_goals cases this
    | force =>
      have := q .forced rfl
      simp [Eos.step, hf, hcq, hp] at this
    | swap =>
      have hg : a.gen + 1 = a.lo := by
        rw [← htop]; unfold Eos.A.top; rw [if_pos (by rw [← r.fwd]; exact hf)]
      have hfr := r.free
      rw [hg] at hfr
      have := q .swapIn rfl
      cases hq : p.free with
      | nil =>
        rw [hq] at hfr
        have h2 : (List.range' a.lo (a.lo + c.poolSize - a.lo)).length = 0 := by
          rw [← List.length_map (f := (· % c.poolSize)), ← hfr]; rfl
        rw [List.length_range'] at h2
        omega
      | cons x l => simp [Eos.step, hf, hq] at this
  have hgen : a.gen = a.lo := by
    rw [← htop, Eos.top_of_ne]; rw [← r.fwd, hfwd]; simp
  have h2 : (p.nodes p.onDeck).cnt = (a.nodes a.gen).cnt := by
    rw [r.onDeck, r.nodes a.gen (by omega) B.win.2]
  have h1 := B.cnt a.gen (by omega) (.inr (by rw [hcom]; simp))
  have hzero : (p.nodes p.onDeck).cnt = 0 := by
    by_contra hne
    have hi : runs c p .tick = true := by
      simp only [runs, decide_eq_true_eq, hcq, List.length_nil]
      exact ⟨by omega, hp⟩
    have := q .tick hi
    simp [Eos.step, hfwd] at this
  refine ⟨hscom, hcq, hfwd, hzero, fun e g hg => ?_⟩
  rw [r.added] at hg
  have hle := B.le _ hg
  have hne : g ≠ a.gen := by
    rintro rfl
    have hm := Eos.mem_evOf.2 hg
    rw [h2, h1] at hzero
    rw [List.length_eq_zero_iff.1 hzero] at hm; cases hm
  dsimp only at hle
  have hlen : p.ended.length = a.lo := by
    rw [r.ended, ← List.length_map (f := Prod.fst), F.ended, List.length_range, if_pos (by unfold Eos.A.relinquished; rw [hcom])]
  omega

end
end Verif.Whole

import Verif.Live.Proofs
/-
A state in which nothing can happen by itself is one in which everything is finished.
-/
set_option linter.unusedSimpArgs false
namespace Verif.Live
open Verif.Eos

/-- Nothing happens by itself. -/
def Quiet (c : Cfg) (s : Sys) : Prop := ∀ l, internal c s l = true → step c s l = none

/-- Every transaction is over and nobody holds an event. -/
structure Settled (s : Sys) : Prop where
  events : ∀ e ∈ s.arrived, e.id ∈ s.pool.done ∧ ∃ g b, (e, g) ∈ s.pool.added ∧ (g, b) ∈ s.pool.ended
  buf : s.buf = []
  fwd : s.pool.fwd = .idle
  com : s.pool.com = .idle
  cq : s.pool.cq = []
  pend : s.pend = []
  workers : ∀ p, s.putting p = none ∧ s.evq p = [] ∧ s.ijq p = [] ∧ s.cur p = none

theorem prefix_of {l m : List Ev} {e : Ev} {a b : List Ev} (h : l ++ e :: m = a ++ b) (he : e ∉ a) {x : Ev} (hx : x ∈ a) : x ∈ l := by
  induction l generalizing a with
  | nil =>
    cases a with
    | nil => cases hx
    | cons y a => simp at h; exact absurd (by simp [h.1]) he
  | cons z l ih =>
    cases a with
    | nil => cases hx
    | cons y a =>
      simp only [List.cons_append, List.cons.injEq] at h
      rcases List.mem_cons.1 hx with rfl | hx
      · rw [h.1]; simp
      · exact List.mem_cons_of_mem _ (ih h.2 (fun hc => he (List.mem_cons_of_mem _ hc)) hx)

theorem added_ids {c : Cfg} {s : Sys} (I : Inv c s) {e : Ev} (h : e ∈ s.buf) : e.id ∉ s.pool.added.map (fun a => a.1.id) := by
  have := I.ids
  rw [I.arr, List.map_append, List.nodup_append] at this
  intro hc
  refine this.2.2 e.id ?_ e.id (List.mem_map_of_mem h) rfl
  rw [List.map_map]; exact hc

variable {c : Cfg} {s : Sys}

theorem quiet_give (q : Quiet c s) (e : Ev) : s.pool.fwd ≠ .added e := by
  intro h
  have := q (.pool .give) rfl
  simp [step, ownStep, Eos.step, h] at this

theorem quiet_given (q : Quiet c s) : s.pool.fwd ≠ .given := by
  intro h
  have := q (.pool .check) rfl
  simp [step, ownStep, Eos.step, h] at this

theorem quiet_trying (q : Quiet c s) : s.pool.fwd ≠ .trying := by
  intro h
  have := q (.pool .tryFlush) rfl
  simp only [step, ownStep, Eos.step, h, if_true, Option.map_eq_none_iff] at this
  repeat' split at this
  all_goals cases this

/-- In a quiet state an event that the pool has taken has a producer. -/
theorem quiet_asg (hn : 0 < c.pool.poolSize) (I : Inv c s) (q : Quiet c s) {e : Ev} (h : e ∈ s.pool.added.map Prod.fst) :
    s.pool.asg e.id ≠ none := by
  obtain ⟨a, ha, r⟩ := sim_reach hn I.reach
  have B := base_reach hn ha
  obtain ⟨⟨e', g⟩, hg, rfl⟩ := List.mem_map.1 h
  rw [r.added] at hg
  rw [r.asg]
  rcases B.asg2 _ _ hg with h | h
  · rw [h]; simp
  · exact absurd (r.fwd.trans h.2.1) (quiet_give q _)

/-- In a quiet state an event that the pool has taken is finished. -/
theorem quiet_done (hn : 0 < c.pool.poolSize) (he : 0 < c.ecap) (I : Inv c s) (q : Quiet c s) {e : Ev} (h : e ∈ s.pool.added.map Prod.fst) :
    e.id ∈ s.pool.done := by
  have harr : e ∈ s.arrived := by rw [I.arr]; exact List.mem_append.2 (.inl h)
  have hH : e ∈ s.handled := by
    have hch : of e.part s.handled ++ (s.cur e.part).toList ++ s.evq e.part ++ (s.putting e.part).toList = of e.part s.arrived := by
      rw [I.f3, I.f2, I.f1]
    cases hc : s.cur e.part with
    | none =>
      have h1 : s.evq e.part = [] := by
        have := q (.pick e.part) rfl
        cases hq : s.evq e.part with
        | nil => rfl
        | cons x l => simp [step, hc, hq] at this
      have h2 : s.putting e.part = none := by
        cases hq : s.putting e.part with
        | none => rfl
        | some x =>
          have := q (.put e.part) rfl
          have hx : x.off ≠ none := by
            apply I.offs
            have : x ∈ of e.part s.arrived := by rw [← I.f1, hq]; simp
            exact (mem_of.1 this).1
          simp [step, hq, hx, h1, he] at this
      rw [hc, h1, h2] at hch
      have : e ∈ of e.part s.handled := by
        have : e ∈ of e.part s.arrived := mem_of.2 ⟨harr, rfl⟩
        rw [← hch] at this; simpa using this
      exact (mem_of.1 this).1
    | some x =>
      obtain ⟨m1, m2⟩ := cur_picked I hc
      have hno : x ∉ s.pool.added.map Prod.fst := by
        intro hx
        have h1 := quiet_asg hn I q hx
        have := q (.handle e.part false) rfl
        simp [step, hc, h1] at this
      rw [hc, I.arr, of_append, List.append_assoc, List.append_assoc] at hch
      have := prefix_of (x := e) (l := of e.part s.handled) (e := x) (m := s.evq e.part ++ (s.putting e.part).toList)
        (by simpa using hch) (fun hc => hno (mem_of.1 hc).1) (mem_of.2 ⟨h, rfl⟩)
      exact (mem_of.1 this).1
  rcases I.hd e hH with h1 | h1
  · exact h1
  · exfalso
    obtain ⟨p1, p2, p3⟩ := I.pd e h1
    have := q (.finish e) rfl
    simp only [step, if_pos h1, Option.map_eq_none_iff, Eos.step] at this
    split at this
    · rw [if_pos ⟨h, p2⟩] at this; cases this
    · rename_i hx; exact p3 hx

theorem quiet_settled (hn : 0 < c.pool.poolSize) (hp : 0 < c.pool.pending) (he : 0 < c.ecap) (I : Inv c s) (q : Quiet c s) : Settled s := by
  obtain ⟨a, ha, r⟩ := sim_reach hn I.reach
  have B := base_reach hn ha
  have F := fin_reach hn ha
  have hdone : ∀ e g, (e, g) ∈ a.added → e.id ∈ s.pool.done := fun e g h =>
    quiet_done hn he I q (List.mem_map.2 ⟨(e, g), by rw [r.added]; exact h, rfl⟩)
  -- the commit loop
  have hcom : a.com = .idle := by
    have rc := r.com
    cases hc : a.com with
    | idle => rfl
    | stopped => rw [hc] at rc; exact absurd rc I.ok
    | begun =>
      rw [hc] at rc
      have := q (.pool (.beginCommit (s.pool.nodes (a.lo % c.pool.poolSize)).parts)) rfl
      simp [step, ownStep, Eos.step, rc, toCom, IsOrder] at this
    | relinq rest =>
      rw [hc] at rc
      have := q (.pool .release) rfl
      cases rest <;> simp [step, ownStep, Eos.step, rc, toCom] at this
    | back =>
      rw [hc] at rc
      have := q (.pool .giveBack) rfl
      simp [step, ownStep, Eos.step, rc, toCom] at this
    | fin cur flag rest =>
      rw [hc] at rc
      cases cur with
      | nil =>
        cases rest with
        | nil =>
          have := q (.pool (.endTxn (s.pool.nodes (a.lo % c.pool.poolSize)).parts)) rfl
          simp [step, ownStep, Eos.step, rc, toCom, IsOrder] at this
        | cons tp rest =>
          have := q (.pool .wait) rfl
          simp [step, ownStep, Eos.step, rc, toCom] at this
      | cons e es =>
        exfalso
        have hev : e ∈ (a.nodes a.lo).evs := by
          obtain ⟨dn, ct, _, _, h3⟩ := B.fin _ _ _ hc
          cases ct with
          | none => cases h3
          | some tp =>
            obtain ⟨pre, h4, _⟩ := h3
            have : e ∈ (a.nodes a.lo).chain tp := by rw [h4]; simp
            exact (mem_chain.1 this).1
        rw [B.evs a.lo (Nat.le_refl _) (.inr (by unfold A.relinquished; rw [hc])), mem_evOf] at hev
        have hd := hdone e _ hev
        have := q (.pool .wait) rfl
        simp only [step, ownStep, Eos.step, rc, toCom, if_true, if_pos hd, Option.map_eq_none_iff] at this
        repeat' split at this
        all_goals cases this
  have hst : a.st = a.lo := by have := B.st; rw [hcom] at this; exact this
  have hscom : s.pool.com = .idle := by rw [r.com, hcom]; rfl
  have hcq : s.pool.cq = [] := by
    cases hq : s.pool.cq with
    | nil => rfl
    | cons p l =>
      have := q (.pool .take) rfl
      simp [step, ownStep, Eos.step, hscom, hq] at this
  have htop : a.top = a.lo := by
    have h1 := r.cq
    rw [hcq] at h1
    have h2 : (List.range' a.st (a.top - a.st)).length = 0 := by
      rw [← List.length_map (f := (· % c.pool.poolSize)), ← h1]; rfl
    rw [List.length_range'] at h2
    have := B.top
    omega
  -- the forwarding loop
  have hfwd : s.pool.fwd = .idle := by
    cases hf : s.pool.fwd with
    | idle => rfl
    | added e => exact absurd hf (quiet_give q e)
    | given => exact absurd hf (quiet_given q)
    | trying => exact absurd hf (quiet_trying q)
    | force =>
      have := q (.pool .forced) rfl
      simp [step, ownStep, Eos.step, hf, hcq, hp] at this
    | swap =>
      have hg : a.gen + 1 = a.lo := by
        rw [← htop]; unfold A.top; rw [if_pos (by rw [← r.fwd]; exact hf)]
      have hfr := r.free
      rw [hg] at hfr
      have := q (.pool .swapIn) rfl
      cases hq : s.pool.free with
      | nil =>
        rw [hq] at hfr
        have h2 : (List.range' a.lo (a.lo + c.pool.poolSize - a.lo)).length = 0 := by
          rw [← List.length_map (f := (· % c.pool.poolSize)), ← hfr]; rfl
        rw [List.length_range'] at h2
        omega
      | cons x l => simp [step, ownStep, Eos.step, hf, hq] at this
  have hgen : a.gen = a.lo := by
    rw [← htop, top_of_ne]; rw [← r.fwd, hfwd]; simp
  have hbuf : s.buf = [] := by
    cases hb : s.buf with
    | nil => rfl
    | cons e l =>
      have hid := added_ids I (e := e) (by rw [hb]; simp)
      have := q .forward rfl
      simp only [step, hb, Option.map_eq_none_iff, Eos.step, hfwd, hscom, if_neg hid] at this
      cases this
  have hempty : evOf a.added a.gen = [] := by
    have h1 := B.cnt a.gen (by omega) (.inr (by rw [hcom]; simp))
    have h2 : (s.pool.nodes s.pool.onDeck).cnt = (a.nodes a.gen).cnt := by
      rw [r.onDeck, r.nodes a.gen (by omega) B.win.2]
    cases hl : evOf a.added a.gen with
    | nil => rfl
    | cons x l =>
      exfalso
      rw [hl, List.length_cons] at h1
      have hi : internal c s (.pool .tick) = true := by
        simp only [internal, decide_eq_true_eq, hcq, List.length_nil]
        exact ⟨by omega, hp⟩
      have := q (.pool .tick) hi
      simp [step, ownStep, Eos.step, hfwd] at this
  have hall : ∀ e ∈ s.arrived, e ∈ s.pool.added.map Prod.fst := by
    intro e h; rw [I.arr, hbuf] at h; simpa using h
  have hcur : ∀ p, s.cur p = none := by
    intro p
    cases hc : s.cur p with
    | none => rfl
    | some x =>
      have hx := hall x (put_arrived I (picked_put I (cur_picked I hc).1))
      have h1 := quiet_asg hn I q hx
      have := q (.handle p false) rfl
      simp [step, hc, h1] at this
  have hevq : ∀ p, s.evq p = [] := by
    intro p
    have := q (.pick p) rfl
    cases hq : s.evq p with
    | nil => rfl
    | cons x l => simp [step, hcur p, hq] at this
  refine ⟨?_, hbuf, hfwd, hscom, hcq, ?_, ?_⟩
  · intro e h
    have h1 := hall e h
    refine ⟨quiet_done hn he I q h1, ?_⟩
    obtain ⟨⟨e', g⟩, hg, rfl⟩ := List.mem_map.1 h1
    have hg' := hg
    rw [r.added] at hg'
    have hle := B.le _ hg'
    have hne : g ≠ a.gen := by
      rintro rfl
      have := mem_evOf.2 hg'
      rw [hempty] at this; cases this
    dsimp only at hle
    have hmem : g ∈ a.ended.map Prod.fst := by
      rw [F.ended, if_pos (by unfold A.relinquished; rw [hcom]), List.mem_range]
      omega
    obtain ⟨⟨g', b⟩, hb, rfl⟩ := List.mem_map.1 hmem
    exact ⟨_, b, hg, by rw [r.ended]; exact hb⟩
  · cases hp : s.pend with
    | nil => rfl
    | cons e l =>
      obtain ⟨p1, p2, p3⟩ := I.pd e (by rw [hp]; simp)
      exact absurd (quiet_done hn he I q (hall e (put_arrived I (picked_put I (handled_picked I p1))))) p2
  · intro p
    refine ⟨?_, hevq p, I.ij p, hcur p⟩
    cases hq : s.putting p with
    | none => rfl
    | some x =>
      have := q (.put p) rfl
      have hx : x.off ≠ none := by
        apply I.offs
        have : x ∈ of p s.arrived := by rw [← I.f1, hq]; simp
        exact (mem_of.1 this).1
      simp [step, hq, hx, hevq p, he] at this

end Verif.Live

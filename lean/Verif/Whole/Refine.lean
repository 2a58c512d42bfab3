import Verif.Whole.Steps
/-
The group with all its goroutines refines the group of `Verif.Fleet`.
-/
namespace Verif.Whole
open Verif.Eos (Ev Pool)
open Verif.Effects (Inc)
open Verif.Worker (PW It)

variable {c : Eos.Cfg} {ecap : Nat} {src : Nat → List Nat} {w w' : Group}

theorem upd_self {α : Type} (f : Nat → α) (k : Nat) (a : α) : Eos.upd f k a k = a := by simp [Eos.upd]

theorem upd_other {α : Type} (f : Nat → α) {k j : Nat} (a : α) (h : j ≠ k) : Eos.upd f k a j = f j := by simp [Eos.upd, h]

theorem upd2 {α : Type} (f : Nat → Nat → α) (k j : Nat) (a : α) (k' j' : Nat) :
    Eos.upd f k (Eos.upd (f k) j a) k' j' = if k' = k ∧ j' = j then a else f k' j' := by
  by_cases h : k' = k
  · subst h
    rw [upd_self]
    by_cases h2 : j' = j
    · subst h2; simp [upd_self]
    · rw [upd_other _ _ h2]; simp [h2]
  · rw [upd_other _ _ h]; simp [h]

theorem set_wks (w : Group) (k j : Nat) (s : PW) (k' j' : Nat) :
    (w.set k j s).wks k' j' = if k' = k ∧ j' = j then s else w.wks k' j' := upd2 _ _ _ _ _ _

/-- What holds of each worker by itself, and of the map of workers. -/
structure Base (c : Eos.Cfg) (ecap : Nat) (src : Nat → List Nat) (w : Group) : Prop where
  wr : ∀ k j, Worker.Reach (wcfg c ecap) (w.wks k j)
  pr : ∀ k, Eos.Reach c (w.inst k).pool
  cu : ∀ k tp j, w.cur k tp = some j ↔ j < w.nw k ∧ w.part k j = tp ∧ (w.wks k j).revoked = false
  ft : ∀ k j, (w.wks k j).fetched.filterMap id <+: ((src (w.part k j)).filter fun o => w.start k j ≤ o)
  rd : ∀ k j, (w.wks k j).wk ≠ .boot → -1 ≤ (w.wks k j).wm ∧ w.start k j ≤ (w.wks k j).wm.toNat
  un : ∀ k j, w.nw k ≤ j → w.wks k j = PW.init

theorem base_init : Base c ecap src (Group.init c) where
  wr := fun _ _ => .init
  pr := fun _ => .init
  cu := by intro k tp j; simp [Group.init]
  ft := by intro k j; simp [Group.init, PW.init]
  rd := by intro k j h; exact absurd rfl h
  un := by intro k j _; rfl

/-- Only the workers of one consumer move, and its pool. -/
theorem base_wks (B : Base c ecap src w) (h1 : w'.nw = w.nw) (h2 : w'.part = w.part) (h3 : w'.start = w.start) (h4 : w'.cur = w.cur)
    (h5 : ∀ k, Eos.Reach c (w'.inst k).pool)
    (h6 : ∀ k j, Worker.Reach (wcfg c ecap) (w'.wks k j) ∧ (w'.wks k j).revoked = (w.wks k j).revoked ∧
      ((w'.wks k j).fetched = (w.wks k j).fetched ∨
        (w'.wks k j).fetched.filterMap id <+: ((src (w.part k j)).filter fun o => w.start k j ≤ o)) ∧
      ((w'.wks k j).wm = (w.wks k j).wm ∧ ((w'.wks k j).wk = .boot ↔ (w.wks k j).wk = .boot) ∨
        -1 ≤ (w'.wks k j).wm ∧ w.start k j ≤ (w'.wks k j).wm.toNat) ∧ (w.nw k ≤ j → w'.wks k j = PW.init)) : Base c ecap src w' where
  wr := fun k j => (h6 k j).1
  pr := h5
  cu := by intro k tp j; rw [h4, h1, h2, (h6 k j).2.1]; exact B.cu k tp j
  ft := by
    intro k j; rw [h2, h3]
    rcases (h6 k j).2.2.1 with h | h
    · rw [h]; exact B.ft k j
    · exact h
  rd := by
    intro k j hb; rw [h3]
    rcases (h6 k j).2.2.2.1 with h | h
    · rw [h.1]; exact B.rd k j fun hh => hb (h.2.2 hh)
    · exact h
  un := by intro k j hj; rw [h1] at hj; exact (h6 k j).2.2.2.2 hj

theorem same_wk (B : Base c ecap src w) (k j : Nat) : Worker.Reach (wcfg c ecap) (w.wks k j) ∧ (w.wks k j).revoked = (w.wks k j).revoked ∧
      ((w.wks k j).fetched = (w.wks k j).fetched ∨
        (w.wks k j).fetched.filterMap id <+: ((src (w.part k j)).filter fun o => w.start k j ≤ o)) ∧
      ((w.wks k j).wm = (w.wks k j).wm ∧ ((w.wks k j).wk = .boot ↔ (w.wks k j).wk = .boot) ∨
        -1 ≤ (w.wks k j).wm ∧ w.start k j ≤ (w.wks k j).wm.toNat) ∧ (w.nw k ≤ j → w.wks k j = PW.init) :=
  ⟨B.wr k j, rfl, .inl rfl, .inl ⟨rfl, Iff.rfl⟩, B.un k j⟩

/-- A worker takes a step that is none of Kafka or of the group protocol. -/
theorem base_set (B : Base c ecap src w) {k j : Nat} {s : PW} (hj : j < w.nw k) (hr : Worker.Reach (wcfg c ecap) s)
    (h1 : s.revoked = (w.wks k j).revoked)
    (h2 : s.fetched = (w.wks k j).fetched ∨ s.fetched.filterMap id <+: ((src (w.part k j)).filter fun o => w.start k j ≤ o))
    (h3 : s.wm = (w.wks k j).wm ∧ (s.wk = .boot ↔ (w.wks k j).wk = .boot) ∨ -1 ≤ s.wm ∧ w.start k j ≤ s.wm.toNat) :
    Base c ecap src (w.set k j s) := by
  refine base_wks B rfl rfl rfl rfl B.pr fun k' j' => ?_
  rw [set_wks]
  split
  · rename_i h
    obtain ⟨rfl, rfl⟩ := h
    exact ⟨hr, h1, h2, h3, fun hh => by omega⟩
  · exact same_wk B k' j'

theorem base_mild (B : Base c ecap src w) {k j : Nat} {s : PW} (hj : j < w.nw k) (hr : Worker.Reach (wcfg c ecap) s)
    (M : Mild (w.wks k j) s) : Base c ecap src (w.set k j s) :=
  base_set B hj hr M.revoked (.inl M.fetched) (.inl ⟨M.wm, M.boot⟩)

/-- The pool of a consumer takes a step. -/
theorem base_move (B : Base c ecap src w) {k : Nat} {i : Inc} (h : Eos.Reach c i.pool) : Base c ecap src (w.move k i) := by
  refine base_wks (w' := w.move k i) B rfl rfl rfl rfl (fun k' => ?_) fun k' j' => same_wk B k' j'
  simp only [Group.move, Eos.upd]
  split
  · exact h
  · exact B.pr k'

/-- The calls of `Done`. -/
def Dones (cw : Worker.Cfg) (f g : Nat → PW) : Prop :=
  ∀ j, (Worker.Reach cw (f j) → Worker.Reach cw (g j)) ∧ Mild (f j) (g j) ∧ (f j = PW.init → g j = PW.init)

theorem Mild.trans {a b d : PW} (h1 : Mild a b) (h2 : Mild b d) (h3 : b.sched = a.sched) : Mild a d where
  fetched := h2.fetched.trans h1.fetched
  wm := h2.wm.trans h1.wm
  boot := h2.boot.trans h1.boot
  revoked := h2.revoked.trans h1.revoked
  prod := h2.prod.trans h1.prod
  sched := by rw [← h3, ← h1.prod]; exact h2.sched

theorem done_sched {cw : Worker.Cfg} {s : PW} {l : Worker.Label} (hl : l = .root ∨ ∃ i, l = .finalize i) :
    ((Worker.step cw s l).getD s).sched = s.sched := by
  rcases hl with rfl | ⟨i, rfl⟩ <;> simp only [Worker.step] <;> split <;> rfl

theorem done_init {cw : Worker.Cfg} {l : Worker.Label} (hl : l = .root ∨ ∃ i, l = .finalize i) :
    (Worker.step cw PW.init l).getD PW.init = PW.init := by
  rcases hl with rfl | ⟨i, rfl⟩
  · rfl
  · simp [Worker.step, PW.init]

theorem dones_one (cw : Worker.Cfg) (f : Nat → PW) (j : Nat) {l : Worker.Label} (hl : l = .root ∨ ∃ i, l = .finalize i) :
    Dones cw f (Eos.upd f j ((Worker.step cw (f j) l).getD (f j))) := by
  intro i
  by_cases h : i = j
  · subst h; rw [upd_self]
    exact ⟨fun hr => reach_getD hr l, mild_done hl, fun h => by rw [h]; exact done_init hl⟩
  · rw [upd_other _ _ h]; exact ⟨id, Mild.refl _, id⟩

theorem dones_finalized (cw : Worker.Cfg) (f : Nat → PW) (e : Ev) : Dones cw f (finalized cw f e) :=
  dones_one cw f (owner e) (.inr ⟨_, rfl⟩)

theorem upd_sched {cw : Worker.Cfg} (f : Nat → PW) (j : Nat) {l : Worker.Label} (hl : l = .root ∨ ∃ i, l = .finalize i) (i : Nat) :
    (Eos.upd f j ((Worker.step cw (f j) l).getD (f j)) i).sched = (f i).sched := by
  by_cases h : i = j
  · subst h; rw [upd_self]; exact done_sched hl
  · rw [upd_other _ _ h]

theorem dones_rooted (cw : Worker.Cfg) (f : Nat → PW) (es : List Ev) : Dones cw f (rooted cw f es) := by
  unfold rooted
  induction es generalizing f with
  | nil => intro j; exact ⟨id, Mild.refl _, id⟩
  | cons e es ih =>
    intro j
    have h1 := dones_one cw f (owner e) (l := .root) (.inl rfl) j
    have h2 := ih (Eos.upd f (owner e) ((Worker.step cw (f (owner e)) .root).getD (f (owner e)))) j
    exact ⟨fun h => h2.1 (h1.1 h), h1.2.1.trans h2.2.1 (upd_sched f _ (.inl rfl) j), fun h => h2.2.2 (h1.2.2 h)⟩

theorem base_setAll (B : Base c ecap src w) {k : Nat} {g : Nat → PW} (h : Dones (wcfg c ecap) (w.wks k) g) : Base c ecap src (w.setAll k g) := by
  refine base_wks B rfl rfl rfl rfl B.pr fun k' j' => ?_
  simp only [Group.setAll, Eos.upd]
  split
  · rename_i hk
    subst hk
    obtain ⟨h1, h2, h3⟩ := h j'
    exact ⟨h1 (B.wr _ _), h2.revoked, .inl h2.fetched, .inl ⟨h2.wm, h2.boot⟩, fun hh => h3 (B.un _ _ hh)⟩
  · exact same_wk B k' j'

theorem poolOnly_ok {l : Eos.Label} (h : poolOnly l = true) : l ≠ .commitFail true := by rintro rfl; cases h

theorem base_step (B : Base c ecap src w) (h : Goes c ecap src w w') : Base c ecap src w' := by
  cases h with
  | start => exact { B with }
  | crash _ => exact { B with }
  | @assign k tp f ha hc =>
    refine { wr := B.wr, pr := B.pr, cu := ?_, ft := ?_, rd := ?_, un := ?_ }
    · intro k' tp' j
      have hu := B.un k (w.nw k) (Nat.le_refl _)
      show Eos.upd w.cur k (Eos.upd (w.cur k) tp (some (w.nw k))) k' tp' = some j ↔
        j < Eos.upd w.nw k (w.nw k + 1) k' ∧ Eos.upd w.part k (Eos.upd (w.part k) (w.nw k) tp) k' j = tp' ∧ (w.wks k' j).revoked = false
      rw [upd2, upd2]
      by_cases hk : k' = k
      · subst hk
        rw [upd_self]
        by_cases ht : tp' = tp
        · subst ht
          simp only [and_self, if_true, Option.some.injEq]
          constructor
          · rintro rfl
            exact ⟨by omega, by simp, by rw [hu]; rfl⟩
          · rintro ⟨h1, h2, h3⟩
            by_contra hne
            have hlt : j < w.nw k' := by omega
            have hp : w.part k' j = tp' := by simpa [show j ≠ w.nw k' by omega] using h2
            have := (B.cu k' tp' j).2 ⟨hlt, hp, h3⟩
            rw [hc] at this; cases this
        · simp only [ht, and_false, if_false, true_and]
          rw [B.cu k' tp' j]
          constructor
          · rintro ⟨h1, h2, h3⟩
            exact ⟨by omega, by simpa [show j ≠ w.nw k' by omega] using h2, h3⟩
          · rintro ⟨h1, h2, h3⟩
            by_cases hj : j = w.nw k'
            · exact absurd (by simpa [hj] using h2.symm) ht
            · exact ⟨by omega, by simpa [hj] using h2, h3⟩
      · rw [upd_other _ _ hk]; simp only [hk, false_and, if_false]; exact B.cu k' tp' j
    · intro k' j
      show (w.wks k' j).fetched.filterMap id <+: ((src (Eos.upd w.part k (Eos.upd (w.part k) (w.nw k) tp) k' j)).filter fun o =>
        Eos.upd w.start k (Eos.upd (w.start k) (w.nw k) f) k' j ≤ o)
      rw [upd2, upd2]
      by_cases hh : k' = k ∧ j = w.nw k
      · obtain ⟨rfl, rfl⟩ := hh
        rw [B.un k' _ (Nat.le_refl _)]
        simp [PW.init]
      · simp only [hh, if_false]; exact B.ft k' j
    · intro k' j hb
      show -1 ≤ (w.wks k' j).wm ∧ Eos.upd w.start k (Eos.upd (w.start k) (w.nw k) f) k' j ≤ (w.wks k' j).wm.toNat
      rw [upd2]
      by_cases hh : k' = k ∧ j = w.nw k
      · obtain ⟨rfl, rfl⟩ := hh
        exact absurd (by show (w.wks k' (w.nw k')).wk = .boot; rw [B.un k' _ (Nat.le_refl _)]; rfl) hb
      · simp only [hh, if_false]; exact B.rd k' j hb
    · intro k' j hj
      refine B.un k' j ?_
      simp only [Eos.upd] at hj
      split at hj
      · rename_i h; subst h; omega
      · exact hj
  | @revoke k tp j ha hc =>
    have hcu := (B.cu k tp j).1 hc
    refine { wr := ?_, pr := B.pr, cu := ?_, ft := ?_, rd := ?_, un := ?_ }
    · intro k' j'
      show Worker.Reach _ ((w.set k j _).wks k' j')
      rw [set_wks]; split
      · rename_i h; obtain ⟨rfl, rfl⟩ := h; exact .step .revoke (B.wr k' j') rfl
      · exact B.wr k' j'
    · intro k' tp' j'
      show Eos.upd w.cur k (Eos.upd (w.cur k) tp none) k' tp' = some j' ↔ j' < w.nw k' ∧ w.part k' j' = tp' ∧
        ((w.set k j _).wks k' j').revoked = false
      rw [set_wks]
      by_cases hk : k' = k
      · subst hk
        rw [upd_self]
        by_cases ht : tp' = tp
        · subst ht
          rw [upd_self]
          constructor
          · simp
          · rintro ⟨h1, h2, h3⟩
            by_cases hj : j' = j
            · subst hj; simp at h3
            · rw [if_neg (by simp [hj])] at h3
              have := (B.cu k' tp' j').2 ⟨h1, h2, h3⟩
              rw [hc] at this
              exact absurd (Option.some.inj this).symm hj
        · rw [upd_other _ _ ht, B.cu k' tp' j']
          by_cases hj : j' = j
          · subst hj
            constructor
            · rintro ⟨_, h2, _⟩; exact absurd (h2.symm.trans hcu.2.1) ht
            · rintro ⟨_, h2, _⟩; exact absurd (h2.symm.trans hcu.2.1) ht
          · rw [if_neg (by simp [hj])]
      · rw [upd_other _ _ hk, if_neg (by simp [hk])]; exact B.cu k' tp' j'
    · intro k' j'
      show ((w.set k j _).wks k' j').fetched.filterMap id <+: _
      rw [set_wks]; split
      · rename_i h; obtain ⟨rfl, rfl⟩ := h; exact B.ft k' j'
      · exact B.ft k' j'
    · intro k' j'
      show ((w.set k j _).wks k' j').wk ≠ .boot → -1 ≤ ((w.set k j _).wks k' j').wm ∧ w.start k' j' ≤ ((w.set k j _).wks k' j').wm.toNat
      rw [set_wks]; split
      · rename_i h; obtain ⟨rfl, rfl⟩ := h; exact B.rd k' j'
      · exact B.rd k' j'
    · intro k' j' hj
      show (w.set k j _).wks k' j' = PW.init
      rw [set_wks]; split
      · rename_i h; obtain ⟨rfl, rfl⟩ := h
        have : w.nw k' ≤ j' := hj
        omega
      · exact B.un k' j' hj
  | @fetch k j recs s ha hj hp hs =>
    have hr := Worker.Reach.step _ (B.wr k j) hs
    simp only [Worker.step] at hs
    split at hs
    · cases hs
    · cases hs
      exact base_set B hj hr rfl (.inr hp) (.inl ⟨rfl, Iff.rfl⟩)
  | @ready k j wm ha hj h1 h2 h3 hb =>
    refine base_set B hj (.step (.ready wm) (B.wr k j) (by simp [Worker.step, hb])) rfl (.inl rfl) (.inr ⟨h1, h3⟩)
  | @own k j l s ha hj hl _ _ hs => exact base_mild B hj (.step _ (B.wr k j) hs) (mild_own (B.wr k j) hl hs)
  | @complete k j l s it p ha hj hl hc hs hp =>
    have h1 := base_mild B hj (.step _ (B.wr k j) hs) (mild_own (B.wr k j) hl hs)
    exact base_move h1 (.step _ (B.pr k) (by simp) hp)
  | @refuse k j it buf s ha hj hb hr hs =>
    have := decided_assign (Worker.invA_reach (B.wr k j)) hb hs
    exact base_set B hj (.step _ (B.wr k j) hs) this.2.2.2.2.1 (.inl this.2.1) (.inl ⟨this.2.2.1, by rw [this.2.2.2.1]⟩)
  | @add k j it buf p s ha hj hb hr hp hs =>
    have := decided_assign (Worker.invA_reach (B.wr k j)) hb hs
    have h1 := base_set B hj (.step _ (B.wr k j) hs) this.2.2.2.2.1 (.inl this.2.1) (.inl ⟨this.2.2.1, by rw [this.2.2.2.1]⟩)
    exact base_move h1 (.step _ (B.pr k) (by simp) hp)
  | @emit k j it v p ha hj _ hp => exact base_move B (.step _ (B.pr k) (by simp) hp)
  | @pass k q e es fl rest p ha hc hp =>
    exact base_move (base_setAll B (dones_finalized _ _ e)) (.step _ (B.pr k) (by simp) hp)
  | @endTxn k q order cur fl rest p ha hc hp =>
    exact base_move (base_setAll B (dones_rooted _ _ _)) (.step _ (B.pr k) (by simp) hp)
  | @pool k l p ha hl hp =>
    refine base_move B (.step _ (B.pr k) ?_ hp)
    rcases hl with h | ⟨rfl, _⟩
    · exact poolOnly_ok h
    · simp

theorem base_reach (h : Reach c ecap src w) : Base c ecap src w := by
  induction h with
  | init => exact base_init
  | step a _ hs ih => exact base_step ih (goes_of_step hs)

/-! ### The group of `Verif.Fleet` behind it -/

/-- What a worker has still to add, as `Fleet.World.work` has it: the source records from the watermark on, without those that a decision was made
about. -/
def todo (src : List Nat) (s : PW) : Option (List Nat) :=
  if s.wk = .boot then none else some ((src.filter fun o => s.wm.toNat ≤ o).drop ((decided s).filterMap It.off).length)

/-- The group of consumers as `Verif.Fleet` sees it. -/
def abs (src : Nat → List Nat) (w : Group) : Fleet.World :=
  { n := w.n, inst := w.inst, dead := w.dead, log := w.log
    work := fun k tp => (w.cur k tp).bind fun j => todo (src tp) (w.wks k j) }

theorem todo_mild {l : List Nat} {s s' : PW} (M : Mild s s') : todo l s' = todo l s := by
  unfold todo
  rw [decided_mild M, M.wm]
  by_cases h : s.wk = .boot
  · rw [if_pos h, if_pos (M.boot.2 h)]
  · rw [if_neg h, if_neg fun hh => h (M.boot.1 hh)]

/-- Sorted lists: the larger prefix of a filter. -/
theorem filter_from {l : List Nat} {a b : Nat} (h : a ≤ b) : (l.filter fun o => a ≤ o).filter (fun o => b ≤ o) = l.filter fun o => b ≤ o := by
  rw [List.filter_filter]
  refine List.filter_congr fun x _ => ?_
  by_cases h1 : b ≤ x
  · simp [h1, Nat.le_trans h h1]
  · simp [h1]

/-- The events that a worker has scheduled are those of the first source records from its watermark on. -/
theorem sched_prefix (hsrc : ∀ tp, (src tp).Pairwise (· < ·)) (B : Base c ecap src w) {k j : Nat} (hb : (w.wks k j).wk ≠ .boot) :
    (w.wks k j).sched.filterMap It.off <+: ((src (w.part k j)).filter fun o => (w.wks k j).wm.toNat ≤ o) := by
  have hf := B.ft k j
  have hasc : Worker.Asc (w.wks k j) := by
    unfold Worker.Asc
    exact List.Pairwise.sublist hf.sublist (List.Pairwise.filter _ (hsrc _))
  have D := Worker.invD_reach (B.wr k j) hasc
  obtain ⟨x, h1, _⟩ := D.f
  obtain ⟨hm, hst⟩ := B.rd k j hb
  obtain ⟨y, hy⟩ := hf
  have h2 : ((src (w.part k j)).filter fun o => (w.wks k j).wm.toNat ≤ o) =
      Worker.wanted (w.wks k j) ++ y.filter fun o => (w.wks k j).wm.toNat ≤ o := by
    rw [← filter_from hst, ← hy, List.filter_append]
    congr 1
    unfold Worker.wanted
    refine List.filter_congr fun o _ => ?_
    simp only [decide_eq_decide]
    omega
  rw [h2, h1]
  rw [List.append_assoc]
  exact List.prefix_append _ _

/-- The next record of a worker is the one that `Fleet` expects. -/
theorem todo_assign (hsrc : ∀ tp, (src tp).Pairwise (· < ·)) (B : Base c ecap src w) {k j : Nat} {it : It} {buf : List It}
    (hb : (w.wks k j).buf = it :: buf) {r : Bool} {s : PW} (hs : Worker.step (wcfg c ecap) (w.wks k j) (.assign r) = some s) :
    (∀ o, it.off = some o → ∃ rest, todo (src (w.part k j)) (w.wks k j) = some (o :: rest) ∧ todo (src (w.part k j)) s = some rest) ∧
    (it.off = none → todo (src (w.part k j)) s = todo (src (w.part k j)) (w.wks k j) ∧ todo (src (w.part k j)) s ≠ none) := by
  have A := Worker.invA_reach (B.wr k j)
  obtain ⟨h1, _, h2, h3, _, h4, _, h5, _⟩ := decided_assign A hb hs
  have hnb : (w.wks k j).wk ≠ .boot := by
    intro hboot
    have hf := B.ft k j
    have hasc : Worker.Asc (w.wks k j) := by
      unfold Worker.Asc
      exact List.Pairwise.sublist hf.sublist (List.Pairwise.filter _ (hsrc _))
    have := ((Worker.invD_reach (B.wr k j) hasc).b hboot).1
    rw [this] at h5; cases h5
  have hp := sched_prefix hsrc B hnb
  have hd := decided_prefix A
  have hu : Worker.undecided (w.wks k j) = it :: (buf ++ Worker.addIt (w.wks k j).push ++ Worker.slotIt (w.wks k j).push) := by
    unfold Worker.undecided; rw [hb]; simp
  rw [hu] at hd
  constructor
  · intro o ho
    obtain ⟨y, hy⟩ := hp
    rw [hd, List.filterMap_append, List.filterMap_cons, ho] at hy
    simp only at hy
    refine ⟨List.filterMap It.off (buf ++ Worker.addIt (w.wks k j).push ++ Worker.slotIt (w.wks k j).push) ++ y, ?_, ?_⟩
    · unfold todo
      rw [if_neg hnb, ← hy, List.append_assoc, List.drop_left]
      simp only [List.cons_append]
    · unfold todo
      rw [h3, if_neg hnb, h1, h2, ← hy]
      have hl : ((decided (w.wks k j) ++ [it]).filterMap It.off) = (decided (w.wks k j)).filterMap It.off ++ [o] := by
        simp [List.filterMap_append, ho]
      rw [hl]
      congr 1
      have ha : ∀ (A B Y : List Nat), (A ++ o :: B ++ Y).drop (A ++ [o]).length = B ++ Y := by
        intro A B Y
        have : A ++ o :: B ++ Y = (A ++ [o]) ++ (B ++ Y) := by simp
        rw [this, List.drop_left]
      exact ha _ _ _
  · intro ho
    unfold todo
    rw [h3, if_neg hnb, if_neg hnb, h1, h2]
    simp [ho]

theorem abs_ext {a b : Fleet.World} (h1 : a.n = b.n) (h2 : a.inst = b.inst) (h3 : a.dead = b.dead) (h4 : ∀ k tp, a.work k tp = b.work k tp)
    (h5 : a.log = b.log) : a = b := by
  cases a; cases b
  simp only at h1 h2 h3 h4 h5
  subst h1; subst h2; subst h3; subst h5
  congr 1
  funext k tp; exact h4 k tp

/-- Only workers that are not in the map of workers, or in a way that does not matter, have moved. -/
theorem abs_work (h1 : w'.cur = w.cur)
    (h2 : ∀ k tp j, w.cur k tp = some j → todo (src tp) (w'.wks k j) = todo (src tp) (w.wks k j)) (k tp : Nat) :
    (abs src w').work k tp = (abs src w).work k tp := by
  simp only [abs, h1]
  cases hc : w.cur k tp with
  | none => rfl
  | some j => exact h2 k tp j hc

theorem todo_set {k j : Nat} {s : PW} (h : ∀ l, todo l s = todo l (w.wks k j)) (k' tp j' : Nat) :
    todo (src tp) ((w.set k j s).wks k' j') = todo (src tp) (w.wks k' j') := by
  rw [set_wks]; split
  · rename_i hh; obtain ⟨rfl, rfl⟩ := hh; exact h _
  · rfl

/-- Every step of the group is a step of the group of `Verif.Fleet`, or is not seen there. -/
theorem refine_step (hsrc : ∀ tp, (src tp).Pairwise (· < ·)) (B : Base c ecap src w) (h : Goes c ecap src w w') :
    abs src w' = abs src w ∨ ∃ a, Fleet.step c src (abs src w) a = some (abs src w') ∧ ((∀ k tp x, a ≠ .assign k tp x) ∨
      ∃ k j, j < w.nw k ∧ w.cur k (w.part k j) = some j ∧ (w.wks k j).wk = .boot ∧ (w'.wks k j).wk ≠ .boot ∧
        a = .assign k (w.part k j) (w'.wks k j).wm.toNat) := by
  have hal : ∀ {k}, w.alive k = true → (abs src w).alive k = true := fun h => h
  -- a step of the pool that is none of the worker
  have pl : ∀ {k : Nat} {l : Eos.Label} {p : Pool} {g : Nat → Nat → PW}, w.alive k = true → Effects.internal l = true →
      Eos.step c (w.inst k).pool l = some p →
      (∀ k' j' tp, todo (src tp) (g k' j') = todo (src tp) (w.wks k' j')) →
      Fleet.step c src (abs src w) (.pool k l) = some (abs src (Group.move { w with wks := g } k { w.inst k with pool := p })) := by
    intro k l p g ha hl hp hg
    simp only [Fleet.step, if_pos (show (abs src w).alive k = true ∧ Effects.internal l = true from ⟨ha, hl⟩)]
    have : Eos.step c ((abs src w).inst k).pool l = some p := hp
    rw [this]
    simp only [Option.map_some, Option.some.injEq]
    refine abs_ext rfl rfl rfl (fun k' tp => ?_) rfl
    exact (abs_work (w' := Group.move { w with wks := g } k { w.inst k with pool := p }) (w := w) rfl
      (fun k tp j _ => hg k j tp) k' tp).symm
  cases h with
  | start => exact .inr ⟨.start, rfl, .inl (by simp)⟩
  | @crash k ha => exact .inr ⟨.crash k, by simp only [Fleet.step, if_pos (hal ha)]; rfl, .inl (by simp)⟩
  | @assign k tp f ha hc =>
    refine .inl (abs_ext rfl rfl rfl (fun k' tp' => ?_) rfl)
    show (Eos.upd w.cur k (Eos.upd (w.cur k) tp (some (w.nw k))) k' tp').bind (fun j => todo (src tp') (w.wks k' j)) =
      (w.cur k' tp').bind fun j => todo (src tp') (w.wks k' j)
    rw [upd2]
    split
    · rename_i hh
      obtain ⟨rfl, rfl⟩ := hh
      rw [hc]
      simp only [Option.bind_none, Option.bind_some]
      rw [B.un k' _ (Nat.le_refl _)]
      rfl
    · rfl
  | @revoke k tp j ha hc =>
    refine .inr ⟨.revoke k tp, ?_, .inl (by simp)⟩
    simp only [Fleet.step, if_pos (hal ha), Option.some.injEq]
    refine abs_ext rfl rfl rfl (fun k' tp' => ?_) rfl
    rw [Fleet.setWork_work]
    have hw : ∀ k' j', todo (src tp') ((w.set k j { w.wks k j with revoked := true }).wks k' j') = todo (src tp') (w.wks k' j') := by
      intro k' j'; rw [set_wks]; split
      · rename_i hh; obtain ⟨rfl, rfl⟩ := hh; rfl
      · rfl
    show _ = (Eos.upd w.cur k (Eos.upd (w.cur k) tp none) k' tp').bind fun j' =>
      todo (src tp') ((w.set k j { w.wks k j with revoked := true }).wks k' j')
    simp only [hw]
    by_cases hk : k' = k
    · subst hk
      by_cases ht : tp' = tp
      · subst ht; simp [upd_self]
      · rw [upd_self, upd_other _ _ ht, if_neg (by simp [ht])]; rfl
    · rw [upd_other _ _ hk, if_neg (by simp [hk])]; rfl
  | @fetch k j recs s ha hj hp hs =>
    refine .inl (abs_ext rfl rfl rfl (abs_work (w' := w.set k j s) rfl fun k' tp' j' _ => todo_set (fun l => ?_) k' tp' j') rfl)
    simp only [Worker.step] at hs
    split at hs
    · cases hs
    · cases hs; rfl
  | @ready k j wm ha hj h1 h2 h3 hb =>
    have hd : decided (w.wks k j) = [] := by
      have hf := B.ft k j
      have hasc : Worker.Asc (w.wks k j) := by
        unfold Worker.Asc
        exact List.Pairwise.sublist hf.sublist (List.Pairwise.filter _ (hsrc _))
      have := ((Worker.invD_reach (B.wr k j) hasc).b hb).1
      unfold decided; rw [this]; rfl
    by_cases hc : w.cur k (w.part k j) = some j
    · refine .inr ⟨.assign k (w.part k j) wm.toNat, ?_, .inr ⟨k, j, hj, hc, hb, ?_, ?_⟩⟩
      rotate_left
      · rw [set_wks]; simp
      · rw [set_wks]; simp
      have hn : (abs src w).work k (w.part k j) = none := by
        show (w.cur k (w.part k j)).bind _ = none
        rw [hc]; simp [todo, hb]
      simp only [Fleet.step, if_pos (show (abs src w).alive k = true ∧ (abs src w).work k (w.part k j) = none ∧
        wm.toNat ∈ 0 :: (abs src w).log (w.part k j) from ⟨ha, hn, h2⟩), Option.some.injEq]
      refine abs_ext rfl rfl rfl (fun k' tp' => ?_) rfl
      rw [Fleet.setWork_work]
      show _ = (w.cur k' tp').bind fun j' => todo (src tp') ((w.set k j _).wks k' j')
      split
      · rename_i hh
        obtain ⟨rfl, rfl⟩ := hh
        rw [hc]
        simp only [Option.bind_some, set_wks, and_self, if_true]
        have hd' : decided { w.wks k' j with wk := .idle, push := .idle, highest := wm, wm := wm } = [] := hd
        unfold todo
        rw [hd']
        simp
      · rename_i hh
        show (w.cur k' tp').bind (fun j' => todo (src tp') (w.wks k' j')) = _
        cases hcur : w.cur k' tp' with
        | none => rfl
        | some j' =>
          simp only [Option.bind_some]
          rw [set_wks, if_neg]
          rintro ⟨rfl, rfl⟩
          exact hh ⟨rfl, ((B.cu k' tp' j').1 hcur).2.1.symm⟩
    · refine .inl (abs_ext rfl rfl rfl (abs_work (w' := w.set k j _) rfl fun k' tp' j' hcur => ?_) rfl)
      rw [set_wks]; split
      · rename_i hh; obtain ⟨rfl, rfl⟩ := hh
        have := ((B.cu k' tp' j').1 hcur).2.1
        rw [this] at hc
        exact absurd hcur hc
      · rfl
  | @own k j l s ha hj hl _ _ hs =>
    exact .inl (abs_ext rfl rfl rfl (abs_work (w' := w.set k j s) rfl fun k' tp' j' _ =>
      todo_set (fun l => todo_mild (mild_own (B.wr k j) hl hs)) k' tp' j') rfl)
  | @complete k j l s it p ha hj hl hc hs hp =>
    exact .inr ⟨_, pl (g := (w.set k j s).wks) ha rfl hp fun k' j' tp' =>
      todo_set (fun l => todo_mild (mild_own (B.wr k j) hl hs)) k' tp' j', .inl (by simp)⟩
  | @refuse k j it buf s ha hj hb hr hs =>
    refine .inl (abs_ext rfl rfl rfl (abs_work (w' := w.set k j s) rfl fun k' tp' j' hcur => ?_) rfl)
    rw [set_wks]; split
    · rename_i hh; obtain ⟨rfl, rfl⟩ := hh
      rw [((B.cu k' tp' j').1 hcur).2.2] at hr; cases hr
    · rfl
  | @add k j it buf p s ha hj hb hr hp hs =>
    have hcur : w.cur k (w.part k j) = some j := (B.cu k _ j).2 ⟨hj, rfl, hr⟩
    have hw : (abs src w).work k (w.part k j) = todo (src (w.part k j)) (w.wks k j) := by
      show (w.cur k (w.part k j)).bind _ = _
      rw [hcur]; rfl
    obtain ⟨t1, t2⟩ := todo_assign hsrc B hb hs
    have others : ∀ k' tp', ¬ (k' = k ∧ tp' = w.part k j) →
        (abs src ((w.set k j s).move k { w.inst k with pool := p })).work k' tp' = (abs src w).work k' tp' := by
      intro k' tp' hne
      show (w.cur k' tp').bind (fun j' => todo (src tp') ((w.set k j s).wks k' j')) = (w.cur k' tp').bind fun j' => todo (src tp') (w.wks k' j')
      cases hcc : w.cur k' tp' with
      | none => rfl
      | some j' =>
        simp only [Option.bind_some]
        rw [set_wks, if_neg]
        rintro ⟨rfl, rfl⟩
        exact hne ⟨rfl, ((B.cu k' tp' j').1 hcc).2.1.symm⟩
    have this' : (abs src ((w.set k j s).move k { w.inst k with pool := p })).work k (w.part k j) = todo (src (w.part k j)) s := by
      show (w.cur k (w.part k j)).bind (fun j' => todo (src (w.part k j)) ((w.set k j s).wks k j')) = _
      rw [hcur]; simp [set_wks]
    cases ho : it.off with
    | some o =>
      obtain ⟨rest, r1, r2⟩ := t1 o ho
      refine .inr ⟨.feed k (w.part k j) (Nat.pair j it.id), ?_, .inl (by simp)⟩
      have hp' : Eos.step c ((abs src w).inst k).pool (.add ⟨Nat.pair j it.id, w.part k j, some o⟩) = some p := by
        rw [← ho]; exact hp
      simp only [Fleet.step, if_pos (hal ha), hw, r1, hp', Option.map_some, Option.some.injEq]
      refine abs_ext rfl rfl rfl (fun k' tp' => ?_) rfl
      rw [Fleet.setWork_work]
      split
      · rename_i hh; obtain ⟨rfl, rfl⟩ := hh
        rw [this', r2]
      · rename_i hh; rw [others k' tp' hh]; rfl
    | none =>
      obtain ⟨r1, r2⟩ := t2 ho
      refine .inr ⟨.interject k (w.part k j) (Nat.pair j it.id), ?_, .inl (by simp)⟩
      have hp' : Eos.step c ((abs src w).inst k).pool (.add ⟨Nat.pair j it.id, w.part k j, none⟩) = some p := by
        rw [← ho]; exact hp
      have hne : (abs src w).work k (w.part k j) ≠ none := by rw [hw, ← r1]; exact r2
      simp only [Fleet.step, if_pos (show (abs src w).alive k = true ∧ (abs src w).work k (w.part k j) ≠ none from ⟨ha, hne⟩), hp',
        Option.map_some, Option.some.injEq]
      refine abs_ext rfl rfl rfl (fun k' tp' => ?_) rfl
      by_cases hh : k' = k ∧ tp' = w.part k j
      · obtain ⟨rfl, rfl⟩ := hh
        rw [this', r1]; exact hw
      · rw [others k' tp' hh]; rfl
  | @emit k j it v p ha hj _ hp =>
    refine .inr ⟨.emit k (w.ev k j it) v, ?_, .inl (by simp)⟩
    have hp' : Eos.step c ((abs src w).inst k).pool (.produce (w.ev k j it) ((abs src w).inst k).prods.length) = some p := hp
    simp only [Fleet.step, if_pos (hal ha), hp', Option.map_some, Option.some.injEq]
    rfl
  | @pass k q e es fl rest p ha hc hp =>
    refine .inr ⟨_, pl (g := (w.setAll k (finalized (wcfg c ecap) (w.wks k) e)).wks) ha rfl hp fun k' j' tp' => ?_, .inl (by simp)⟩
    simp only [Group.setAll, Eos.upd]
    split
    · rename_i hk; subst hk; exact todo_mild (dones_finalized (wcfg c ecap) (w.wks k') e j').2.1
    · rfl
  | @endTxn k q order cur fl rest p ha hc hp =>
    refine .inr ⟨_, pl (g := (w.setAll k (rooted (wcfg c ecap) (w.wks k) (rootEvs ((w.inst k).pool.nodes q).evs))).wks) ha rfl hp
      fun k' j' tp' => ?_, .inl (by simp)⟩
    simp only [Group.setAll, Eos.upd]
    split
    · rename_i hk; subst hk; exact todo_mild (dones_rooted (wcfg c ecap) (w.wks k') _ j').2.1
    · rfl
  | @pool k l p ha hl hp =>
    refine .inr ⟨_, pl (g := w.wks) ha ?_ hp fun k' j' tp' => rfl, .inl (by simp)⟩
    rcases hl with h | ⟨rfl, _⟩
    · cases l <;> simp_all [poolOnly, Effects.internal]
    · rfl

/-- The group refines that of `Verif.Fleet`. -/
theorem refines (hsrc : ∀ tp, (src tp).Pairwise (· < ·)) (h : Reach c ecap src w) : Fleet.Reach c src (abs src w) := by
  induction h with
  | init =>
    have : abs src (Group.init c) = Fleet.World.init c := abs_ext rfl rfl rfl (fun _ _ => rfl) rfl
    rw [this]; exact .init
  | step a hr hs ih =>
    rcases refine_step hsrc (base_reach hr) (goes_of_step hs) with h1 | ⟨b, h1, _⟩
    · rw [h1]; exact ih
    · exact .step b ih h1

end Verif.Whole

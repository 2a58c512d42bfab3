import Verif.Latency.Front
/-
From the first event of a transaction to its end.
-/
namespace Verif.Latency
open Verif.Deadline (txnTimeout)

/-- One past the last transaction that was put in the queue. -/
def top (p : Eos.Pool) : Nat := if p.fwd = .swap then p.gen + 1 else p.gen

/-- The first transaction in the queue, or the next one to be put there. -/
def st (p : Eos.Pool) : Nat := top p - p.cq.length

/-- The transaction has events. -/
def Has (p : Eos.Pool) (g : Nat) : Prop := ∃ e, (e, g) ∈ p.added

theorem deck_cnt {c : Eos.Cfg} (hn : 0 < c.poolSize) {p : Eos.Pool} (h : Eos.Reach c p) (hg : Has p p.gen) (hw : p.fwd ≠ .swap) :
    0 < (p.nodes p.onDeck).cnt := by
  obtain ⟨a, ha, r, B, O, F, H⟩ := Eos.ended_old hn h
  obtain ⟨e, he⟩ := hg
  have htop : a.top = a.gen := by simp only [Eos.A.top]; rw [if_neg]; rw [← r.fwd]; exact hw
  have h1 : a.lo ≤ a.gen := by have := B.win.1; omega
  rw [r.onDeck, r.nodes a.gen h1 (by have := B.win.2; omega), B.cnt a.gen h1]
  · rw [r.added, r.gen] at he
    apply List.length_pos_of_mem (a := e)
    simp only [Eos.evOf, List.mem_map, List.mem_filter, decide_eq_true_eq]
    exact ⟨_, ⟨he, rfl⟩, rfl⟩
  · by_cases hb : a.com = .back
    · left
      have h2 := B.st
      have h3 := B.top
      rw [hb] at h2
      simp only at h2
      omega
    · exact .inr hb

/-- The transactions in the queue and the one being committed. -/
structure Rear (c : Delay.Cfg) (L : Nat) (s : S) : Prop where
  le : s.pool.cq.length ≤ top s.pool
  past : ∀ g, s.born g ≤ s.now
  came : ∀ e g, (e, g) ∈ s.pool.added → s.born g ≤ s.came e.id
  queued : ∀ g, st s.pool ≤ g → g < top s.pool → Has s.pool g →
    s.d.work ≤ s.born g + frontAge c L + (c.eos.pending - 1 - (g - st s.pool)) * turn L
  busy : Deadline.busyWith s.pool.com ≠ none → 0 < st s.pool ∧
    (Has s.pool (st s.pool - 1) → s.d.work ≤ s.born (st s.pool - 1) + frontAge c L + c.eos.pending * turn L)

theorem rear_same {c : Delay.Cfg} {L : Nat} {s s' : S} (I : Rear c L s) (h1 : top s'.pool = top s.pool) (h2 : s'.pool.cq = s.pool.cq)
    (h3 : s'.pool.added = s.pool.added) (h4 : Deadline.busyWith s'.pool.com = none ∨ Deadline.busyWith s'.pool.com = Deadline.busyWith s.pool.com)
    (h5 : s'.born = s.born) (h6 : s'.came = s.came) (h7 : s.now ≤ s'.now)
    (h8 : s.pool.com ≠ .idle ∨ s.pool.cq ≠ [] → s'.d.work = s.d.work) : Rear c L s' := by
  have hst : st s'.pool = st s.pool := by simp only [st, h1, h2]
  have hhas : ∀ g, Has s'.pool g ↔ Has s.pool g := by intro g; simp only [Has, h3]
  refine ⟨by rw [h1, h2]; exact I.le, ?_, by rw [h3, h5, h6]; exact I.came, ?_, ?_⟩
  · intro g; rw [h5]; exact Nat.le_trans (I.past g) h7
  · intro g
    rw [h1, hst, hhas, h5]
    intro a1 a2 a3
    rw [h8]
    · exact I.queued g a1 a2 a3
    · right
      intro hc
      simp only [st, hc, List.length_nil] at a1
      omega
  · intro hb
    have hb' : Deadline.busyWith s.pool.com ≠ none := by
      rcases h4 with h4 | h4
      · exact absurd h4 hb
      · rwa [← h4]
    rw [hst, hhas, h5, h8 (.inl (by intro h; rw [h] at hb'; exact hb' rfl))]
    exact I.busy hb'

theorem rear_prompt {c : Delay.Cfg} (hd : 0 < c.delay) (hp : 0 < c.eos.pending) (hn : 0 < c.eos.poolSize) {L : Nat} {s : S} (h : Prompt c L s) :
    s.pool.com ≠ .stopped → Rear c L s := by
  induction h with
  | init =>
    intro _
    refine ⟨Nat.zero_le _, fun _ => Nat.le_refl _, ?_, ?_, ?_⟩
    · intro e g h; cases h
    · intro g _ h; cases h
    · intro h; exact absurd rfl h
  | @step s s' l hr hl hpr hs ih =>
    intro hst
    obtain ⟨e1, e2, e3, e4, e5⟩ := step_eq hs
    have hst0 := Deadline.stopped_stays e1 hst
    have I := ih hst0
    have C := Deadline.com_prompt hr.deadline
    have hwork : s.pool.com ≠ .idle ∨ s.pool.cq ≠ [] → s'.d.work = if l = .pool .take then s.now else s.d.work :=
      fun h => Deadline.work_step e1 (Deadline.not_free h)
    rcases Deadline.now_step e1 with ⟨k, rfl, n1, n2⟩ | ⟨rfl, n1, n2⟩ | ⟨a, rfl, n1, ht⟩
    · have hq : s'.pool = s.pool := n2
      exact rear_same I (by rw [hq]) (by rw [hq]) (by rw [hq]) (by rw [hq]; exact .inr rfl) (e3 (by simp)).2 (e3 (by simp)).1
        (by simp only [S.now]; omega) (fun h => by rw [hwork h]; simp)
    · have hq : s'.pool = s.pool := n2
      exact rear_same I (by rw [hq]) (by rw [hq]) (by rw [hq]) (by rw [hq]; exact .inr rfl) (e3 (by simp)).2 (e3 (by simp)).1
        (by simp only [S.now]; omega) (fun h => by rw [hwork h]; simp)
    · obtain ⟨d, h1, h2⟩ := Deadline.step_eq e1
      obtain ⟨h0, p', t, g2, g3, rfl⟩ := Delay.pool_step h1
      have hpool : s'.pool = p' := by rw [S.pool, h2]
      have hno : s'.now = s.now := n1
      have hk := kind_of g2
      rw [← hpool] at hk
      cases hk with
      | loop _ k1 k2 k3 k4 k5 k6 k7 =>
        have hna : ∀ e, a ≠ .add e := by rintro e rfl; simp at k1
        have hnt : a ≠ .take := by rintro rfl; simp at k1
        have f := e3 (fun e he => by cases he; exact hna e rfl)
        refine rear_same I ?_ k6 k5 (by rw [k7]; exact .inr rfl) f.2 f.1 (Nat.le_of_eq hno.symm) (fun h => by rw [hwork h, if_neg (by simpa using hnt)])
        simp only [top, k4]; rw [if_neg k3, if_neg k2]
      | rest _ k1 k2 k3 k4 k5 k6 k7 k8 k9 =>
        have f := e3 (fun e he => by cases he; exact k1 e rfl)
        refine rear_same I ?_ k8 k7 k9 f.2 f.1 (Nat.le_of_eq hno.symm) (fun h => by rw [hwork h, if_neg (by simpa using k2)])
        simp only [top, k5, k6]
      | swapIn k1 k2 k3 k4 k5 k6 =>
        have f := e3 (by simp)
        refine rear_same I ?_ k5 k4 (by rw [k6]; exact .inr rfl) f.2 f.1 (Nat.le_of_eq hno.symm) (fun h => by rw [hwork h, if_neg (by simp)])
        simp only [top, k3]; rw [if_neg (by simp [k2]), if_pos k1]
      | add e k1 k2 k3 k4 k5 k6 k7 =>
        obtain ⟨f1, f2⟩ := e2 e rfl
        have htop : top s'.pool = top s.pool := by simp only [top, k1, k2, k3]; simp
        have htg : top s.pool = s.pool.gen := by simp only [top, k1]; simp
        have hst' : st s'.pool = st s.pool := by simp only [st, htop, k5]
        have hlt : st s.pool ≤ top s.pool := Nat.sub_le _ _
        have hle : ∀ g, g ≠ s.pool.gen → s'.born g = s.born g := by
          intro g hg; rw [f2]; split
          · exact Eos.upd_ne _ _ hg
          · rfl
        have hbn : ∀ g, s'.born g ≤ s.now := by
          intro g; rw [f2]; split
          · simp only [Eos.upd]; split
            · exact Nat.le_refl _
            · exact I.past g
          · exact I.past g
        have hhas : ∀ g, g ≠ s.pool.gen → Has s'.pool g → Has s.pool g := by
          rintro g hg ⟨x, hx⟩
          rw [k4, List.mem_append] at hx
          rcases hx with hx | hx
          · exact ⟨x, hx⟩
          · simp only [List.mem_singleton, Prod.mk.injEq] at hx; exact absurd hx.2 hg
        refine ⟨by rw [htop, k5]; exact I.le, fun g => by rw [hno]; exact hbn g, ?_, ?_, ?_⟩
        · intro x g hx
          rw [k4, List.mem_append] at hx
          rw [f1]
          rcases hx with hx | hx
          · have hne : x.id ≠ e.id := by
              intro he
              exact k7 (List.mem_map.2 ⟨_, hx, he⟩)
            rw [Eos.upd_ne _ _ hne]
            by_cases hg : g = s.pool.gen
            · subst hg
              have := deck_cnt hn hr.eos ⟨x, hx⟩ (by rw [k1]; simp)
              rw [f2, if_neg (show ¬ s.d.d.deck.cnt = 0 from Nat.pos_iff_ne_zero.1 this)]
              exact I.came x _ hx
            · rw [hle g hg]; exact I.came x g hx
          · simp only [List.mem_singleton, Prod.mk.injEq] at hx
            rw [hx.1, Eos.upd_same]
            exact hbn g
        · intro g a1 a2 a3
          rw [hst'] at a1 ⊢
          rw [htop] at a2
          have hg : g ≠ s.pool.gen := by omega
          rw [hle g hg, hwork]
          · exact I.queued g a1 a2 (hhas g hg a3)
          · right
            intro hc
            simp only [st, hc, List.length_nil] at a1
            omega
        · rw [k6, hst']
          intro hb
          obtain ⟨b1, b2⟩ := I.busy hb
          refine ⟨b1, ?_⟩
          intro hh
          have hg : st s.pool - 1 ≠ s.pool.gen := by omega
          rw [hle _ hg, hwork (.inl (by intro h; rw [h] at hb; exact hb rfl))]
          exact b2 (hhas _ hg hh)
      | push _ k1 k2 k3 k4 k5 k6 k7 k8 k9 =>
        have hna : ∀ e, a ≠ .add e := by rintro e rfl; simp at k1
        have hnt : a ≠ .take := by rintro rfl; simp at k1
        have f := e3 (fun e he => by cases he; exact hna e rfl)
        have hsw : s.pool.fwd ≠ .swap := by rcases k1 with ⟨_, h⟩ | ⟨_, h⟩ <;> simp [S.pool, h]
        have htop : top s'.pool = top s.pool + 1 := by simp only [top, k3]; rw [if_pos k2, if_neg hsw]
        have htg : top s.pool = s.pool.gen := by simp only [top]; rw [if_neg hsw]
        have hlen : s'.pool.cq.length = s.pool.cq.length + 1 := by rw [k6]; simp
        have hst' : st s'.pool = st s.pool := by simp only [st, htop, hlen]; omega
        have hhas : ∀ g, Has s'.pool g ↔ Has s.pool g := by intro g; simp only [Has, k4]
        refine ⟨by rw [htop, hlen]; exact Nat.succ_le_succ I.le, fun g => by rw [f.2, hno]; exact I.past g, by rw [k4, f.1, f.2]; exact I.came, ?_, ?_⟩
        · intro g
          rw [hst', htop, hhas, f.2]
          intro a1 a2 a3
          by_cases hg : g = s.pool.gen
          · subst hg
            have b1 := front_bound hd hp hr hst0 (deck_cnt hn hr.eos a3 hsw) hsw
            have b2 : s'.d.work ≤ s'.now := by
              have := (Deadline.com_prompt (hr.step _ hl hpr hs).deadline).past.1
              exact this
            rw [hno] at b2
            omega
          · rw [hwork, if_neg (by simpa using hnt)]
            · exact I.queued g a1 (by omega) a3
            · right
              intro hc
              simp only [st, hc, List.length_nil] at a1
              omega
        · rw [k7, hst', hhas, f.2]
          intro hb
          rw [hwork (.inl (by intro h; rw [h] at hb; exact hb rfl)), if_neg (by simpa using hnt)]
          exact I.busy hb
      | take q k1 k2 k3 k4 k5 k6 =>
        have f := e3 (by simp)
        have htop : top s'.pool = top s.pool := by simp only [top, k4, k5]
        have hlen : s.pool.cq.length = s'.pool.cq.length + 1 := by
          have h : s.pool.cq = q :: s'.pool.cq := k2
          rw [h]; rfl
        have hle := I.le
        have hcap : s.pool.cq.length ≤ c.eos.pending := C.cap
        have hst' : st s'.pool = st s.pool + 1 := by simp only [st, htop]; omega
        have hhas : ∀ g, Has s'.pool g ↔ Has s.pool g := by intro g; simp only [Has, k6]
        have hne : s.pool.cq ≠ [] := by intro h; rw [h] at hlen; simp at hlen
        have hw := hwork (.inr hne)
        rw [if_pos rfl] at hw
        have hbd := Deadline.work_bound C hst0 (.inr hne)
        have hturn : s.now ≤ s.d.work + turn L := by simp only [turn, S.now]; omega
        refine ⟨by rw [htop]; omega, fun g => by rw [f.2, hno]; exact I.past g, by rw [k6, f.1, f.2]; exact I.came, ?_, ?_⟩
        · intro g
          rw [hst', htop, hhas, f.2, hw]
          intro a1 a2 a3
          have h3 := I.queued g (by omega) a2 a3
          have h4 : c.eos.pending - 1 - (g - (st s.pool + 1)) = (c.eos.pending - 1 - (g - st s.pool)) + 1 := by
            simp only [st] at a1 ⊢; omega
          rw [h4, Nat.succ_mul]
          omega
        · intro _
          rw [hst', hhas, f.2, hw, Nat.add_sub_cancel]
          refine ⟨Nat.succ_pos _, ?_⟩
          intro a3
          have h3 := I.queued (st s.pool) (Nat.le_refl _) (by simp only [st]; omega) a3
          have h4 : c.eos.pending = (c.eos.pending - 1 - (st s.pool - st s.pool)) + 1 := by omega
          rw [h4, Nat.succ_mul]
          simp only [Nat.sub_self, Nat.sub_zero] at h3 ⊢
          have h5 : c.eos.pending - 1 + 1 - 1 = c.eos.pending - 1 := by omega
          rw [h5] at *
          omega

theorem decided {c : Delay.Cfg} (hd : 0 < c.delay) (hp : 0 < c.eos.pending) (hn : 0 < c.eos.poolSize) {L : Nat} {s : S} (h : Prompt c L s)
    (hs : s.pool.com ≠ .stopped) {e : Eos.Ev} {g : Nat} (he : (e, g) ∈ s.pool.added) (hg : g ∉ s.pool.ended.map Prod.fst) :
    s.now ≤ s.came e.id + frontAge c L + (c.eos.pending + 1) * turn L := by
  have I := rear_prompt hd hp hn h hs
  have C := Deadline.com_prompt h.deadline
  obtain ⟨a, ha, r, B, O, F, H⟩ := Eos.ended_old hn h.eos
  have hc := I.came e g he
  have htop : top s.pool = a.top := by simp only [top, Eos.A.top, r.fwd, r.gen]
  have hlen : s.pool.cq.length = a.top - a.st := by rw [r.cq]; simp
  have hst : st s.pool = a.st := by
    have := B.top
    simp only [st, htop, hlen]; omega
  have hgle : g ≤ a.gen := B.le (e, g) (by rw [← r.added]; exact he)
  have hlo : a.lo ≤ g ∧ (a.relinquished ≠ none → a.lo < g) := by
    rw [r.ended, F.ended, List.mem_range] at hg
    split at hg
    · rename_i hh; exact ⟨by omega, fun h => absurd hh h⟩
    · exact ⟨by omega, fun _ => by omega⟩
  have hturn : s.pool.com ≠ .idle ∨ s.pool.cq ≠ [] → s.now ≤ s.d.work + turn L := by
    intro h
    have := Deadline.work_bound C hs h
    simp only [turn, S.now]; omega
  rw [Nat.add_mul, Nat.one_mul]
  by_cases h1 : g < st s.pool
  · rw [hst] at h1
    have hb := B.st
    have hcom : s.pool.com ≠ .idle ∧ a.st = a.lo + 1 := by
      cases hcm : a.com <;> rw [hcm] at hb <;> simp only at hb
      · omega
      all_goals first
        | exact ⟨by rw [r.com, hcm]; simp [Eos.toCom], hb⟩
        | (exfalso; apply hs; rw [r.com, hcm]; rfl)
    have hbw : Deadline.busyWith s.pool.com ≠ none := by
      cases hcm : s.pool.com <;> simp_all [Deadline.busyWith]
    have := (I.busy hbw).2
    have hgg : st s.pool - 1 = g := by omega
    rw [hgg] at this
    have := this ⟨e, he⟩
    have := hturn (.inl hcom.1)
    omega
  · by_cases h2 : g < top s.pool
    · have h3 := I.queued g (by omega) h2 ⟨e, he⟩
      have h4 : s.pool.cq ≠ [] := by
        intro h; simp only [st, h, List.length_nil] at h1; omega
      have h5 := hturn (.inr h4)
      have h6 : (c.eos.pending - 1 - (g - st s.pool)) * turn L ≤ c.eos.pending * turn L := Nat.mul_le_mul_right _ (by omega)
      omega
    · have hw : s.pool.fwd ≠ .swap := by
        intro hw
        simp only [top, hw, if_true] at h2
        rw [r.gen] at h2; omega
      have hgg : g = s.pool.gen := by
        simp only [top] at h2
        rw [if_neg hw] at h2
        rw [r.gen] at h2 ⊢; omega
      subst hgg
      have := front_bound hd hp h hs (deck_cnt hn h.eos ⟨e, he⟩ hw) hw
      omega

end Verif.Latency

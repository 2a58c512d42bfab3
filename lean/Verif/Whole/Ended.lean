import Verif.Whole.Inv
import Verif.Worker.Fifo
import Verif.Marks.Proofs
/-
What is left of a worker when it has ended, and what a completed event says about its worker.
-/
set_option linter.unusedSimpArgs false
namespace Verif.Whole
open Verif.Eos (Ev Pool)
open Verif.Effects (Inc)
open Verif.Worker (PW It)

variable {c : Eos.Cfg} {ecap : Nat} {src : Nat → List Nat} {w w' : Group}

/-! ### Workers by themselves -/

section
variable {cw : Worker.Cfg} {s s' : PW}

theorem schedIj_wk (s : PW) (ij : Nat) (b : Option (List (Option Nat))) : (Worker.schedIj s ij b).wk = s.wk := by
  unfold Worker.schedIj; split <;> rfl

theorem stopped_step {l : Worker.Label} (h : Worker.step cw s l = some s') (hs : s.wk = .stopped) : s'.wk = .stopped := by
  cases l <;> simp only [Worker.step, hs] at h <;> (repeat' split at h) <;>
    first
    | (cases h; done)
    | (simp only [Option.some.injEq] at h; subst h; first | exact hs | rfl | rw [schedIj_wk])
    | simp_all [Worker.takesJobs]

theorem stopped_facts (h : Worker.Reach cw s) (hs : s.wk = .stopped) :
    s.roots = 0 ∧ s.revoked = true ∧ s.buf = [] ∧ ∀ it ∈ s.sched, s.prod it.id = some true → it.id ∈ s.fin := by
  have A := Worker.invA_reach h
  have C := Worker.invC_reach h
  have hp : s.push = .closed := C.st.2 hs
  have h0 := C.zero (.inr hp)
  have hw := C.w
  rw [h0, hp] at hw
  simp only [Worker.rest, List.length_nil] at hw
  have hc : s.sched.countP (Worker.counts s) = 0 := by omega
  rw [List.countP_eq_zero] at hc
  have hfin : ∀ it ∈ s.sched, s.prod it.id ≠ some false → it.id ∈ s.fin := by
    intro it hit hne
    have := hc it hit
    simp only [Worker.counts, decide_eq_true_eq, not_and, not_not] at this
    by_contra hf
    exact hne (this hf)
  refine ⟨by omega, C.rv (by rw [hp]; rfl), ?_, fun it hit ht => hfin it hit (by rw [ht]; simp)⟩
  have hu : Worker.undecided s = [] := by
    obtain ⟨pre, h1, h2⟩ := A.dec
    rcases hd : Worker.undecided s with _ | ⟨it, r⟩
    · rfl
    · exfalso
      have hm : it ∈ s.sched := by rw [h1, hd]; simp
      have hnp : s.prod it.id = none := by
        by_contra hne
        have := (h2 it.id).1 hne
        have hnd : (s.sched.map It.id).Nodup := by rw [A.ids]; exact List.nodup_range
        rw [h1, hd, List.map_append, List.nodup_append] at hnd
        exact hnd.2.2 _ this _ (by simp) rfl
      have hf := hfin it hm (by rw [hnp]; simp)
      have hB := Worker.invB_reach h
      have := (hB.dn _ (hB.fin.2 _ hf)).2
      rw [hnp] at this; cases this
  unfold Worker.undecided at hu
  exact (List.append_eq_nil_iff.1 (List.append_eq_nil_iff.1 hu).1).1

/-- Of a completed record the handler was called. -/
theorem done_offered (h : Worker.Reach cw s) (ha : Worker.Asc s) {it : It} {o : Nat} (hm : it ∈ s.sched) (ho : it.off = some o)
    (hd : it.id ∈ s.done) : o ∈ s.offered := by
  have A := Worker.invA_reach h
  have B := Worker.invB_reach h
  have D := Worker.invD_reach h ha
  obtain ⟨past, q1, q2, q3⟩ := D.q
  have hin : it ∈ past ++ Worker.pipe s := by rw [← q1]; exact List.mem_filter.2 ⟨hm, by rw [ho]; rfl⟩
  obtain ⟨hrel, hpr⟩ := B.dn _ hd
  have hcnt := B.cnt it.id
  have h1 := Worker.cnt_le_one A it.id
  have hrc : 0 < s.released.count it.id := List.count_pos_iff.2 hrel
  rcases List.mem_append.1 hin with hp | hp
  · rw [q2]
    exact List.mem_filterMap.2 ⟨it, List.mem_filter.2 ⟨hp, by simpa using hpr⟩, ho⟩
  · exfalso
    have hp := (List.mem_filter.1 hp).1
    have hlive : it ∉ Worker.live s := fun hl => by
      have := Worker.ids_pos hl
      omega
    have hslot : it ∈ Worker.slotIt s.push := by
      simp only [List.mem_append] at hp
      unfold Worker.live at hlive
      simp only [List.mem_append, not_or] at hlive
      rcases hp with (((h | h) | h) | h) | h
      · exfalso
        refine hlive.1.2 ?_
        cases hw : s.wk <;> rw [hw] at h <;> simp_all [Worker.wkWait, Worker.wkIt]
      · exact absurd h hlive.1.1.1.2
      · exact absurd h hlive.1.1.1.1.2
      · exact absurd h hlive.1.1.1.1.1
      · exact h
    have hnd : (s.sched.map It.id).Nodup := by rw [A.ids]; exact List.nodup_range
    rw [A.acc, List.map_append, List.nodup_append] at hnd
    have hacc : it.id ∈ s.accepted.map It.id := List.count_pos_iff.1 (by unfold Worker.ids at hcnt; omega)
    exact hnd.2.2 _ hacc _ (List.mem_map.2 ⟨it, hslot, rfl⟩) rfl

end

/-! ### Events and their workers -/

theorem asc_of (hsrc : ∀ tp, (src tp).Pairwise (· < ·)) (B : Base c ecap src w) (k j : Nat) : Worker.Asc (w.wks k j) := by
  unfold Worker.Asc
  exact List.Pairwise.sublist (B.ft k j).sublist (List.Pairwise.filter _ (hsrc _))

/-- The worker of an event in the pool. -/
theorem event_worker (L : Link w) {k : Nat} {e : Ev} {g : Nat} (h : (e, g) ∈ (w.inst k).pool.added) :
    owner e < w.nw k ∧ w.part k (owner e) = e.part ∧ ∃ it, it ∈ (w.wks k (owner e)).sched ∧ (w.wks k (owner e)).prod it.id = some true ∧
      e = w.ev k (owner e) it := by
  obtain ⟨j, it, h1, h2, h3⟩ := ((L k).ad e).1 (List.mem_map.2 ⟨_, h, rfl⟩)
  subst h3
  rw [owner_pair]
  exact ⟨h1, rfl, it, h2.1, h2.2, rfl⟩

/-- No open transaction was entered with an event of a worker that has ended. -/
theorem no_root {p : Pool} {j g : Nat} (h : openRoots p j = 0) (h1 : p.ended.length ≤ g) (h2 : g ≤ p.gen) :
    ∀ e ∈ rootEvs (Eos.evOf p.added g), owner e ≠ j := by
  unfold openRoots at h
  have key : ∀ l : List Nat, l.sum = 0 → ∀ x ∈ l, x = 0 := by
    intro l
    induction l with
    | nil => simp
    | cons a l ih => intro h x hx; rw [List.sum_cons] at h; rcases List.mem_cons.1 hx with rfl | hx <;> [omega; exact ih (by omega) x hx]
  have := key _ h _ (List.mem_map.2 ⟨g, List.mem_range'_1.2 ⟨h1, by omega⟩, rfl⟩)
  rw [List.countP_eq_zero] at this
  intro e he ho
  exact this e he (by simpa using ho)

/-- A transaction that was entered into the waiter of a worker has ended when the worker has. -/
theorem ended_of_stopped (hn : 0 < c.poolSize) (B : Base c ecap src w) (L : Link w) {k j : Nat} (hs : (w.wks k j).wk = .stopped) {e : Ev} {g : Nat}
    (he : (e, g) ∈ (w.inst k).pool.added)
    (hall : ∀ e', (e', g) ∈ (w.inst k).pool.added → e'.part = e.part → owner e' = j) : g < (w.inst k).pool.ended.length := by
  by_contra hlt
  have hle := pool_le hn (B.pr k) he
  have h0 : openRoots (w.inst k).pool j = 0 := by rw [← (L k).rt j]; exact (stopped_facts (B.wr k j) hs).1
  have hany : ((rootEvs (Eos.evOf (w.inst k).pool.added g)).any fun d => d.part = e.part) = true := by
    rw [rootEvs_any]
    exact List.any_eq_true.2 ⟨e, Eos.mem_evOf.2 he, by simp⟩
  obtain ⟨d, hd, hp⟩ := List.any_eq_true.1 hany
  exact no_root h0 (by omega) hle d hd (hall d (Eos.mem_evOf.1 (rootEvs_mem hd)) (by simpa using hp))

/-- The events of a worker that has ended have been waited for. -/
theorem passed_of_stopped (hn : 0 < c.poolSize) (B : Base c ecap src w) (L : Link w) {k j : Nat} (hs : (w.wks k j).wk = .stopped) {e : Ev} {g : Nat}
    (he : (e, g) ∈ (w.inst k).pool.added) (ho : owner e = j) : Passed (w.inst k).pool e := by
  obtain ⟨_, _, it, h1, h2, h3⟩ := event_worker L he
  rw [ho] at h1 h2 h3
  have hf := (stopped_facts (B.wr k j) hs).2.2.2 it h1 h2
  obtain ⟨d, hd, hid⟩ := (L k).fn j it.id hf
  have heq : d.id = e.id := by rw [hid, h3]; rfl
  obtain ⟨g', hd', _⟩ := id hd
  obtain ⟨rfl, _⟩ := pool_unique hn (B.pr k) hd' he heq
  exact hd

end Verif.Whole

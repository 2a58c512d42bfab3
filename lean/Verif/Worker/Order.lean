import Verif.Worker.Proofs
/-
The revocation waiter, and the order in which records reach the handler.
-/
set_option linter.unusedSimpArgs false
namespace Verif.Worker

variable {c : Cfg}

/-! ### The revocation waiter -/

/-- The event still counts in the revocation waiter. -/
def counts (s : PW) (it : It) : Bool := decide (it.id ∉ s.fin ∧ s.prod it.id ≠ some false)

/-- The worker was told to stop. -/
def stopping : Push → Bool
  | .stop => true
  | .wait => true
  | .closed => true
  | _ => false

structure InvC (s : PW) : Prop where
  w : s.waiter = (rest s.push).length + s.sched.countP (counts s) + s.roots
  zero : s.signal = true ∨ s.push = .closed → s.waiter = 0
  ph : s.waiting = true ∨ s.signal = true → s.push = .wait
  one : s.waiting = true → s.signal = false
  rv : stopping s.push = true → s.revoked = true
  st : s.push = .closed ↔ s.wk = .stopped

theorem invC_init : InvC PW.init := by
  constructor <;> simp [PW.init, rest, stopping]

theorem invC_frame {s s' : PW} (I : InvC s) (h1 : s'.waiter = s.waiter) (h2 : (rest s'.push).length = (rest s.push).length)
    (h3 : s'.sched = s.sched) (h4 : s'.fin = s.fin) (h5 : s'.prod = s.prod) (h6 : s'.roots = s.roots)
    (h7 : s'.signal = s.signal) (h8 : s'.waiting = s.waiting) (h9 : s'.push = .wait ↔ s.push = .wait)
    (h10 : s'.push = .closed ↔ s.push = .closed) (h11 : stopping s'.push = true → s'.revoked = true)
    (h12 : s'.push = .closed ↔ s'.wk = .stopped) : InvC s' := by
  have hc : counts s' = counts s := by unfold counts; rw [h4, h5]
  exact
    { w := by rw [h1, h2, h3, hc, h6]; exact I.w
      zero := by rw [h7, h10, h1]; exact I.zero
      ph := by rw [h7, h8, h9]; exact I.ph
      one := by rw [h7, h8]; exact I.one
      rv := h11
      st := h12 }

theorem countP_one {s : PW} (A : InvA s) {it : It} (hm : it ∈ s.sched) {p q : It → Bool} (hp : p it = true) (hq : q it = false)
    (ho : ∀ x ∈ s.sched, x.id ≠ it.id → q x = p x) : s.sched.countP q + 1 = s.sched.countP p := by
  have hn : (s.sched.map It.id).Nodup := by rw [A.ids]; exact List.nodup_range
  revert hm ho hn
  generalize s.sched = l
  intro hm ho hn
  induction l with
  | nil => cases hm
  | cons a l ih =>
    rw [List.map_cons, List.nodup_cons] at hn
    rw [List.countP_cons, List.countP_cons]
    by_cases e : a.id = it.id
    · have hrest : l.countP q = l.countP p := by
        apply List.countP_congr
        intro x hx
        have : x.id ≠ it.id := by
          intro h2; exact hn.1 (by rw [e, ← h2]; exact List.mem_map.2 ⟨x, hx, rfl⟩)
        rw [ho x (by simp [hx]) this]
      have ha : a = it := by
        rcases List.mem_cons.1 hm with h | h
        · exact h.symm
        · exact absurd (List.mem_map.2 ⟨it, h, e.symm⟩) hn.1
      rw [hrest, ha, hp, hq]; simp
    · have hin : it ∈ l := by
        rcases List.mem_cons.1 hm with h | h
        · rw [h] at e; exact absurd rfl e
        · exact h
      have := ih hin (fun x hx => ho x (by simp [hx])) hn.2
      rw [ho a (by simp) e]; omega

theorem invC_step {s s' : PW} (A : InvA s) (B : InvB c s) (I : InvC s) {e : Bool} (h : St c s e s') : InvC s' := by
  have nst : ∀ {p : Push}, s.push = p → p ≠ .closed → s.wk ≠ .stopped := fun h1 h2 h3 => h2 (h1 ▸ I.st.2 h3)
  have nsg : ∀ {p : Push}, s.push = p → p ≠ .wait → s.signal = false ∧ s.waiting = false := by
    intro p h1 h2
    constructor
    · by_contra hc; exact h2 (h1 ▸ I.ph (.inr (by simpa using hc)))
    · by_contra hc; exact h2 (h1 ▸ I.ph (.inl (by simpa using hc)))
  have hfin : ∀ i ∈ s.fin, s.prod i = some true := fun i hi => (B.dn i (B.fin.2 i hi)).2
  -- the pusher moves from `p` to `p'`, the waiter changes by the same amount as the rest and the schedule
  have mv : ∀ {s'' : PW} {p : Push}, s.push = p → stopping p = false → stopping s''.push = false →
      s''.waiter = (rest s''.push).length + s''.sched.countP (counts s'') + s''.roots → s''.signal = s.signal →
      s''.waiting = s.waiting → s''.wk ≠ .stopped → InvC s'' := by
    intro s'' p hp h1 h2 hw h3 h4 h5
    have n1 : s.push ≠ .wait := by rw [hp]; rintro rfl; cases h1
    have n2 : s.push ≠ .closed := by rw [hp]; rintro rfl; cases h1
    have m1 : s''.push ≠ .wait := by intro h; rw [h] at h2; cases h2
    have m2 : s''.push ≠ .closed := by intro h; rw [h] at h2; cases h2
    have hs := nsg rfl n1
    exact
      { w := hw
        zero := by rw [h3, hs.1]; rintro (h | h); cases h; exact absurd h m2
        ph := by rw [h3, h4, hs.1, hs.2]; rintro (h | h) <;> cases h
        one := by rw [h4, hs.2]; intro h; cases h
        rv := by rw [h2]; intro h; cases h
        st := ⟨fun h => absurd h m2, fun h => absurd h h5⟩ }
  have cle : ∀ {it : It}, it ∈ s.sched → s.prod it.id ≠ some false → it.id ∉ s.fin → 0 < s.sched.countP (counts s) := by
    intro it h1 h2 h3
    rw [List.countP_pos_iff]
    exact ⟨it, h1, by simp [counts, h2, h3]⟩
  have hund : ∀ {it : It}, it ∈ undecided s → it ∈ s.sched ∧ s.prod it.id = none ∧ it.id ∉ s.fin := by
    intro it h1
    have h2 := undecided_prod A h1
    refine ⟨?_, h2, fun h3 => by rw [hfin _ h3] at h2; cases h2⟩
    obtain ⟨pre, k1, _⟩ := A.dec
    rw [k1]; exact List.mem_append.2 (.inr h1)
  have pos : 0 < s.sched.countP (counts s) ∨ s.roots ≠ 0 → s.signal = false ∧ s.push ≠ .closed := by
    intro h1
    have h2 := I.w
    constructor
    · by_contra hc
      have := I.zero (.inl (by simpa using hc))
      omega
    · intro hc
      have := I.zero (.inr hc)
      omega
  cases h with
  | ready wm hw =>
    have hp := A.born.2 hw
    refine mv hp rfl rfl ?_ rfl rfl (by simp)
    have := I.w; rw [hp] at this; exact this
  | revoke => exact invC_frame I rfl rfl rfl rfl rfl rfl rfl rfl Iff.rfl Iff.rfl (fun _ => rfl) I.st
  | take hp hi hr =>
    refine mv hp rfl rfl ?_ rfl rfl (nst hp (by simp))
    have := I.w
    rw [hp] at this
    simp only [rest, List.length_nil] at this ⊢
    change s.waiter + _ = _ + ((s.sched.countP (counts s) : Nat) : Int) + _
    rw [this]; omega
  | ijLost hp hi hr =>
    rcases hp with ⟨hp, _, rfl⟩ | ⟨r, hp, _, rfl⟩
    · refine mv hp rfl rfl ?_ rfl rfl (nst hp (by simp))
      have := I.w; rw [hp] at this; exact this
    · refine mv hp rfl rfl ?_ rfl rfl (nst hp (by simp))
      have := I.w; rw [hp] at this; exact this
  | @ijSched ij ijIn back hp hi hr =>
    have hnew : counts s (It.mk s.nextId none ij) = true := by
      have h1 : s.prod s.nextId = none := by
        obtain ⟨pre, k1, k2⟩ := A.dec
        by_contra hc
        have h2 := (k2 _).1 hc
        have h3 : s.nextId ∈ s.sched.map It.id := by rw [k1, List.map_append]; exact List.mem_append.2 (.inl h2)
        rw [A.ids, List.mem_range] at h3
        omega
      have h2 : s.nextId ∉ s.fin := fun h3 => by rw [hfin _ h3] at h1; cases h1
      simp [counts, h1, h2]
    have hcnt : (s.sched ++ [(It.mk s.nextId none ij)]).countP (counts s) = s.sched.countP (counts s) + 1 := by
      rw [List.countP_append]; simp [hnew]
    rcases hp with ⟨hp, rfl⟩ | ⟨r, hp, rfl⟩
    · refine mv hp rfl rfl ?_ rfl rfl (nst hp (by simp))
      have := I.w
      rw [hp] at this
      change s.waiter + 1 = _ + ((_ : Nat) : Int) + _
      change _ = _ + (((s.sched ++ [(It.mk s.nextId none ij)]).countP (counts s) : Nat) : Int) + _
      rw [hcnt]; simp only [rest, Option.getD_none, List.length_nil] at this ⊢; omega
    · refine mv hp rfl rfl ?_ rfl rfl (nst hp (by simp))
      have := I.w
      rw [hp] at this
      change s.waiter + 1 = _ + (((s.sched ++ [(It.mk s.nextId none ij)]).countP (counts s) : Nat) : Int) + _
      rw [hcnt]; simp only [rest, Option.getD_some] at this ⊢; omega
  | @record off r hp hh =>
    have hnew : counts s (It.mk s.nextId (some off) 0) = true := by
      have h1 : s.prod s.nextId = none := by
        obtain ⟨pre, k1, k2⟩ := A.dec
        by_contra hc
        have h2 := (k2 _).1 hc
        have h3 : s.nextId ∈ s.sched.map It.id := by rw [k1, List.map_append]; exact List.mem_append.2 (.inl h2)
        rw [A.ids, List.mem_range] at h3
        omega
      have h2 : s.nextId ∉ s.fin := fun h3 => by rw [hfin _ h3] at h1; cases h1
      simp [counts, h1, h2]
    have hcnt : (s.sched ++ [(It.mk s.nextId (some off) 0)]).countP (counts s) = s.sched.countP (counts s) + 1 := by
      rw [List.countP_append]; simp [hnew]
    refine mv hp rfl rfl ?_ rfl rfl (nst hp (by simp))
    have := I.w
    rw [hp] at this
    change s.waiter = _ + (((s.sched ++ [(It.mk s.nextId (some off) 0)]).countP (counts s) : Nat) : Int) + _
    rw [hcnt]; simp only [rest, Option.getD_some, List.length_cons] at this ⊢; omega
  | stale hp _ =>
    refine mv hp rfl rfl ?_ rfl rfl (nst hp (by simp))
    have := I.w
    rw [hp] at this
    change s.waiter - 1 = _ + ((s.sched.countP (counts s) : Nat) : Int) + _
    simp only [rest, List.length_cons] at this ⊢; omega
  | noRecord hp =>
    refine mv hp rfl rfl ?_ rfl rfl (nst hp (by simp))
    have := I.w
    rw [hp] at this
    change s.waiter - 1 = _ + ((s.sched.countP (counts s) : Nat) : Int) + _
    simp only [rest, List.length_cons] at this ⊢; omega
  | batchEnd hp =>
    refine mv hp rfl rfl ?_ rfl rfl (nst hp (by simp))
    have := I.w; rw [hp] at this; exact this
  | noInter hp _ =>
    refine mv hp rfl rfl ?_ rfl rfl (nst hp (by simp))
    have := I.w; rw [hp] at this; exact this
  | acquire hp _ =>
    refine mv hp rfl rfl ?_ rfl rfl (nst hp (by simp))
    have := I.w; rw [hp] at this; exact this
  | poolAdd hp =>
    refine mv hp rfl rfl ?_ rfl rfl (nst hp (by simp))
    have := I.w; rw [hp] at this; exact this
  | @putEv it back hp _ _ =>
    obtain ⟨a1, a2, a3, a4, a5⟩ := afterPut_cases it back
    refine mv hp rfl ?_ ?_ rfl rfl (nst hp (by simp))
    · show stopping (afterPut it back) = false
      cases back with
      | none => rfl
      | some r => unfold afterPut; dsimp only; split <;> rfl
    · have := I.w; rw [hp] at this
      show s.waiter = (rest (afterPut it back)).length + _ + _
      rw [a5]; exact this
  | @putIj it back hp _ _ =>
    obtain ⟨a1, a2, a3, a4, a5⟩ := afterPut_cases it back
    refine mv hp rfl ?_ ?_ rfl rfl (nst hp (by simp))
    · show stopping (afterPut it back) = false
      cases back with
      | none => rfl
      | some r => unfold afterPut; dsimp only; split <;> rfl
    · have := I.w; rw [hp] at this
      show s.waiter = (rest (afterPut it back)).length + _ + _
      rw [a5]; exact this
  | stop hp hr =>
    have hs := nsg hp (by simp)
    refine { w := ?_, zero := ?_, ph := ?_, one := I.one, rv := fun _ => hr, st := ⟨by simp, fun h => absurd h (nst hp (by simp))⟩ }
    · have := I.w; rw [hp] at this; exact this
    · rintro (h | h)
      · change s.signal = true at h; rw [hs.1] at h; cases h
      · cases h
    · rintro (h | h)
      · change s.waiting = true at h; rw [hs.2] at h; cases h
      · change s.signal = true at h; rw [hs.1] at h; cases h
  | stopSend hp hw =>
    have hs := nsg hp (by simp)
    refine { w := ?_, zero := ?_, ph := fun _ => rfl, one := fun _ => hs.1, rv := fun _ => I.rv (by rw [hp]; rfl),
             st := ⟨by simp, fun h => absurd h (nst hp (by simp))⟩ }
    · have := I.w; rw [hp] at this; exact this
    · rintro (h | h)
      · change s.signal = true at h; rw [hs.1] at h; cases h
      · cases h
  | waited hw hz =>
    exact { w := I.w, zero := fun _ => hz, ph := fun _ => I.ph (.inl hw), one := by simp, rv := I.rv, st := I.st }
  | finish hs hw hp =>
    refine { w := ?_, zero := fun _ => I.zero (.inl hs), ph := ?_, one := fun _ => rfl, rv := fun _ => I.rv (by rw [hp]; rfl), st := by simp }
    · have := I.w; rw [hp] at this; exact this
    · rintro (h | h)
      · have := I.one h
        rw [hs] at this; cases this
      · cases h
  | @refuse it buf hb hr =>
    obtain ⟨h1, h2, h3⟩ := hund (it := it) (by unfold undecided; rw [hb]; simp)
    have hc := countP_one A h1 (p := counts s)
      (q := counts { s with buf := buf, prod := upd s.prod it.id (some false), waiter := s.waiter - 1 })
      (by simp [counts, h2, h3]) (by simp [counts, upd]) (by
        intro x _ hx
        simp [counts, upd, hx])
    have hp := pos (.inl (cle h1 (by rw [h2]; simp) h3))
    refine { w := ?_, zero := ?_, ph := I.ph, one := I.one, rv := I.rv, st := I.st }
    · have := I.w
      show s.waiter - 1 = (rest s.push).length + ((s.sched.countP (counts { s with buf := buf, prod := upd s.prod it.id (some false), waiter := s.waiter - 1 }) : Nat) : Int) + s.roots
      omega
    · rintro (h | h)
      · change s.signal = true at h; rw [hp.1] at h; cases h
      · exact absurd h hp.2
  | @give it buf k hb hr _ =>
    obtain ⟨h1, h2, h3⟩ := hund (it := it) (by unfold undecided; rw [hb]; simp)
    have hc : s.sched.countP (counts { s with buf := buf, prod := upd s.prod it.id (some true), waiter := s.waiter + k, roots := s.roots + k }) = s.sched.countP (counts s) := by
      apply List.countP_congr
      intro x hx
      by_cases e : x.id = it.id
      · simp [counts, upd, e, h2, h3]
      · simp [counts, upd, e]
    have hp := pos (.inl (cle h1 (by rw [h2]; simp) h3))
    refine { w := ?_, zero := ?_, ph := I.ph, one := I.one, rv := I.rv, st := I.st }
    · have := I.w
      show s.waiter + k = (rest s.push).length + ((s.sched.countP (counts { s with buf := buf, prod := upd s.prod it.id (some true), waiter := s.waiter + k, roots := s.roots + k }) : Nat) : Int) + ((s.roots + k : Nat) : Int)
      omega
    · rintro (h | h)
      · change s.signal = true at h; rw [hp.1] at h; cases h
      · exact absurd h hp.2
  | @finalize i hd hf =>
    have hpr := (B.dn i hd).2
    have hin : ∃ it ∈ s.sched, it.id = i := by
      obtain ⟨pre, k1, k2⟩ := A.dec
      have := (k2 i).1 (by rw [hpr]; simp)
      obtain ⟨it, h1, h2⟩ := List.mem_map.1 this
      exact ⟨it, by rw [k1]; exact List.mem_append.2 (.inl h1), h2⟩
    obtain ⟨it, h1, rfl⟩ := hin
    have hc := countP_one A h1 (p := counts s) (q := counts { s with fin := s.fin ++ [it.id], waiter := s.waiter - 1 })
      (by simp [counts, hpr, hf]) (by simp [counts]) (by
        intro x _ hx
        simp [counts, hx])
    have hp := pos (.inl (cle h1 (by rw [hpr]; simp) hf))
    refine { w := ?_, zero := ?_, ph := I.ph, one := I.one, rv := I.rv, st := I.st }
    · have := I.w
      show s.waiter - 1 = (rest s.push).length + ((s.sched.countP (counts { s with fin := s.fin ++ [it.id], waiter := s.waiter - 1 }) : Nat) : Int) + s.roots
      omega
    · rintro (h | h)
      · change s.signal = true at h; rw [hp.1] at h; cases h
      · exact absurd h hp.2
  | root hr =>
    have hp := pos (.inr hr)
    refine { w := ?_, zero := ?_, ph := I.ph, one := I.one, rv := I.rv, st := I.st }
    · have := I.w
      show s.waiter - 1 = (rest s.push).length + ((s.sched.countP (counts s) : Nat) : Int) + ((s.roots - 1 : Nat) : Int)
      omega
    · rintro (h | h)
      · change s.signal = true at h; rw [hp.1] at h; cases h
      · exact absurd h hp.2
  | handle hw _ =>
    exact invC_frame I rfl rfl rfl rfl rfl rfl rfl rfl Iff.rfl Iff.rfl I.rv
      ⟨fun h => (by rw [I.st.1 h] at hw; cases hw), by simp⟩
  | handleIj hw _ =>
    exact invC_frame I rfl rfl rfl rfl rfl rfl rfl rfl Iff.rfl Iff.rfl I.rv
      ⟨fun h => (by rw [I.st.1 h] at hw; cases hw), by simp⟩
  | gotEv hw _ _ =>
    exact invC_frame I rfl rfl rfl rfl rfl rfl rfl rfl Iff.rfl Iff.rfl I.rv
      ⟨fun h => (by rw [I.st.1 h] at hw; cases hw), by simp⟩
  | gotIj hw _ _ =>
    exact invC_frame I rfl rfl rfl rfl rfl rfl rfl rfl Iff.rfl Iff.rfl I.rv
      ⟨fun h => (by rw [I.st.1 h] at hw; cases hw), by simp⟩
  | gotNil hw _ _ =>
    exact invC_frame I rfl rfl rfl rfl rfl rfl rfl rfl Iff.rfl Iff.rfl I.rv
      ⟨fun h => (by rw [I.st.1 h] at hw; cases hw), by simp⟩
  | retDone hw _ _ =>
    exact invC_frame I rfl rfl rfl rfl rfl rfl rfl rfl Iff.rfl Iff.rfl I.rv
      ⟨fun h => (by rw [I.st.1 h] at hw; cases hw), by simp⟩
  | retMore hw =>
    exact invC_frame I rfl rfl rfl rfl rfl rfl rfl rfl Iff.rfl Iff.rfl I.rv
      ⟨fun h => (by rw [I.st.1 h] at hw; cases hw), by simp⟩
  | _ => exact { I with }

theorem invC_reach {s : PW} (h : Reach c s) : InvC s := by
  induction h with
  | init => exact invC_init
  | step l hr hs ih => exact invC_step (invA_reach hr) (invB_reach hr) ih (st_of_step hs)

end Verif.Worker

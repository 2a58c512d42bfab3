import Verif.Worker.Order
/-
The order in which records reach the handler.
-/
set_option linter.unusedSimpArgs false
namespace Verif.Worker

variable {c : Cfg}

/-- The records that were not looked at yet. -/
def recs (s : PW) : List Nat := (rest s.push ++ s.input.flatten ++ s.sending.getD []).filterMap id

/-- The events of records that were scheduled but did not reach the handler. -/
def pipe (s : PW) : List It :=
  (wkWait s.wk ++ s.evq ++ putIt s.push ++ addIt s.push ++ slotIt s.push).filter (·.off.isSome)

/-- The fetched records from the watermark on. -/
def wanted (s : PW) : List Nat := (s.fetched.filterMap id).filter fun (o : Nat) => decide (s.wm ≤ (o : Int))

/-- Offsets of the scheduled records. -/
def schedOffs (s : PW) : List Nat := s.sched.filterMap It.off

/-- Kafka's client delivers the records of a partition in the order of their offsets. -/
def Asc (s : PW) : Prop := (s.fetched.filterMap id).Pairwise (· < ·)

structure InvD (s : PW) : Prop where
  f : ∃ x, wanted s = schedOffs s ++ x ∧ (s.dropped = false → x = (recs s).filter fun (o : Nat) => decide (s.wm ≤ (o : Int)))
  d : s.dropped = true → s.revoked = true ∧ (s.push = .idle ∨ stopping s.push = true)
  b : s.wk = .boot → s.sched = [] ∧ s.dropped = false ∧ s.wm = -1 ∧ s.evq = [] ∧ s.offered = []
  q : ∃ past, s.sched.filter (·.off.isSome) = past ++ pipe s ∧
    s.offered = (past.filter fun it => decide (s.prod it.id = some true)).filterMap It.off ∧ ∀ it ∈ past, s.prod it.id ≠ none
  h : s.highest = s.wm ∨ ∃ o ∈ s.offered, s.highest = o + 1
  h' : s.wm ≤ s.highest

theorem invD_init : InvD PW.init := by
  refine { f := ⟨[], rfl, fun _ => rfl⟩, d := by simp [PW.init], b := by simp [PW.init], q := ⟨[], rfl, rfl, by simp⟩,
           h := .inl rfl, h' := by simp [PW.init] }

/-- Steps that move no record. -/
theorem invD_frame {s s' : PW} (I : InvD s) (h1 : s'.fetched = s.fetched) (h2 : s'.wm = s.wm) (h3 : s'.sched = s.sched)
    (h4 : s'.dropped = s.dropped) (h5 : recs s' = recs s) (h6 : s.revoked = true → s'.revoked = true)
    (h7 : s'.push = s.push ∨ s.dropped = false ∨ (s'.push = .idle ∨ stopping s'.push = true)) (h8 : s'.wk = .boot → s.wk = .boot) (h9 : s'.evq = s.evq ∨ s'.wk ≠ .boot)
    (h10 : s'.offered = s.offered)
    (h11 : s'.prod = s.prod) (h12 : pipe s' = pipe s) (h13 : s'.highest = s.highest) : InvD s' :=
  { f := by
      obtain ⟨x, k1, k2⟩ := I.f
      refine ⟨x, ?_, ?_⟩
      · unfold wanted schedOffs; rw [h1, h2, h3]; exact k1
      · rw [h4, h5, h2]; exact k2
    d := by
      intro hd
      rw [h4] at hd
      have := I.d hd
      refine ⟨h6 this.1, ?_⟩
      rcases h7 with h | h | h
      · rw [h]; exact this.2
      · rw [h] at hd; cases hd
      · exact h
    b := fun hb => by
      have := I.b (h8 hb)
      rcases h9 with h | h
      · rw [h3, h4, h2, h, h10]; exact this
      · exact absurd hb h
    q := by rw [h3, h10, h11, h12]; exact I.q
    h := by rw [h10, h13, h2]; exact I.h
    h' := by rw [h13, h2]; exact I.h' }

theorem asc_step {s s' : PW} {e : Bool} (h : St c s e s') (ha : Asc s') : Asc s := by
  cases h with
  | offer r _ _ =>
    unfold Asc at ha ⊢
    dsimp only at ha
    rw [List.filterMap_append, List.pairwise_append] at ha
    exact ha.1
  | _ => exact ha

theorem offered_sched {s : PW} (I : InvD s) {o : Nat} (h : o ∈ s.offered) : o ∈ schedOffs s := by
  obtain ⟨past, k1, k2, _⟩ := I.q
  rw [k2] at h
  obtain ⟨it, h1, h2⟩ := List.mem_filterMap.1 h
  have h3 : it ∈ s.sched.filter (·.off.isSome) := by rw [k1]; exact List.mem_append.2 (.inl (List.mem_filter.1 h1).1)
  exact List.mem_filterMap.2 ⟨it, (List.mem_filter.1 h3).1, h2⟩

theorem wanted_asc {s : PW} (ha : Asc s) : (wanted s).Pairwise (· < ·) := List.Pairwise.filter _ ha

/-- A record is skipped only if it is before the watermark. -/
theorem stale_lt {s : PW} (ha : Asc s) (I : InvD s) {off : Nat} {r : List (Option Nat)} (hp : s.push = .next (some off :: r))
    (hn : ¬ s.highest ≤ off) : (off : Int) < s.wm := by
  by_contra hc
  have hd : s.dropped = false := by
    by_contra h
    have := I.d (by simpa using h)
    rw [hp] at this
    rcases this.2 with h | h <;> cases h
  obtain ⟨x, k1, k2⟩ := I.f
  have hx : off ∈ x := by
    rw [k2 hd, List.mem_filter]
    refine ⟨?_, by simpa using hc⟩
    unfold recs; rw [hp]; simp [rest]
  rcases I.h with h | ⟨o, h1, h2⟩
  · omega
  · have h3 := wanted_asc ha
    rw [k1, List.pairwise_append] at h3
    have := h3.2.2 o (offered_sched I h1) off hx
    omega

theorem wkWait_of {w : Wk} : w = .boot ∨ w = .idle → wkWait w = [] := by rintro (rfl | rfl) <;> rfl

theorem invD_step {s s' : PW} (A : InvA s) (B : InvB c s) (C : InvC s) (ha : Asc s) (I : InvD s) {e : Bool} (h : St c s e s') : InvD s' := by
  have nd : ∀ {p : Push}, s.push = p → p ≠ .idle → stopping p = false → s.dropped = false := by
    intro p h1 h2 h3
    by_contra h
    have := I.d (by simpa using h)
    rw [h1] at this
    rcases this.2 with h | h
    · exact h2 h
    · rw [h3] at h; cases h
  have nb : ∀ {p : Push}, s.push = p → p ≠ .unborn → s.wk ≠ .boot := by
    intro p h1 h2 h3; exact h2 (h1 ▸ A.born.2 h3)
  have nr : s.revoked = false → s.dropped = false := by
    intro h1; by_contra h
    rw [(I.d (by simpa using h)).1] at h1; cases h1
  cases h with
  | offer r hr hs =>
    obtain ⟨x, k1, k2⟩ := I.f
    have hrec : recs { s with sending := some r, fetched := s.fetched ++ r } = recs s ++ r.filterMap id := by
      unfold recs; rw [hs]; simp [List.filterMap_append]
    refine { I with f := ?_ }
    have hd := nr hr
    refine ⟨x ++ (r.filterMap id).filter fun (o : Nat) => decide (s.wm ≤ (o : Int)), ?_, fun _ => ?_⟩
    · unfold wanted schedOffs at *
      dsimp only
      rw [List.filterMap_append, List.filter_append, k1, List.append_assoc]
    · rw [hrec, List.filter_append, ← k2 hd]
  | @sendClosed r hs hp =>
    obtain ⟨x, k1, k2⟩ := I.f
    exact { I with
      f := ⟨x, k1, by simp⟩
      d := fun _ => ⟨C.rv (by rw [hp]; rfl), .inr (by show stopping s.push = true; rw [hp]; rfl)⟩
      b := fun hb => absurd hb (nb hp (by simp)) }
  | @send r hs hp hl =>
    refine invD_frame I rfl rfl rfl rfl ?_ id (.inl rfl) id (.inl rfl) rfl rfl rfl rfl
    unfold recs; rw [hs]; simp
  | interject => exact { I with }
  | ready wm hw =>
    have hp := A.born.2 hw
    obtain ⟨b1, b2, b3, b4, b5⟩ := I.b hw
    obtain ⟨x, k1, k2⟩ := I.f
    refine { f := ?_, d := ?_, b := by simp, q := ?_, h := .inl rfl, h' := Int.le_refl _ }
    · refine ⟨_, ?_, fun _ => rfl⟩
      have e1 : schedOffs s = [] := by unfold schedOffs; rw [b1]; rfl
      have e2 : s.fetched.filterMap id = recs s := by
        have := k2 b2
        rw [e1, List.nil_append] at k1
        have hall : ∀ l : List Nat, (l.filter fun (o : Nat) => decide (s.wm ≤ (o : Int))) = l := by
          intro l; rw [List.filter_eq_self]; intro a _; rw [b3]; simp
        unfold wanted at k1
        rw [hall] at k1
        rw [hall] at this
        rw [k1, this]
      unfold wanted schedOffs
      dsimp only
      rw [b1, e2]
      unfold recs; rw [hp]; rfl
    · intro hd; change s.dropped = true at hd; rw [b2] at hd; cases hd
    · refine ⟨[], ?_, ?_, by simp⟩
      · show s.sched.filter _ = _
        rw [b1]; unfold pipe; simp [wkWait, b4, putIt, addIt, slotIt]
      · show s.offered = _
        rw [b5]; rfl
  | revoke => exact { I with d := fun hd => ⟨rfl, (I.d hd).2⟩ }
  | @drop r input hp hi hr =>
    obtain ⟨x, k1, k2⟩ := I.f
    exact { I with
      f := ⟨x, k1, by simp⟩
      d := fun _ => ⟨hr, .inl hp⟩
      b := fun hb => absurd hb (nb hp (by simp)) }
  | @take r input hp hi hr =>
    refine invD_frame I rfl rfl rfl rfl ?_ id (.inr (.inl (nr hr))) id (.inl rfl) rfl rfl ?_ rfl
    · unfold recs; rw [hp, hi]; simp [rest]
    · unfold pipe; rw [hp]; simp [putIt, addIt, slotIt]
  | ijLost hp hi hr =>
    rcases hp with ⟨hp, _, rfl⟩ | ⟨r, hp, _, rfl⟩
    · refine invD_frame I rfl rfl rfl rfl ?_ id (.inr (.inr (.inl rfl))) id (.inl rfl) rfl rfl ?_ rfl
      · unfold recs; rw [hp]
      · unfold pipe; rw [hp]
    · refine invD_frame I rfl rfl rfl rfl ?_ id (.inr (.inl (nd hp (by simp) rfl))) id (.inl rfl) rfl rfl ?_ rfl
      · unfold recs; rw [hp]; rfl
      · unfold pipe; rw [hp]; rfl
  | @ijSched ij ijIn back hp hi hr =>
    have hw : s.wk ≠ .boot := by
      rcases hp with ⟨hp, _⟩ | ⟨r, hp, _⟩
      · exact nb hp (by simp)
      · exact nb hp (by simp)
    have h1 : (s.sched ++ [It.mk s.nextId none ij]).filter (·.off.isSome) = s.sched.filter (·.off.isSome) := by
      rw [List.filter_append]; simp
    have h2 : (s.sched ++ [It.mk s.nextId none ij]).filterMap It.off = s.sched.filterMap It.off := by
      rw [List.filterMap_append]; simp
    obtain ⟨x, k1, k2⟩ := I.f
    obtain ⟨past, q1, q2, q3⟩ := I.q
    refine { f := ⟨x, ?_, ?_⟩, d := ?_, b := fun hb => absurd hb hw, q := ⟨past, ?_, q2, q3⟩, h := I.h, h' := I.h' }
    · unfold schedOffs; dsimp only; rw [h2]; exact k1
    · intro hd
      rw [k2 hd]; unfold recs
      rcases hp with ⟨hp, rfl⟩ | ⟨r, hp, rfl⟩ <;> rw [hp] <;> rfl
    · intro hd
      change s.dropped = true at hd
      rw [nr hr] at hd; cases hd
    · dsimp only; rw [h1, q1]
      unfold pipe
      rcases hp with ⟨hp, rfl⟩ | ⟨r, hp, rfl⟩ <;> rw [hp] <;> simp [putIt, addIt, slotIt]
  | stop hp hr =>
    refine invD_frame I rfl rfl rfl rfl ?_ id (.inr (.inr (.inr rfl))) id (.inl rfl) rfl rfl ?_ rfl
    · unfold recs; rw [hp]; rfl
    · unfold pipe; rw [hp]; rfl
  | @record off r hp hh =>
    have hd := nd hp (by simp) rfl
    have hw := nb hp (by simp)
    obtain ⟨x, k1, k2⟩ := I.f
    obtain ⟨past, q1, q2, q3⟩ := I.q
    have hwm : s.wm ≤ (off : Int) := Int.le_trans I.h' hh
    refine { f := ⟨((rest (.next r) ++ s.input.flatten ++ s.sending.getD []).filterMap id).filter fun (o : Nat) => decide (s.wm ≤ (o : Int)), ?_, fun _ => rfl⟩,
             d := ?_, b := fun hb => absurd hb hw, q := ⟨past, ?_, q2, q3⟩, h := I.h, h' := I.h' }
    · have e : (recs s).filter (fun (o : Nat) => decide (s.wm ≤ (o : Int))) = off :: ((rest (.next r) ++ s.input.flatten ++ s.sending.getD []).filterMap id).filter (fun (o : Nat) => decide (s.wm ≤ (o : Int))) := by
        unfold recs; rw [hp]; simp [rest, hwm]
      rw [k2 hd, e] at k1
      show wanted s = _
      rw [k1]; unfold schedOffs; simp
    · intro h; change s.dropped = true at h; rw [hd] at h; cases h
    · dsimp only; rw [List.filter_append, q1]
      unfold pipe; rw [hp]; simp [putIt, addIt, slotIt]
  | @stale off r hp hn =>
    have hd := nd hp (by simp) rfl
    have hlt := stale_lt ha I hp hn
    obtain ⟨x, k1, k2⟩ := I.f
    obtain ⟨past, q1, q2, q3⟩ := I.q
    refine { I with f := ⟨x, k1, fun _ => ?_⟩, d := ?_, q := ⟨past, ?_, q2, q3⟩ }
    · rw [k2 hd]; unfold recs; rw [hp]
      have : ¬ s.wm ≤ (off : Int) := by omega
      simp [rest, this]
    · intro h; change s.dropped = true at h; rw [hd] at h; cases h
    · rw [q1]; unfold pipe; rw [hp]; rfl
  | @noRecord r hp =>
    have hd := nd hp (by simp) rfl
    refine invD_frame I rfl rfl rfl rfl ?_ id (.inr (.inl hd)) id (.inl rfl) rfl rfl ?_ rfl
    · unfold recs; rw [hp]; simp [rest]
    · unfold pipe; rw [hp]; rfl
  | batchEnd hp =>
    refine invD_frame I rfl rfl rfl rfl ?_ id (.inr (.inl (nd hp (by simp) rfl))) id (.inl rfl) rfl rfl ?_ rfl
    · unfold recs; rw [hp]; rfl
    · unfold pipe; rw [hp]; rfl
  | noInter hp _ =>
    refine invD_frame I rfl rfl rfl rfl ?_ id (.inr (.inl (nd hp (by simp) rfl))) id (.inl rfl) rfl rfl ?_ rfl
    · unfold recs; rw [hp]; rfl
    · unfold pipe; rw [hp]; rfl
  | acquire hp _ =>
    refine invD_frame I rfl rfl rfl rfl ?_ id (.inr (.inl (nd hp (by simp) rfl))) id (.inl rfl) rfl rfl ?_ rfl
    · unfold recs; rw [hp]; rfl
    · unfold pipe; rw [hp]; simp [putIt, addIt, slotIt]
  | poolAdd hp =>
    refine invD_frame I rfl rfl rfl rfl ?_ id (.inr (.inl (nd hp (by simp) rfl))) id (.inl rfl) rfl rfl ?_ rfl
    · unfold recs; rw [hp]; rfl
    · unfold pipe; rw [hp]; simp [putIt, addIt, slotIt]
  | @putEv it back hp _ _ =>
    obtain ⟨a1, a2, a3, a4, a5⟩ := afterPut_cases it back
    have hp1 : putIt (Push.put it back) = [it] := rfl
    have hp2 : addIt (Push.put it back) = [] := rfl
    have hp3 : slotIt (Push.put it back) = [] := rfl
    refine invD_frame I rfl rfl rfl rfl ?_ id (.inr (.inl (nd hp (by simp) rfl))) id (.inr (nb hp (by simp))) rfl rfl ?_ rfl
    · unfold recs; dsimp only; rw [hp, a5]; rfl
    · unfold pipe; dsimp only; rw [hp, a1, a2, a3, hp1, hp2, hp3]; simp
  | @putIj it back hp ho _ =>
    obtain ⟨a1, a2, a3, a4, a5⟩ := afterPut_cases it back
    have hp1 : putIt (Push.put it back) = [it] := rfl
    have hp2 : addIt (Push.put it back) = [] := rfl
    have hp3 : slotIt (Push.put it back) = [] := rfl
    refine invD_frame I rfl rfl rfl rfl ?_ id (.inr (.inl (nd hp (by simp) rfl))) id (.inl rfl) rfl rfl ?_ rfl
    · unfold recs; dsimp only; rw [hp, a5]; rfl
    · unfold pipe; dsimp only; rw [hp, a1, a2, a3, hp1, hp2, hp3]; simp [ho]
  | @refuse it buf hb hr =>
    obtain ⟨past, q1, q2, q3⟩ := I.q
    have hn := undecided_prod A (it := it) (by unfold undecided; rw [hb]; simp)
    have hne : ∀ x ∈ past, x.id ≠ it.id := fun x hx e => q3 x hx (by rw [e]; exact hn)
    refine { I with q := ⟨past, q1, ?_, ?_⟩ }
    · show s.offered = _
      rw [q2]; congr 1
      apply List.filter_congr
      intro x hx; simp [upd, hne x hx]
    · intro x hx; simp only [upd, hne x hx, if_false]; exact q3 x hx
  | @give it buf k hb hr _ =>
    obtain ⟨past, q1, q2, q3⟩ := I.q
    have hn := undecided_prod A (it := it) (by unfold undecided; rw [hb]; simp)
    have hne : ∀ x ∈ past, x.id ≠ it.id := fun x hx e => q3 x hx (by rw [e]; exact hn)
    refine { I with q := ⟨past, q1, ?_, ?_⟩ }
    · show s.offered = _
      rw [q2]; congr 1
      apply List.filter_congr
      intro x hx; simp [upd, hne x hx]
    · intro x hx; simp only [upd, hne x hx, if_false]; exact q3 x hx
  | @handle it evq hw he =>
    refine invD_frame I rfl rfl rfl rfl rfl id (.inl rfl) (by simp) (.inr (by simp)) rfl rfl ?_ rfl
    unfold pipe; rw [hw, he]; simp [wkWait]
  | @handleIj it ijq hw he =>
    have ho := B.ijs it (by rw [he]; simp)
    refine invD_frame I rfl rfl rfl rfl rfl id (.inl rfl) (by simp) (.inr (by simp)) rfl rfl ?_ rfl
    unfold pipe; rw [hw]; simp [wkWait, ho]
  | @gotEv it off hw hp ho =>
    obtain ⟨past, q1, q2, q3⟩ := I.q
    refine { f := I.f, d := I.d, b := by simp, q := ⟨past ++ [it], ?_, ?_, ?_⟩, h := .inr ⟨off, by simp, rfl⟩, h' := ?_ }
    · dsimp only; rw [q1]; unfold pipe; rw [hw]; simp [wkWait, ho]
    · dsimp only; rw [q2]; simp [hp, ho]
    · intro x hx
      rcases List.mem_append.1 hx with h | h
      · exact q3 x h
      · rw [List.mem_singleton.1 h]; dsimp only; rw [hp]; simp
    · -- the record is not before the watermark
      have hm : off ∈ schedOffs s := by
        have : it ∈ s.sched.filter (·.off.isSome) := by
          rw [q1]; unfold pipe; rw [hw]; simp [wkWait, ho]
        exact List.mem_filterMap.2 ⟨it, (List.mem_filter.1 this).1, ho⟩
      obtain ⟨x, k1, _⟩ := I.f
      have : off ∈ wanted s := by rw [k1]; exact List.mem_append.2 (.inl hm)
      have := (List.mem_filter.1 this).2
      have : s.wm ≤ (off : Int) := by simpa using this
      show s.wm ≤ (off : Int) + 1
      omega
  | @gotIj it hw hp ho =>
    refine invD_frame I rfl rfl rfl rfl rfl id (.inl rfl) (by simp) (.inr (by simp)) rfl rfl ?_ rfl
    unfold pipe; rw [hw]; simp [wkWait, ho]
  | @gotNil it hw hp hs =>
    obtain ⟨past, q1, q2, q3⟩ := I.q
    refine { f := I.f, d := I.d, b := by simp, q := ⟨past ++ [it].filter (·.off.isSome), ?_, ?_, ?_⟩, h := I.h, h' := I.h' }
    · dsimp only; rw [q1]; unfold pipe; rw [hw]; simp [wkWait, List.filter_cons]; split <;> simp
    · dsimp only; rw [q2, List.filter_append, List.filterMap_append]
      have : ([it].filter (·.off.isSome)).filter (fun it => decide (s.prod it.id = some true)) = [] := by
        rw [List.filter_eq_nil_iff]
        intro x hx
        rw [List.mem_singleton.1 (List.mem_filter.1 hx).1, hp]; simp
      rw [this]; simp
    · intro x hx
      rcases List.mem_append.1 hx with h | h
      · exact q3 x h
      · rw [List.mem_singleton.1 (List.mem_filter.1 h).1]; dsimp only; rw [hp]; simp
  | @retDone it hw _ _ =>
    refine invD_frame I rfl rfl rfl rfl rfl id (.inl rfl) (by simp) (.inr (by simp)) rfl rfl ?_ rfl
    unfold pipe; rw [hw]; simp [wkWait]
  | @retMore it hw =>
    refine invD_frame I rfl rfl rfl rfl rfl id (.inl rfl) (by simp) (.inr (by simp)) rfl rfl ?_ rfl
    unfold pipe; rw [hw]; simp [wkWait]
  | stopSend hp hw =>
    refine invD_frame I rfl rfl rfl rfl ?_ id (.inr (.inr (.inr rfl))) id (.inl rfl) rfl rfl ?_ rfl
    · unfold recs; rw [hp]; rfl
    · unfold pipe; rw [hp]; rfl
  | finish hs hw hp =>
    refine invD_frame I rfl rfl rfl rfl ?_ id (.inr (.inr (.inr rfl))) (by simp) (.inl rfl) rfl rfl ?_ rfl
    · unfold recs; rw [hp]; rfl
    · unfold pipe; rw [hp, hw]; rfl
  | _ => exact { I with }

theorem invD_reach {s : PW} (h : Reach c s) (ha : Asc s) : InvD s := by
  induction h with
  | init => exact invD_init
  | step l hr hs ih =>
    have ha' := asc_step (st_of_step hs) ha
    exact invD_step (invA_reach hr) (invB_reach hr) (invC_reach hr) ha' (ih ha') (st_of_step hs)

end Verif.Worker

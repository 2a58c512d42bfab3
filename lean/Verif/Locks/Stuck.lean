import Verif.Locks.Proofs
/-
Jobs whose callbacks call `Interject`: they never come to their end.
-/
namespace Verif.Locks

/-- As `Ok` for the group goroutine as long as it does not take a lock that it has: then nothing more is said (`streams/source_consumer.go:190-242`). -/
def Okd : List Lock → List Instr → Prop
  | held, [] => held = []
  | held, .lock l :: r => l ∈ held ∨ Okd (l :: held) r
  | held, .unlock l :: r => l ∈ held ∧ Okd (held.filter (· ≠ l)) r
  | held, .wait :: r => Okd held r
  | held, .prepare _ :: r => Okd held r
  | held, .forget _ :: r => Okd held r
  | held, .synced :: r => Okd held r

/-- It is going to take `workerMux` while it has it (`streams/source_consumer.go:190-242,289-291`). -/
def Doomed : List Lock → List Instr → Prop
  | _, [] => False
  | held, .lock l :: r => (l = .worker ∧ .worker ∈ held) ∨ (l ∉ held ∧ Doomed (l :: held) r)
  | held, .unlock l :: r => Doomed (held.filter (· ≠ l)) r
  | held, .wait :: r => Doomed held r
  | held, .prepare _ :: r => Doomed held r
  | held, .forget _ :: r => Doomed held r
  | held, .synced :: r => Doomed held r

/-- The group goroutine is going to take `workerMux` twice (`streams/source_consumer.go:190-242,289-291`). -/
structure InvD (s : St) (held : Option Nat → List Lock) : Prop where
  ok : ∀ i, Ok false (held (some i)) (s.prog (some i))
  okd : Okd (held none) s.g
  doomed : Doomed (held none) s.g
  own : ∀ l who, s.own l = some who ↔ l ∈ held who

theorem invD_append {s : St} {held : Option Nat → List Lock} (h : InvD s held) (t : Thr) (ht : Ok false [] t.prog) :
    InvD ⟨s.g, s.ts ++ [t], s.own⟩ held := by
  refine ⟨fun i => ?_, h.okd, h.doomed, h.own⟩
  rw [prog_append]
  split
  · next hw =>
    have h0 := h.ok i
    have : s.prog (some i) = [] := by rw [hw]; simp [St.prog]
    rw [this] at h0
    rw [held_of_done h0]
    exact ht
  · exact h.ok i

theorem own_setProg (s : St) (who : Option Nat) (r : List Instr) : (s.setProg who r).own = s.own := by cases who <;> rfl

theorem g_setProg (s : St) (i : Nat) (r : List Instr) : (s.setProg (some i) r).g = s.g := rfl

theorem invD_set {s : St} {held : Option Nat → List Lock} (h : InvD s held) {who : Option Nat} {i : Instr} {r : List Instr}
    (hp : s.prog who = i :: r) (hr : ∀ n, who = some n → Ok false (held who) r)
    (hg : who = none → Okd (held none) r ∧ Doomed (held none) r) : InvD (s.setProg who r) held := by
  refine ⟨fun n => ?_, ?_, ?_, fun l w => ?_⟩
  · rw [prog_setProg (by simp [hp])]
    split
    · next hw => rw [hw]; exact hr n hw.symm
    · exact h.ok n
  · cases who with
    | none => exact (hg rfl).1
    | some n => exact h.okd
  · cases who with
    | none => exact (hg rfl).2
    | some n => exact h.doomed
  · rw [own_setProg]; exact h.own l w

theorem own_lock {s : St} {held : Option Nat → List Lock} (ho : ∀ l who, s.own l = some who ↔ l ∈ held who) {l : Lock} {who : Option Nat}
    (hfree : s.own l = none) (k : Lock) (w : Option Nat) :
    setOwn s.own l (some who) k = some w ↔ k ∈ (if w = who then l :: held who else held w) := by
  have hnone : ∀ w, l ∉ held w := fun w hw => by have := (ho l w).2 hw; rw [hfree] at this; cases this
  simp only [setOwn]
  by_cases hkl : k = l
  · subst hkl
    by_cases hw : w = who
    · simp [hw]
    · simp [hw, hnone w, Ne.symm hw]
  · by_cases hw : w = who
    · subst hw; simp [hkl, ho]
    · simp [hkl, hw, ho]

theorem own_unlock {s : St} {held : Option Nat → List Lock} (ho : ∀ l who, s.own l = some who ↔ l ∈ held who) {l : Lock} {who : Option Nat}
    (h1 : l ∈ held who) (k : Lock) (w : Option Nat) :
    setOwn s.own l none k = some w ↔ k ∈ (if w = who then (held who).filter (· ≠ l) else held w) := by
  have hme := (ho l who).2 h1
  simp only [setOwn]
  by_cases hkl : k = l
  · subst hkl
    by_cases hw : w = who
    · simp [hw]
    · have : k ∉ held w := fun hm => by
        have := (ho k w).2 hm
        rw [hme] at this
        exact hw (Option.some.inj this).symm
      simp [hw, this]
  · by_cases hw : w = who
    · subst hw; simp [hkl, ho]
    · simp [hkl, hw, ho]

theorem invD_thread {s s' : St} {held : Option Nat → List Lock} (h : InvD s held) {n : Nat} {i : Instr} {r : List Instr}
    (hp : s.prog (some n) = i :: r) (hs : exec s (some n) r i = some s') : ∃ held', InvD s' held' := by
  have hk := h.ok n
  rw [hp] at hk
  have hne : s.prog (some n) ≠ [] := by simp [hp]
  cases i with
  | lock l =>
    simp only [exec] at hs
    split at hs
    · next hfree =>
      cases hs
      refine ⟨fun w => if w = some n then l :: held (some n) else held w, fun m => ?_, ?_, ?_, own_lock h.own hfree⟩
      · rw [prog_own, prog_setProg hne]
        by_cases hm : some m = some n
        · cases hm; simpa using hk.2.2
        · simp only [hm, if_false]; exact h.ok m
      · exact h.okd
      · exact h.doomed
    · cases hs
  | unlock l =>
    simp only [exec, Option.some.injEq] at hs
    subst hs
    refine ⟨fun w => if w = some n then (held (some n)).filter (· ≠ l) else held w, fun m => ?_, ?_, ?_, own_unlock h.own hk.1⟩
    · rw [prog_own, prog_setProg hne]
      by_cases hm : some m = some n
      · cases hm; simpa using hk.2
      · simp only [hm, if_false]; exact h.ok m
    · exact h.okd
    · exact h.doomed
  | prepare k =>
    simp only [exec, Option.some.injEq] at hs; subst hs
    exact ⟨held, invD_append (invD_set h hp (fun _ _ => hk) (by simp)) _ (ok_prepare k)⟩
  | forget k =>
    simp only [exec, Option.some.injEq] at hs; subst hs
    exact ⟨held, invD_append (invD_set h hp (fun _ _ => hk) (by simp)) _ (ok_forget k)⟩
  | synced =>
    simp only [exec, Option.some.injEq] at hs; subst hs
    exact ⟨held, invD_append (invD_set h hp (fun _ _ => hk) (by simp)) _ ok_synced⟩
  | wait => exact absurd hk.1 (by simp)

theorem invD_group {s s' : St} {held : Option Nat → List Lock} (h : InvD s held) {i : Instr} {r : List Instr}
    (hp : s.g = i :: r) (hs : exec s none r i = some s') : ∃ held', InvD s' held' := by
  have hk := h.okd
  have hd := h.doomed
  rw [hp] at hk hd
  cases i with
  | lock l =>
    simp only [exec] at hs
    split at hs
    · next hfree =>
      cases hs
      have hn : l ∉ held none := fun hm => by have := (h.own l none).2 hm; rw [hfree] at this; cases this
      refine ⟨fun w => if w = none then l :: held none else held w, fun m => ?_, ?_, ?_, own_lock h.own hfree⟩
      · exact h.ok m
      · exact hk.resolve_left hn
      · rcases hd with ⟨rfl, hm⟩ | ⟨_, hd⟩
        · exact absurd hm hn
        · exact hd
    · cases hs
  | unlock l =>
    simp only [exec, Option.some.injEq] at hs
    subst hs
    refine ⟨fun w => if w = none then (held none).filter (· ≠ l) else held w, fun m => ?_, ?_, ?_, own_unlock h.own hk.1⟩
    · exact h.ok m
    · exact hk.2
    · exact hd
  | prepare k =>
    simp only [exec, Option.some.injEq] at hs; subst hs
    exact ⟨held, invD_append (invD_set (who := none) h hp (by simp) (fun _ => ⟨hk, hd⟩)) _ (ok_prepare k)⟩
  | forget k =>
    simp only [exec, Option.some.injEq] at hs; subst hs
    exact ⟨held, invD_append (invD_set (who := none) h hp (by simp) (fun _ => ⟨hk, hd⟩)) _ (ok_forget k)⟩
  | synced =>
    simp only [exec, Option.some.injEq] at hs; subst hs
    exact ⟨held, invD_append (invD_set (who := none) h hp (by simp) (fun _ => ⟨hk, hd⟩)) _ ok_synced⟩
  | wait =>
    simp only [exec] at hs
    split at hs
    · cases hs; exact ⟨held, invD_set (who := none) h hp (by simp) (fun _ => ⟨hk, hd⟩)⟩
    · cases hs

theorem g_of_doomed {s : St} {held : Option Nat → List Lock} (h : InvD s held) : s.g ≠ [] := fun hg => by
  have := h.doomed
  rw [hg] at this
  exact this

theorem invD_step {s s' : St} {held : Option Nat → List Lock} (h : InvD s held) {l : Label} (hs : step s l = some s') :
    ∃ held', InvD s' held' := by
  cases l with
  | run who =>
    simp only [step] at hs
    split at hs
    · cases hs
    · next i r hp =>
      cases who with
      | none => exact invD_group h hp hs
      | some n => exact invD_thread h hp hs
  | job j =>
    simp only [step, if_neg (g_of_doomed h)] at hs
    cases hs
  | start f =>
    simp only [step, Option.some.injEq] at hs
    subst hs
    exact ⟨held, invD_append h _ (ok_free f)⟩

theorem invD_run {s s' : St} {held : Option Nat → List Lock} (h : InvD s held) {ls : List Label} (hs : run s ls = some s') :
    ∃ held', InvD s' held' := by
  induction ls generalizing s held with
  | nil => simp [run] at hs; subst hs; exact ⟨held, h⟩
  | cons l ls ih =>
    simp only [run] at hs
    cases h1 : step s l with
    | none => rw [h1] at hs; simp at hs
    | some s1 =>
      rw [h1] at hs
      obtain ⟨held', h'⟩ := invD_step h h1
      exact ih h' hs

/-! ### Jobs that are not quiet -/

/-- Both at once (`streams/source_consumer.go:190-242`). -/
def Bad (held : List Lock) (p : List Instr) : Prop := Okd held p ∧ Doomed held p

theorem bad_callback {held : List Lock} (hw : .worker ∈ held) {n : Nat} (hn : n ≠ 0) (r : List Instr) : Bad held (callback n ++ r) := by
  obtain ⟨m, rfl⟩ := Nat.exists_eq_succ_of_ne_zero hn
  simp only [callback, List.replicate_succ, List.flatten_cons, workerProg, List.append_assoc, List.cons_append, Bad, Okd, Doomed]
  exact ⟨Or.inl hw, Or.inl ⟨by simp, hw⟩⟩

theorem bad_assignOne (act : List Bool) {r : List Instr} (h : Bad [.prepping, .worker] r) : Bad [.prepping, .worker] (act.flatMap assignOne ++ r) := by
  induction act with
  | nil => simpa using h
  | cons a act ih =>
    rw [List.flatMap_cons, List.append_assoc]
    cases a <;> simpa [assignOne, Bad, Okd, Doomed] using ih

theorem bad_revokeOne (c : Nat × Nat) (hc : c ≠ (0, 0)) (r : List Instr) : Bad [.worker] (revokeOne c ++ r) := by
  obtain ⟨a, b⟩ := c
  simp only [revokeOne, List.append_assoc]
  by_cases ha : a = 0
  · subst ha
    have hb : b ≠ 0 := fun hb => hc (by simp [hb])
    have := bad_callback (held := [.stores, .worker]) (by simp) hb ([.unlock .stores] ++ r)
    simpa [callback, Bad, Okd, Doomed] using this
  · exact bad_callback (by simp) ha _

theorem bad_will {will : List (Nat × Nat)} {r : List Instr} (h : (∃ c ∈ will, c ≠ (0, 0)) ∨ Bad [.worker] r) :
    Bad [.worker] (will.flatMap revokeOne ++ r) := by
  induction will with
  | nil =>
    rcases h with ⟨c, hc, _⟩ | h
    · cases hc
    · simpa using h
  | cons c will ih =>
    rw [List.flatMap_cons, List.append_assoc]
    by_cases hc : c = (0, 0)
    · subst hc
      have : Bad [.worker] (will.flatMap revokeOne ++ r) := ih (by
        rcases h with ⟨c, hm, hne⟩ | h
        · rcases List.mem_cons.1 hm with rfl | hm
          · exact absurd rfl hne
          · exact Or.inl ⟨c, hm, hne⟩
        · exact Or.inr h)
      simpa [revokeOne, callback, Bad, Okd, Doomed] using this
    · exact bad_revokeOne c hc _

theorem bad_job {j : Job} (hq : ¬ j.Quiet) : Bad [] j.prog := by
  cases j with
  | join => exact absurd trivial hq
  | parse _ _ => exact absurd trivial hq
  | assign act calls =>
    have hq : calls ≠ 0 := hq
    have := bad_assignOne act (r := [.lock .status, .unlock .status] ++ (callback calls ++ [.unlock .prepping, .unlock .worker])) (by
      have := bad_callback (held := [.prepping, .worker]) (by simp) hq [.unlock .prepping, .unlock .worker]
      simpa [Bad, Okd, Doomed] using this)
    simpa [Job.prog, Bad, Okd, Doomed] using this
  | revoke will calls =>
    have hq : ¬ ((∀ c ∈ will, c = (0, 0)) ∧ calls = 0) := hq
    have := bad_will (will := will) (r := callback calls ++ [.unlock .worker]) (by
      by_cases hc : calls = 0
      · left
        by_contra hn
        exact hq ⟨fun c hm => by by_contra hne; exact hn ⟨c, hm, hne⟩, hc⟩
      · exact Or.inr (bad_callback (by simp) hc _))
    simpa [Job.prog, Bad, Okd, Doomed] using this

theorem invD_job {s : St} {held : Option Nat → List Lock} (h : Inv s held) (hg : s.g = []) {j : Job} (hq : ¬ j.Quiet) :
    InvD { s with g := j.prog } held := by
  have h0 := h.ok none
  have hn : s.prog none = [] := hg
  rw [hn] at h0
  have h0 := held_of_done h0
  refine ⟨fun i => h.ok (some i), ?_, ?_, h.own⟩
  · rw [h0]; exact (bad_job hq).1
  · rw [h0]; exact (bad_job hq).2

/-! ### Once it has come to the second `Lock`, nothing moves that needs `workerMux` -/

theorem stuck_step {s s' : St} {held : Option Nat → List Lock} (h : InvD s held) {r : List Instr} (hg : s.g = .lock .worker :: r)
    (ho : s.own .worker = some none) {l : Label} (hs : step s l = some s') : s'.g = .lock .worker :: r ∧ s'.own .worker = some none := by
  cases l with
  | job j => simp only [step, if_neg (g_of_doomed h)] at hs; cases hs
  | start f => simp only [step, Option.some.injEq] at hs; subst hs; exact ⟨hg, ho⟩
  | run who =>
    simp only [step] at hs
    split at hs
    · cases hs
    · next i r' hp =>
      cases who with
      | none =>
        have hp : s.g = i :: r' := hp
        rw [hg] at hp
        cases hp
        simp [exec, ho] at hs
      | some n =>
        have hk := h.ok n
        rw [hp] at hk
        cases i with
        | lock l =>
          simp only [exec] at hs
          split at hs
          · next hf =>
            cases hs
            refine ⟨hg, ?_⟩
            by_cases hl : Lock.worker = l
            · rw [← hl, ho] at hf; cases hf
            · simp [setOwn, hl, ho]
          · cases hs
        | unlock l =>
          simp only [exec, Option.some.injEq] at hs; subst hs
          refine ⟨hg, ?_⟩
          by_cases hl : Lock.worker = l
          · subst hl
            have := (h.own _ _).2 hk.1
            rw [ho] at this; cases this
          · simp [setOwn, hl, ho]
        | prepare k => simp only [exec, Option.some.injEq] at hs; subst hs; exact ⟨hg, ho⟩
        | forget k => simp only [exec, Option.some.injEq] at hs; subst hs; exact ⟨hg, ho⟩
        | synced => simp only [exec, Option.some.injEq] at hs; subst hs; exact ⟨hg, ho⟩
        | wait => exact absurd hk.1 (by simp)

theorem stuck_run {s s' : St} {held : Option Nat → List Lock} (h : InvD s held) {r : List Instr} (hg : s.g = .lock .worker :: r)
    (ho : s.own .worker = some none) {ls : List Label} (hs : run s ls = some s') :
    s'.g = .lock .worker :: r ∧ s'.own .worker = some none := by
  induction ls generalizing s held with
  | nil => simp [run] at hs; subst hs; exact ⟨hg, ho⟩
  | cons l ls ih =>
    simp only [run] at hs
    cases h1 : step s l with
    | none => rw [h1] at hs; simp at hs
    | some s1 =>
      rw [h1] at hs
      obtain ⟨held', h'⟩ := invD_step h h1
      obtain ⟨h1, h2⟩ := stuck_step h hg ho h1
      exact ih h' h1 h2 hs

end Verif.Locks

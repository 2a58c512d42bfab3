import Verif.Depart.Model
import Mathlib.Tactic.Common
import Mathlib.Data.List.Induction
/-
C82: `Stop` leaves the group gracefully if the group uses the incremental protocol: the client is closed once, only after a round has taken all partitions from the
member, and the signal comes once, after that; otherwise the client is closed at once.

Proved: order, at most once, what graceful means, and the decision if the coordinator can be asked and no rebalance is being prepared. Violated: if the request fails
or a rebalance is being prepared the member leaves abruptly; if the group changes its protocol after the decision, the member waits for ever.
-/
namespace Verif.Depart
open Verif.Config Verif.Rebalance

/-! ### Specification -/

/-- The protocol of the last round (specification; `streams/source_consumer.go:350-352`). -/
def lastProtocol (ls : List Label) : Option Balancer :=
  ls.foldl (fun b l => match l with | .round b' _ _ => some b' | _ => b) none

/-- The member has asked to leave (`streams/incr_rebalancer.go:342-351`). -/
def Asked (ls : List Label) : Prop := ∃ now, Label.ask now ∈ ls

/-- After the member has asked to leave, a round of the incremental protocol took all partitions from it (specification; `streams/incr_rebalancer.go:341`). -/
def Surrendered (ls : List Label) : Prop :=
  ∃ a now b ins c, ls = a ++ .ask now :: (b ++ .round .incremental [] ins :: c)

/-- A round of the incremental protocol that leaves the member nothing. -/
def Empty (l : Label) : Prop := ∃ ins, l = .round .incremental [] ins

/-! ### Runs -/

theorem run_snoc (topic : Bytes) (s : Dep) (ls : List Label) (l : Label) :
    run topic s (ls ++ [l]) = (run topic s ls).bind fun s' => step topic s' l := by
  induction ls generalizing s with
  | nil => simp [run]
  | cons k ls ih =>
    simp only [List.cons_append, run]
    cases step topic s k with
    | none => rfl
    | some s1 => simpa using ih s1

theorem lastProtocol_snoc (ls : List Label) (l : Label) :
    lastProtocol (ls ++ [l]) = match l with | .round b _ _ => some b | _ => lastProtocol ls := by
  simp only [lastProtocol, List.foldl_append, List.foldl_cons, List.foldl_nil]

theorem surrendered_snoc {ls : List Label} {l : Label} : Surrendered (ls ++ [l]) ↔ Surrendered ls ∨ (Asked ls ∧ Empty l) := by
  constructor
  · rintro ⟨a, now, b, ins, c, h⟩
    rcases List.eq_nil_or_concat c with rfl | ⟨c', x, rfl⟩
    · right
      have h' : ls ++ [l] = (a ++ .ask now :: b) ++ [.round .incremental [] ins] := by simpa using h
      obtain ⟨h1, h2⟩ := List.append_inj' h' rfl
      refine ⟨⟨now, by rw [h1]; simp⟩, ins, by simpa using h2⟩
    · left
      have h' : ls ++ [l] = (a ++ .ask now :: (b ++ .round .incremental [] ins :: c')) ++ [x] := by simpa using h
      obtain ⟨h1, _⟩ := List.append_inj' h' rfl
      exact ⟨a, now, b, ins, c', h1⟩
  · rintro (⟨a, now, b, ins, c, rfl⟩ | ⟨⟨now, hm⟩, ins, rfl⟩)
    · exact ⟨a, now, b, ins, c ++ [l], by simp⟩
    · obtain ⟨a, b, rfl⟩ := List.append_of_mem hm
      exact ⟨a, now, b, ins, [], by simp⟩

theorem asked_snoc {ls : List Label} {l : Label} : Asked (ls ++ [l]) ↔ Asked ls ∨ ∃ now, l = .ask now := by
  simp only [Asked, List.mem_append, List.mem_singleton]
  constructor
  · rintro ⟨now, h | h⟩
    · exact .inl ⟨now, h⟩
    · exact .inr ⟨now, h.symm⟩
  · rintro (⟨now, h⟩ | ⟨now, h⟩)
    · exact ⟨now, .inl h⟩
    · exact ⟨now, .inr h.symm⟩

theorem assigned_status (m : Mb) (tps : List TP) : (m.partitionsAssigned tps).1.status = m.status ∧ (m.partitionsAssigned tps).1.closes = m.closes := by
  induction tps generalizing m with
  | nil => exact ⟨rfl, rfl⟩
  | cons tp tps ih => simp only [Mb.partitionsAssigned]; exact ih _

theorem after_other {m : Mb} {topic : Bytes} {b : Balancer} {parts : List Int} {ins : Instr}
    (h : ¬ (m.status = inactiveMember ∧ b = .incremental ∧ parts = [])) :
    (after m topic b parts ins).status = m.status ∧ (after m topic b parts ins).closes = m.closes := by
  unfold after
  split
  · next hb =>
    have hn : ¬ (m.status = inactiveMember ∧ ([(topic, parts)].all fun e => decide (e.2.length = 0)) = true) := by
      rintro ⟨h1, h2⟩
      exact h ⟨h1, hb, by simpa using h2⟩
    simp only [Mb.sync, Mb.parseSync, if_neg hn]
    exact assigned_status _ _
  · exact assigned_status _ _

theorem after_empty {m : Mb} {topic : Bytes} {ins : Instr} (h : m.status = inactiveMember) :
    (after m topic .incremental [] ins).status = defunct ∧ (after m topic .incremental [] ins).closes = m.closes + 1 := by
  simp [after, Mb.sync, Mb.parseSync, h, Mb.partitionsAssigned]

/-- What holds in every run: where `leave` is tells what has happened (`streams/source_consumer.go:379-393`). -/
structure Inv (rs : List BalanceStrategy) (ls : List Label) (s : Dep) : Prop where
  conf : s.conf = rs
  elected : s.elected = none ∨ s.elected = lastProtocol ls
  known : ∀ b, lastProtocol ls = some b → b ∈ consumerBalancers rs
  closes : s.closes = if s.phase = .closed ∨ s.phase = .over then 1 else 0
  signals : s.signals = if s.phase = .over then 1 else 0
  early : s.phase = .off ∨ s.phase = .starting → ¬ Asked ls ∧ s.mb.status = activeMember ∧ s.mb.closes = 0
  wait : s.phase = .waiting → Asked ls ∧
    ((s.mb.status = inactiveMember ∧ s.mb.closes = 0 ∧ ¬ Surrendered ls) ∨ (s.mb.status = defunct ∧ s.mb.closes = 1 ∧ Surrendered ls))
  late : s.phase = .closing ∨ s.phase = .closed ∨ s.phase = .over → Surrendered ls ∨ (¬ Asked ls ∧ s.mb.status = activeMember)

theorem asked_of_surrendered {ls : List Label} (h : Surrendered ls) : Asked ls := by
  obtain ⟨a, now, b, ins, c, rfl⟩ := h
  exact ⟨now, by simp⟩

theorem inv_run (topic : Bytes) (rs : List BalanceStrategy) (id : Nat) (ls : List Label) :
    ∀ s, run topic (Dep.init rs id) ls = some s → Inv rs ls s := by
  induction ls using List.reverseRecOn with
  | nil =>
    intro s h
    simp only [run, Option.some.injEq] at h
    subst h
    refine ⟨rfl, .inl rfl, by simp [lastProtocol], by simp [Dep.init], by simp [Dep.init], ?_, by simp [Dep.init], by simp [Dep.init]⟩
    intro _
    exact ⟨by rintro ⟨_, h⟩; simp at h, rfl, rfl⟩
  | append_singleton ls l ih =>
    intro s' h
    rw [run_snoc, Option.bind_eq_some_iff] at h
    obtain ⟨s, h1, h2⟩ := h
    have I := ih s h1
    obtain ⟨i1, i2, i3, i4, i5, i6, i7, i8⟩ := I
    cases l with
    | prepare =>
      simp only [step] at h2
      split at h2
      · cases h2
        refine ⟨i1, .inl rfl, by rw [lastProtocol_snoc]; exact i3, i4, i5, ?_, ?_, ?_⟩
        · rw [asked_snoc]; simpa using i6
        · rw [asked_snoc, surrendered_snoc]; simpa [Empty] using i7
        · rw [asked_snoc, surrendered_snoc]; simpa [Empty] using i8
      · cases h2
    | leave ok =>
      simp only [step] at h2
      split at h2
      · next hp =>
        generalize isIncremental s.conf (if ok = true then .protocol s.elected else .failed) = d at h2
        cases h2
        obtain ⟨j1, j2, j3⟩ := i6 (.inl hp)
        rw [hp] at i4 i5
        refine ⟨i1, by rw [lastProtocol_snoc]; exact i2, by rw [lastProtocol_snoc]; exact i3, ?_, ?_, ?_, ?_, ?_⟩
        · cases d <;> simpa using i4
        · cases d <;> simpa using i5
        · intro _; rw [asked_snoc]; exact ⟨by simpa using j1, j2, j3⟩
        · cases d <;> simp
        · intro _; rw [asked_snoc]; exact .inr ⟨by simpa using j1, j2⟩
      · cases h2
    | ask now =>
      simp only [step] at h2
      split at h2
      · next hp =>
        cases h2
        obtain ⟨j1, j2, j3⟩ := i6 (.inr hp)
        rw [hp] at i4 i5
        refine ⟨i1, by rw [lastProtocol_snoc]; exact i2, by rw [lastProtocol_snoc]; exact i3, by simpa using i4, by simpa using i5,
          by simp, fun _ => ?_, by simp⟩
        rw [asked_snoc, surrendered_snoc]
        refine ⟨.inr ⟨now, rfl⟩, .inl ⟨by simp [Mb.gracefullyLeave, j2], by simp [Mb.gracefullyLeave, j2, j3], ?_⟩⟩
        rintro (h | ⟨_, ins, h⟩)
        · exact j1 (asked_of_surrendered h)
        · cases h
      · cases h2
    | wake =>
      simp only [step] at h2
      split at h2
      · next hp =>
        cases h2
        obtain ⟨j1, j2⟩ := i7 hp.1
        rw [hp.1] at i4 i5
        refine ⟨i1, by rw [lastProtocol_snoc]; exact i2, by rw [lastProtocol_snoc]; exact i3, by simpa using i4, by simpa using i5,
          by simp, by simp, fun _ => ?_⟩
        rw [surrendered_snoc]
        rcases j2 with ⟨_, hc, _⟩ | ⟨_, _, hs⟩
        · omega
        · exact .inl (.inl hs)
      · cases h2
    | close =>
      simp only [step] at h2
      split at h2
      · next hp =>
        cases h2
        have j := i8 (.inl hp)
        rw [hp] at i4 i5
        refine ⟨i1, by rw [lastProtocol_snoc]; exact i2, by rw [lastProtocol_snoc]; exact i3, by simpa using i4, by simpa using i5,
          by simp, by simp, fun _ => ?_⟩
        rw [asked_snoc, surrendered_snoc]; simpa [Empty] using j
      · cases h2
    | signal =>
      simp only [step] at h2
      split at h2
      · next hp =>
        cases h2
        have j := i8 (.inr (.inl hp))
        rw [hp] at i4 i5
        refine ⟨i1, by rw [lastProtocol_snoc]; exact i2, by rw [lastProtocol_snoc]; exact i3, by simpa using i4, by simpa using i5,
          by simp, by simp, fun _ => ?_⟩
        rw [asked_snoc, surrendered_snoc]; simpa [Empty] using j
      · cases h2
    | round b parts ins =>
      simp only [step] at h2
      split at h2
      · next hp =>
        cases h2
        obtain ⟨hp0, hp⟩ := hp
        refine ⟨i1, .inr (by rw [lastProtocol_snoc]), ?_, i4, i5, ?_, ?_, ?_⟩
        · rw [lastProtocol_snoc]; intro b' hb; cases hb; rw [← i1]; exact hp
        · intro h
          obtain ⟨j1, j2, j3⟩ := i6 h
          obtain ⟨k1, k2⟩ := after_other (m := s.mb) (topic := topic) (b := b) (parts := parts) (ins := ins)
            (by rintro ⟨h, _⟩; rw [j2] at h; exact absurd h (by decide))
          rw [asked_snoc]
          exact ⟨by simpa using j1, by rw [k1, j2], by rw [k2, j3]⟩
        · intro h
          obtain ⟨j1, j2⟩ := i7 h
          rw [asked_snoc, surrendered_snoc]
          refine ⟨.inl j1, ?_⟩
          rcases j2 with ⟨ha, hc, hs⟩ | ⟨ha, hc, hs⟩
          · by_cases he : b = .incremental ∧ parts = []
            · obtain ⟨rfl, rfl⟩ := he
              obtain ⟨k1, k2⟩ := after_empty (m := s.mb) (topic := topic) (ins := ins) ha
              exact .inr ⟨k1, by rw [k2, hc], .inr ⟨j1, ins, rfl⟩⟩
            · obtain ⟨k1, k2⟩ := after_other (m := s.mb) (topic := topic) (b := b) (parts := parts) (ins := ins) (by
                rintro ⟨_, h⟩; exact he h)
              refine .inl ⟨by rw [k1, ha], by rw [k2, hc], ?_⟩
              rintro (h | ⟨_, ins', h⟩)
              · exact hs h
              · cases h; exact he ⟨rfl, rfl⟩
          · obtain ⟨k1, k2⟩ := after_other (m := s.mb) (topic := topic) (b := b) (parts := parts) (ins := ins)
              (by rintro ⟨h, _⟩; rw [ha] at h; exact absurd h (by decide))
            exact .inr ⟨by rw [k1, ha], by rw [k2, hc], .inl hs⟩
        · intro h
          rw [asked_snoc, surrendered_snoc]
          rcases i8 h with hs | ⟨ha, hst⟩
          · exact .inl (.inl hs)
          · obtain ⟨k1, k2⟩ := after_other (m := s.mb) (topic := topic) (b := b) (parts := parts) (ins := ins)
              (by rintro ⟨h, _⟩; rw [hst] at h; exact absurd h (by decide))
            exact .inr ⟨by simpa using ha, by rw [k1, hst]⟩
      · cases h2

/-! ### The property -/

/-- **C82.** The client is closed at most once, the signal is sent at most once and after that. -/
theorem C82_once (topic : Bytes) (rs : List BalanceStrategy) (id : Nat) (ls : List Label) (s : Dep)
    (h : run topic (Dep.init rs id) ls = some s) : s.signals ≤ s.closes ∧ s.closes ≤ 1 := by
  have I := inv_run topic rs id ls s h
  have h1 := I.closes
  have h2 := I.signals
  rw [h1, h2]
  by_cases ho : s.phase = .over
  · simp [ho]
  · simp only [ho, if_false, or_false]
    split <;> omega

/-- **C82.** If the member has asked to leave, the client is closed only after a round of the incremental protocol has taken all partitions from it. -/
theorem C82_surrendered (topic : Bytes) (rs : List BalanceStrategy) (id : Nat) (ls : List Label) (s : Dep)
    (h : run topic (Dep.init rs id) ls = some s) (ha : ∃ now, Label.ask now ∈ ls) (hc : 0 < s.closes) :
    ∃ a now b ins c, ls = a ++ .ask now :: (b ++ .round .incremental [] ins :: c) := by
  have I := inv_run topic rs id ls s h
  have h1 := I.closes
  have hp : s.phase = .closed ∨ s.phase = .over := by
    by_contra hn; rw [if_neg hn] at h1; omega
  rcases I.late (.inr hp) with hs | ⟨hn, _⟩
  · exact hs
  · exact absurd ha hn

/-- **C82.** Once such a round has come, the leave needs nothing but its own steps to end, whatever else happens in between. -/
theorem C82_ends (topic : Bytes) (rs : List BalanceStrategy) (id : Nat) (ls : List Label) (s : Dep)
    (h : run topic (Dep.init rs id) ls = some s) (hs : Surrendered ls) :
    ∃ rest s', rest <:+ [.wake, .close, .signal] ∧ run topic s rest = some s' ∧ s'.closes = 1 ∧ s'.signals = 1 := by
  have I := inv_run topic rs id ls s h
  have hc := I.closes
  have hg := I.signals
  cases hp : s.phase with
  | off => exact absurd (asked_of_surrendered hs) (I.early (.inl hp)).1
  | starting => exact absurd (asked_of_surrendered hs) (I.early (.inr hp)).1
  | waiting =>
    rcases (I.wait hp).2 with ⟨_, _, hn⟩ | ⟨_, hm, _⟩
    · exact absurd hs hn
    · rw [hp] at hc hg
      exact ⟨[.wake, .close, .signal], _, ⟨[], rfl⟩, by simp only [run, step, hp, hm]; rfl, by simpa using hc, by simpa using hg⟩
  | closing =>
    rw [hp] at hc hg
    exact ⟨[.close, .signal], _, ⟨[.wake], rfl⟩, by simp only [run, step, hp]; rfl, by simpa using hc, by simpa using hg⟩
  | closed =>
    rw [hp] at hc hg
    exact ⟨[.signal], _, ⟨[.wake, .close], rfl⟩, by simp only [run, step, hp]; rfl, by simpa using hc, by simpa using hg⟩
  | over =>
    rw [hp] at hc hg
    exact ⟨[], s, ⟨[.wake, .close, .signal], rfl⟩, rfl, by simpa using hc, by simpa using hg⟩

theorem single {rs : List BalanceStrategy} (hl : rs.length ≤ 1) (hi : Balancer.incremental ∈ consumerBalancers rs) :
    consumerBalancers rs = [.incremental] := by
  match rs, hl with
  | [], _ => rfl
  | [r], _ =>
    simp only [consumerBalancers, toGroupBalancers, List.length_singleton, Nat.one_ne_zero, if_false, List.foldl_cons, List.foldl_nil] at hi ⊢
    cases hb : toBalancer r with
    | none => rw [hb] at hi; simp at hi
    | some b => rw [hb] at hi; simp at hi; rw [hi]; rfl

theorem hasIncr_iff (rs : List BalanceStrategy) : hasIncrBalancer rs = true ↔ Balancer.incremental ∈ consumerBalancers rs := by
  simp [hasIncrBalancer]

/-- **C82 (partial: the coordinator answers and no rebalance is being prepared, or there is one strategy).** A call of `leave` is graceful if the group uses the
incremental protocol, and closes the client at once otherwise. -/
theorem C82_decision_partial (topic : Bytes) (rs : List BalanceStrategy) (id : Nat) (ls : List Label) (s : Dep)
    (h : run topic (Dep.init rs id) ls = some s) (hp : s.phase = .off) (ok : Bool) (b : Balancer) (hb : lastProtocol ls = some b)
    (hk : (ok = true ∧ s.elected ≠ none) ∨ rs.length ≤ 1) :
    ∃ s', step topic s (.leave ok) = some s' ∧ (s'.phase = .starting ↔ b = .incremental) ∧ (s'.phase = .closing ↔ b ≠ .incremental) := by
  have I := inv_run topic rs id ls s h
  have hk2 := I.known b hb
  refine ⟨_, by simp only [step, hp, if_true]; rfl, ?_⟩
  dsimp only
  have key : isIncremental s.conf (if ok = true then .protocol s.elected else .failed) = decide (b = .incremental) := by
    rw [I.conf]
    unfold isIncremental
    by_cases hi : Balancer.incremental ∈ consumerBalancers rs
    · have h1 := (hasIncr_iff rs).2 hi
      rw [if_neg (by simp [h1])]
      by_cases hl : rs.length ≤ 1
      · rw [if_pos hl]
        rw [single hl hi] at hk2
        simp only [List.mem_singleton] at hk2
        simp [hk2]
      · rw [if_neg hl]
        obtain ⟨h2, h3⟩ := hk.resolve_right hl
        rw [h2]
        have h4 := I.elected.resolve_left h3
        rw [h4, hb]
        simp
    · have h1 : hasIncrBalancer rs = false := by
        cases hh : hasIncrBalancer rs with
        | false => rfl
        | true => exact absurd ((hasIncr_iff rs).1 hh) hi
      rw [if_pos h1]
      have : b ≠ .incremental := fun he => hi (he ▸ hk2)
      simp [this]
  rw [key]
  by_cases hbi : b = .incremental <;> simp [hbi]

/-- **C82.** A call is never graceful while the group uses another protocol, whether the coordinator answers or not. -/
theorem C82_never_wait_for_another (topic : Bytes) (rs : List BalanceStrategy) (id : Nat) (ls : List Label) (s s' : Dep)
    (h : run topic (Dep.init rs id) ls = some s) (ok : Bool) (hs : step topic s (.leave ok) = some s') (hw : s'.phase = .starting)
    (b : Balancer) (hb : lastProtocol ls = some b) : b = .incremental := by
  have I := inv_run topic rs id ls s h
  have hk2 := I.known b hb
  simp only [step] at hs
  split at hs
  · cases hs
    cases hi : isIncremental s.conf (if ok = true then .protocol s.elected else .failed) with
    | false => rw [hi] at hw; simp at hw
    | true =>
      rw [I.conf] at hi
      unfold isIncremental at hi
      split at hi
      · cases hi
      · next hh =>
        have hm := (hasIncr_iff rs).1 (by simpa using hh)
        split at hi
        · next hl =>
          rw [single hl hm] at hk2
          simpa using hk2
        · cases ok with
          | false => simp at hi
          | true =>
            simp only [if_true] at hi
            rcases I.elected with he | he
            · rw [he] at hi; simp at hi
            · rw [he, hb] at hi; simpa using hi
  · cases hs

/-- **C82 violated.** The group uses the incremental protocol, the member owns two partitions, and it leaves abruptly: because the request to the coordinator fails, or
because a rebalance is being prepared. -/
theorem C82_violated_abrupt :
    (∃ s, run [] (Dep.init [3, 2] 1) [.round .incremental [0, 1] ⟨[], []⟩, .leave false, .close] = some s ∧
      lastProtocol [.round .incremental [0, 1] ⟨[], []⟩, .leave false, .close] = some .incremental ∧
      s.closes = 1 ∧ s.mb.owned = [0, 1] ∧ s.mb.status = activeMember) ∧
    ∃ s, run [] (Dep.init [3, 2] 1) [.round .incremental [0, 1] ⟨[], []⟩, .prepare, .leave true, .close] = some s ∧
      s.closes = 1 ∧ s.mb.owned = [0, 1] ∧ s.mb.status = activeMember := by
  exact ⟨⟨_, rfl, rfl, rfl, rfl, rfl⟩, ⟨_, rfl, rfl, rfl, rfl⟩⟩

theorem waits {topic : Bytes} {s : Dep} (hp : s.phase = .waiting) (hc : s.closes = 0) (hm : s.mb.closes = 0) (hg : s.signals = 0) (more : List Label)
    (hn : ∀ parts ins, Label.round .incremental parts ins ∉ more) :
    ∀ s', run topic s more = some s' → s'.phase = .waiting ∧ s'.closes = 0 ∧ s'.mb.closes = 0 ∧ s'.signals = 0 := by
  induction more generalizing s with
  | nil => intro s' h; simp only [run, Option.some.injEq] at h; subst h; exact ⟨hp, hc, hm, hg⟩
  | cons l more ih =>
    intro s' h
    simp only [run, Option.bind_eq_some_iff] at h
    obtain ⟨s1, h1, h2⟩ := h
    have hn' : ∀ parts ins, Label.round .incremental parts ins ∉ more := fun p i hm => hn p i (List.mem_cons_of_mem _ hm)
    cases l with
    | prepare => simp only [step, hc, if_true, Option.some.injEq] at h1; subst h1; exact ih (by exact hp) rfl (by exact hm) (by exact hg) hn' s' h2
    | leave ok => simp [step, hp] at h1
    | ask now => simp [step, hp] at h1
    | wake => simp [step, hm] at h1
    | close => simp [step, hp] at h1
    | signal => simp [step, hp] at h1
    | round b parts ins =>
      simp only [step] at h1
      split at h1
      · cases h1
        have hb : b ≠ .incremental := fun hb => hn parts ins (by rw [hb]; simp)
        refine ih (by exact hp) (by exact hc) ?_ (by exact hg) hn' s' h2
        dsimp only
        rw [(after_other (by rintro ⟨_, h, _⟩; exact hb h)).2]; exact hm
      · cases h1

theorem assigned_lists (m : Mb) (tps : List TP) (x : TP) :
    (x ∈ (m.partitionsAssigned tps).1.ready ↔ x ∈ m.ready ∧ x ∉ tps) ∧ (x ∈ (m.partitionsAssigned tps).1.preparing ↔ x ∈ m.preparing ∧ x ∉ tps) := by
  induction tps generalizing m with
  | nil => simp [Mb.partitionsAssigned]
  | cons tp tps ih =>
    simp only [Mb.partitionsAssigned]
    rw [(ih _).1, (ih _).2]
    simp only [delTP, List.mem_filter, List.mem_cons, not_or]
    simp only [decide_eq_true_eq]
    tauto

/-- **C82** (rounds of other protocols). In a round of another protocol the member gets exactly the partitions of the round, every partition that is new to it is no longer reported
as prepared or in preparation, every other preparation goes on, and the member neither leaves nor is released by the round. -/
theorem C82_other_rounds (topic : Bytes) (s s' : Dep) (b : Balancer) (parts : List Int) (ins : Instr) (hb : b ≠ .incremental) (h : step topic s (.round b parts ins) = some s') :
    s'.mb.owned = parts ∧ s'.mb.status = s.mb.status ∧ s'.mb.closes = s.mb.closes ∧
      ∀ x : TP, (x ∈ s'.mb.ready ↔ x ∈ s.mb.ready ∧ ¬ (x.topic = topic ∧ x.part ∈ parts ∧ x.part ∉ s.mb.owned)) ∧
        (x ∈ s'.mb.preparing ↔ x ∈ s.mb.preparing ∧ ¬ (x.topic = topic ∧ x.part ∈ parts ∧ x.part ∉ s.mb.owned)) := by
  simp only [step] at h
  split at h
  · simp only [Option.some.injEq] at h; subst h
    have ho := after_other (m := s.mb) (topic := topic) (b := b) (parts := parts) (ins := ins) (by rintro ⟨_, h, _⟩; exact hb h)
    refine ⟨by simp [after, hb], ho.1, ho.2, fun x => ?_⟩
    have hx : x ∈ ((parts.filter fun p => p ∉ s.mb.owned).map fun p => (⟨p, topic⟩ : TP)) ↔ x.topic = topic ∧ x.part ∈ parts ∧ x.part ∉ s.mb.owned := by
      obtain ⟨p, t⟩ := x
      simp only [List.mem_map, List.mem_filter, TP.mk.injEq, decide_eq_true_eq]
      constructor
      · rintro ⟨q, ⟨h1, h2⟩, rfl, rfl⟩; exact ⟨rfl, h1, h2⟩
      · rintro ⟨rfl, h1, h2⟩; exact ⟨p, ⟨h1, h2⟩, rfl, rfl⟩
    have hl := assigned_lists s.mb ((parts.filter fun p => p ∉ s.mb.owned).map fun p => (⟨p, topic⟩ : TP)) x
    simp only [after, if_neg hb]
    rw [hl.1, hl.2, hx]
    exact ⟨Iff.rfl, Iff.rfl⟩
  · simp at h

/-- A member that has two partitions prepared gets one of them and another one by the cooperative protocol. -/
example : ∃ s, step [7] { Dep.init [2] 1 with mb := { Mb.new 1 with ready := [⟨1, [7]⟩, ⟨2, [7]⟩], owned := [3] } } (.round .cooperativeSticky [3, 1] ⟨[], []⟩) = some s ∧
    s.mb.ready = [⟨2, [7]⟩] ∧ s.mb.owned = [3, 1] :=
  ⟨_, rfl, by decide +kernel, by decide +kernel⟩

/-- **C82 violated.** The decision was right, but then the group changes to another protocol (a member that does not know the incremental one joins): as long as that is
in use, the member waits for the channel, even when all its partitions have been taken away. -/
theorem C82_violated_changed : ∃ s, run [] (Dep.init [3, 2] 1) [.round .incremental [0] ⟨[], []⟩, .leave true, .ask 5, .round .cooperativeSticky [] ⟨[], []⟩] = some s ∧
    s.mb.owned = [] ∧ ∀ more s', (∀ parts ins, Label.round .incremental parts ins ∉ more) → run [] s more = some s' → s'.closes = 0 ∧ s'.signals = 0 := by
  refine ⟨_, rfl, rfl, fun more s' hn hs => ?_⟩
  obtain ⟨_, h2, _, h4⟩ := waits (by rfl) (by rfl) (by rfl) (by rfl) more hn s' hs
  exact ⟨h2, h4⟩

/-- A graceful leave: two partitions are taken away one after the other. -/
def leaving : List Label :=
  [.round .incremental [0, 1] ⟨[], []⟩, .leave true, .ask 7, .prepare, .round .incremental [1] ⟨[], []⟩, .prepare, .round .incremental [] ⟨[], []⟩,
    .wake, .close, .signal]

/-- The hypotheses can be met: such a run exists, with the client closed and the request made. -/
example : ∃ s, run [] (Dep.init [2, 3] 4) leaving = some s ∧ (∃ now, Label.ask now ∈ leaving) ∧ 0 < s.closes ∧ Surrendered (leaving.take 7) :=
  ⟨_, rfl, ⟨7, by simp [leaving]⟩, by decide +kernel, ⟨leaving.take 2, 7, [.prepare, .round .incremental [1] ⟨[], []⟩, .prepare], ⟨[], []⟩, [], rfl⟩⟩

/-- The hypotheses of `C82_decision_partial` can be met with both outcomes. -/
example : (∃ s, run [] (Dep.init [2, 3] 4) (leaving.take 1) = some s ∧ s.phase = .off ∧ lastProtocol (leaving.take 1) = some .incremental ∧ s.elected ≠ none) ∧
    ∃ s, run [] (Dep.init [2, 3] 4) [.round .cooperativeSticky [3] ⟨[], []⟩] = some s ∧ s.phase = .off ∧
      lastProtocol [.round .cooperativeSticky [3] ⟨[], []⟩] = some .cooperativeSticky ∧ s.elected ≠ none :=
  ⟨⟨_, rfl, rfl, rfl, by decide +kernel⟩, ⟨_, rfl, rfl, rfl, by decide +kernel⟩⟩

end Verif.Depart

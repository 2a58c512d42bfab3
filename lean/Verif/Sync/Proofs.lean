import Verif.Sync.Model
import Mathlib.Tactic.Common
import Mathlib.Data.List.Nodup
/-
One synchronisation of a store.
-/
set_option linter.unusedSimpArgs false
namespace Verif.Sync
open Verif.Record

/-- The partition is at rest before a synchronisation starts: `consume` has no records of it in hand, no goroutine populates a
store from it, nobody waits for a marker. -/
structure Clean (s : SS) : Prop where
  polled : s.polled = none
  passed : s.passed = none
  sending : s.sending = none
  pops : ∀ p ∈ s.pops, p.ended = true
  waiters : s.waiters = []
  toSend : s.toSend = []

/-- Neither `prep` nor `cancelPartition`. -/
def within : Label → Bool
  | .prep _ _ => false
  | .cancel => false
  | _ => true

/-- The states of a synchronisation that starts in `s0`. -/
inductive Sess (s0 : SS) (st : PState) (fresh : Bool) : SS → Prop where
  | start {s : SS} : step s0 (.prep st fresh) = some s → Sess s0 st fresh s
  | step {s s' : SS} (l : Label) : Sess s0 st fresh s → within l = true → step s l = some s' → Sess s0 st fresh s'

/-- The marks found among the records `l`, in order, that belong to `marks`. -/
def found (marks : List Bytes) (l : List KRecord) : List Bytes :=
  (l.filter fun r => isMarkerRecord r && decide (markOf r ∈ marks)).map markOf

/-- The changes among the records. -/
def changes (l : List KRecord) : List KRecord := l.filter fun r => !isMarkerRecord r

theorem found_append (m : List Bytes) (l k : List KRecord) : found m (l ++ k) = found m l ++ found m k := by simp [found]
theorem changes_append (l k : List KRecord) : changes (l ++ k) = changes l ++ changes k := by simp [changes]

/-- What `consume` has in hand. -/
def inHand (s : SS) : List KRecord :=
  (match s.sending with
    | some (b, _) => b
    | none => []) ++ s.passed.getD [] ++ s.polled.getD []

/-- The number of markers that end a synchronisation. -/
def need : PState → Nat
  | .prepping => 2
  | _ => 1

/-- Facts about marks and the log. `ms` are the marks of this synchronisation, `d` the records that were handled. -/
structure Core (s0 s : SS) (a0 : List KRecord) (ms : List Bytes) (d : List KRecord) : Prop where
  marks : s.marks = s0.marks ++ ms
  sendSub : ∀ m ∈ s.toSend, m ∈ ms ∧ m ∉ found ms s.log
  sendNodup : s.toSend.Nodup
  once : (found ms s.log).Nodup
  wait : ∀ m, m ∈ s.waiters ↔ m ∈ ms ∧ m ∉ found ms d
  waitNodup : s.waiters.Nodup
  synced : s.synced = s0.synced ++ found ms d
  others : ∀ i p, i ≠ s0.pops.length → s.pops[i]? = some p → p.ended = true
  pre : d <+: s.log
  pos : s.pos ≤ s.log.length
  applied : s.applied = a0 ++ changes d
  one : (s.polled = none ∧ s.passed = none) ∨ (s.polled = none ∧ s.sending = none) ∨ (s.passed = none ∧ s.sending = none)

/-- The channel and the goroutine of this synchronisation while it goes on. -/
structure Running (s0 s : SS) (st : PState) (ms : List Bytes) (d cur : List KRecord) (q : List (List KRecord)) : Prop where
  buffer : s.buffer = some s0.bufs.length
  chan : s.bufs[s0.bufs.length]? = some ⟨q, false⟩
  pop : s.pops[s0.pops.length]? = some ⟨s0.bufs.length, cur, false⟩
  send : ∀ b i, s.sending = some (b, i) → i = some s0.bufs.length
  log : s.log.take s.pos = d ++ cur ++ q.flatten ++ inHand s
  state : (found ms d = [] ∧ s.state = st) ∨ (st = .prepping ∧ (found ms d).length = 1 ∧ s.state = .ready)
  held : s.held = false

/-- The synchronisation is complete. -/
structure Ended (s0 s : SS) (st : PState) (ms : List Bytes) (d : List KRecord) : Prop where
  pop : ∃ p, s.pops[s0.pops.length]? = some p ∧ p.ended = true
  len : (found ms d).length = need st
  last : ∃ d' r, d = d' ++ [r] ∧ isMarkerRecord r = true ∧ markOf r ∈ ms

def Inv (s0 : SS) (st : PState) (a0 : List KRecord) (s : SS) : Prop :=
  ∃ ms d, Core s0 s a0 ms d ∧ ((∃ cur q, Running s0 s st ms d cur q) ∨ Ended s0 s st ms d)

theorem inv_start {s0 s : SS} {st : PState} {fresh : Bool} (hc : Clean s0) (h : step s0 (.prep st fresh) = some s) :
    Inv s0 st (if fresh then [] else s0.applied) s := by
  simp only [step, Option.some.injEq] at h
  subst h
  refine ⟨[], [], ?_, .inl ⟨[], [], ?_⟩⟩
  · refine { marks := by simp, sendSub := ?_, sendNodup := ?_, once := by simp [found], wait := ?_, waitNodup := ?_, synced := by simp [found],
             others := ?_, pre := List.nil_prefix, pos := Nat.zero_le _, applied := by simp [changes]
             one := .inl ⟨hc.polled, hc.passed⟩ }
    · dsimp only; rw [hc.toSend]; simp
    · dsimp only; rw [hc.toSend]; simp
    · dsimp only; rw [hc.waiters]; simp
    · dsimp only; rw [hc.waiters]; simp
    · intro i p hi hp
      dsimp only at hp
      rcases Nat.lt_trichotomy i s0.pops.length with h | h | h
      · rw [List.getElem?_append_left h] at hp
        exact hc.pops p (List.mem_of_getElem? hp)
      · exact absurd h hi
      · rw [List.getElem?_eq_none (by simp; omega)] at hp; cases hp
  · refine { buffer := rfl, chan := by simp, pop := by simp, send := ?_, log := ?_, state := .inl ⟨rfl, rfl⟩, held := rfl }
    · intro b i h; dsimp only at h; rw [hc.sending] at h; cases h
    · simp [inHand, hc.sending, hc.passed, hc.polled]

/-- A mark that does not occur in the log is not found in it. -/
theorem found_fresh {ms : List Bytes} {m : Bytes} {l : List KRecord} (h : ∀ r ∈ l, isMarkerRecord r = true → markOf r ≠ m) :
    found (ms ++ [m]) l = found ms l := by
  unfold found
  congr 1
  apply List.filter_congr
  intro r hr
  cases hm : isMarkerRecord r with
  | false => simp
  | true => simp [h r hr hm]

theorem mem_found {ms : List Bytes} {m : Bytes} {l : List KRecord} :
    m ∈ found ms l ↔ m ∈ ms ∧ ∃ r ∈ l, isMarkerRecord r = true ∧ markOf r = m := by
  unfold found
  simp only [List.mem_map, List.mem_filter, Bool.and_eq_true, decide_eq_true_eq]
  constructor
  · rintro ⟨r, ⟨h1, h2, h3⟩, rfl⟩
    exact ⟨h3, r, h1, h2, rfl⟩
  · rintro ⟨h, r, h1, h2, rfl⟩
    exact ⟨r, ⟨h1, h2, h⟩, rfl⟩

theorem found_single (ms : List Bytes) (r : KRecord) : found ms [r] = if isMarkerRecord r = true ∧ markOf r ∈ ms then [markOf r] else [] := by
  unfold found
  by_cases h : isMarkerRecord r = true ∧ markOf r ∈ ms
  · simp [h.1, h.2]
  · rw [if_neg h]
    simp only [List.map_eq_nil_iff, List.filter_eq_nil_iff, List.mem_singleton, Bool.and_eq_true, decide_eq_true_eq]
    rintro x rfl; exact h

theorem marker_is (m : Bytes) : isMarkerRecord (markerRecord ⟨0#32, []⟩ m) = true ∧ markOf (markerRecord ⟨0#32, []⟩ m) = m := by
  constructor
  · simp [isMarkerRecord, markerRecord]
  · rfl

theorem found_prefix {ms : List Bytes} {d l : List KRecord} (h : d <+: l) : found ms d <+: found ms l := by
  obtain ⟨t, rfl⟩ := h
  rw [found_append]; exact List.prefix_append _ _

/-- Steps that touch neither marks, log, handled records nor goroutines. -/
theorem core_frame {s0 s s' : SS} {a0 : List KRecord} {ms : List Bytes} {d : List KRecord} (C : Core s0 s a0 ms d)
    (h1 : s'.marks = s.marks) (h2 : s'.toSend = s.toSend) (h3 : s'.log = s.log) (h4 : s'.waiters = s.waiters)
    (h5 : s'.synced = s.synced) (h6 : s'.pops = s.pops) (h7 : s'.pos ≤ s.log.length) (h8 : s'.applied = s.applied)
    (h9 : (s'.polled = none ∧ s'.passed = none) ∨ (s'.polled = none ∧ s'.sending = none) ∨ (s'.passed = none ∧ s'.sending = none)) : Core s0 s' a0 ms d :=
  { marks := by rw [h1]; exact C.marks
    sendSub := by rw [h2, h3]; exact C.sendSub
    sendNodup := by rw [h2]; exact C.sendNodup
    once := by rw [h3]; exact C.once
    wait := by rw [h4]; exact C.wait
    waitNodup := by rw [h4]; exact C.waitNodup
    synced := by rw [h5]; exact C.synced
    others := by rw [h6]; exact C.others
    pre := by rw [h3]; exact C.pre
    pos := by rw [h3]; exact h7
    applied := by rw [h8]; exact C.applied
    one := h9 }

/-- Writing something to the log that is not a mark in use. -/
theorem core_log {s0 s s' : SS} {a0 : List KRecord} {ms : List Bytes} {d x : List KRecord} (C : Core s0 s a0 ms d)
    (h1 : s'.marks = s.marks) (h3 : s'.log = s.log ++ x) (h4 : s'.waiters = s.waiters)
    (h5 : s'.synced = s.synced) (h6 : s'.pops = s.pops) (h7 : s'.pos = s.pos) (h8 : s'.applied = s.applied)
    (h9 : s'.polled = s.polled) (h10 : s'.passed = s.passed) (h11 : s'.sending = s.sending)
    (k1 : ∀ m ∈ s'.toSend, m ∈ ms ∧ m ∉ found ms s'.log) (k2 : s'.toSend.Nodup) (k3 : (found ms s'.log).Nodup) : Core s0 s' a0 ms d :=
  { marks := by rw [h1]; exact C.marks
    sendSub := k1
    sendNodup := k2
    once := k3
    wait := by rw [h4]; exact C.wait
    waitNodup := by rw [h4]; exact C.waitNodup
    synced := by rw [h5]; exact C.synced
    others := by rw [h6]; exact C.others
    pre := by rw [h3]; exact C.pre.trans (List.prefix_append _ _)
    pos := by rw [h3, h7, List.length_append]; have := C.pos; omega
    applied := by rw [h8]; exact C.applied
    one := by rw [h9, h10, h11]; exact C.one }

theorem take_log {s : SS} {x : List KRecord} (h : s.pos ≤ s.log.length) : (s.log ++ x).take s.pos = s.log.take s.pos :=
  List.take_append_of_le_length h

theorem kill_fields (s : SS) : (kill s).marks = s.marks ∧ (kill s).toSend = s.toSend ∧ (kill s).log = s.log ∧ (kill s).waiters = s.waiters ∧
    (kill s).synced = s.synced ∧ (kill s).pops = s.pops ∧ (kill s).pos = s.pos ∧ (kill s).applied = s.applied ∧ (kill s).state = s.state ∧
    (kill s).held = s.held ∧ (kill s).polled = s.polled ∧ (kill s).passed = s.passed ∧ (kill s).sending = s.sending := by
  unfold kill; split <;> simp

theorem setAt_same {α : Type} {l : List α} {i : Nat} {x y : α} (h : l[i]? = some y) : (setAt l i x)[i]? = some x := by
  unfold setAt
  rw [List.getElem?_set_self]
  exact (List.getElem?_eq_some_iff.1 h).1

theorem setAt_ne {α : Type} {l : List α} {i j : Nat} {x : α} (h : i ≠ j) : (setAt l i x)[j]? = l[j]? := by
  unfold setAt; exact List.getElem?_set_ne h

theorem inv_step {s0 s s' : SS} {st : PState} {a0 : List KRecord} {l : Label} (hst : st = .ready ∨ st = .prepping)
    (I : Inv s0 st a0 s) (hw : within l = true) (h : step s l = some s') : Inv s0 st a0 s' := by
  obtain ⟨ms, d, C, ph⟩ := I
  cases l with
  | prep => cases hw
  | cancel => cases hw
  | append r =>
    simp only [step] at h
    split at h
    · cases h
    rename_i hn
    cases h
    have hf : found ms (s.log ++ [r]) = found ms s.log := by
      rw [found_append, found_single, if_neg, List.append_nil]
      rintro ⟨h1, h2⟩
      exact hn ⟨h1, by rw [C.marks]; exact List.mem_append.2 (.inr h2)⟩
    refine ⟨ms, d, core_log C rfl rfl rfl rfl rfl rfl rfl rfl rfl rfl ?_ C.sendNodup ?_, ?_⟩
    · dsimp only; rw [hf]; exact C.sendSub
    · dsimp only; rw [hf]; exact C.once
    · rcases ph with ⟨cur, q, R⟩ | E
      · exact .inl ⟨cur, q, { R with log := by show (s.log ++ [r]).take s.pos = _; rw [take_log C.pos]; exact R.log }⟩
      · exact .inr { E with }
  | produce m =>
    simp only [step] at h
    split at h
    · rename_i hm
      cases h
      obtain ⟨m1, m2⟩ := C.sendSub m hm
      obtain ⟨e1, e2⟩ := marker_is m
      have hf : found ms (s.log ++ [markerRecord ⟨0#32, []⟩ m]) = found ms s.log ++ [m] := by
        rw [found_append, found_single, if_pos ⟨e1, by rw [e2]; exact m1⟩, e2]
      refine ⟨ms, d, core_log C rfl rfl rfl rfl rfl rfl rfl rfl rfl rfl ?_ (C.sendNodup.erase _) ?_, ?_⟩
      · dsimp only; rw [hf]
        intro x hx
        obtain ⟨n1, n2⟩ := (List.Nodup.mem_erase_iff C.sendNodup).1 hx
        refine ⟨(C.sendSub x n2).1, ?_⟩
        rw [List.mem_append, List.mem_singleton]
        rintro (h | h)
        · exact (C.sendSub x n2).2 h
        · exact n1 h
      · dsimp only; rw [hf, List.nodup_append]
        refine ⟨C.once, by simp, ?_⟩
        intro a ha b hb e
        rw [List.mem_singleton.1 hb] at e
        exact m2 (e ▸ ha)
      · rcases ph with ⟨cur, q, R⟩ | E
        · refine .inl ⟨cur, q, { R with log := ?_ }⟩
          show (s.log ++ [_]).take s.pos = _
          rw [take_log C.pos]; exact R.log
        · exact .inr { E with }
    · cases h
  | sync m =>
    simp only [step] at h
    split at h
    · cases h
    rename_i hn
    cases h
    rw [not_or] at hn
    obtain ⟨n1, n2⟩ := hn
    have hfr : ∀ r ∈ s.log, isMarkerRecord r = true → markOf r ≠ m := fun r hr h1 h2 => n2 ⟨r, hr, h1, h2⟩
    have hfl := found_fresh (ms := ms) hfr
    have hfd : found (ms ++ [m]) d = found ms d := found_fresh (fun r hr => hfr r (C.pre.subset hr))
    have hmn : m ∉ ms := fun h => n1 (by rw [C.marks]; exact List.mem_append.2 (.inr h))
    refine ⟨ms ++ [m], d, ?_, ?_⟩
    · refine { marks := ?_, sendSub := ?_, sendNodup := ?_, once := ?_, wait := ?_, waitNodup := ?_, synced := ?_, others := C.others,
               pre := C.pre, pos := C.pos, applied := C.applied, one := C.one }
      · dsimp only; rw [C.marks, List.append_assoc]
      · dsimp only; rw [hfl]
        intro x hx
        rcases List.mem_append.1 hx with h | h
        · exact ⟨List.mem_append.2 (.inl (C.sendSub x h).1), (C.sendSub x h).2⟩
        · refine ⟨List.mem_append.2 (.inr h), ?_⟩
          rw [List.mem_singleton.1 h]
          intro hc; exact hmn (mem_found.1 hc).1
      · dsimp only; rw [List.nodup_append]
        refine ⟨C.sendNodup, by simp, ?_⟩
        intro a ha b hb e
        rw [List.mem_singleton.1 hb] at e
        exact hmn (e ▸ (C.sendSub a ha).1)
      · dsimp only; rw [hfl]; exact C.once
      · intro x
        dsimp only
        rw [hfd, List.mem_append, List.mem_append, C.wait x, List.mem_singleton]
        constructor
        · rintro (⟨h1, h2⟩ | rfl)
          · exact ⟨.inl h1, h2⟩
          · exact ⟨.inr rfl, fun hc => hmn (mem_found.1 hc).1⟩
        · rintro ⟨h1 | h1, h2⟩
          · exact .inl ⟨h1, h2⟩
          · exact .inr h1
      · dsimp only; rw [List.nodup_append]
        refine ⟨C.waitNodup, by simp, ?_⟩
        intro a ha b hb e
        rw [List.mem_singleton.1 hb] at e
        exact hmn (e ▸ ((C.wait a).1 ha).1)
      · dsimp only; rw [hfd]; exact C.synced
    · rcases ph with ⟨cur, q, R⟩ | E
      · exact .inl ⟨cur, q, { R with state := by dsimp only; rw [hfd]; exact R.state }⟩
      · refine .inr { pop := E.pop, len := by rw [hfd]; exact E.len, last := ?_ }
        obtain ⟨d', r, k1, k2, k3⟩ := E.last
        exact ⟨d', r, k1, k2, List.mem_append.2 (.inl k3)⟩
  | poll n =>
    simp only [step] at h
    split at h
    · cases h
    rename_i hn
    cases h
    simp only [not_or, not_not, Nat.not_le] at hn
    obtain ⟨n1, n2, n3, n4, n5⟩ := hn
    refine ⟨ms, d, core_frame C rfl rfl rfl rfl rfl rfl (Nat.min_le_right _ _) rfl (.inr (.inr ⟨n3, n4⟩)), ?_⟩
    rcases ph with ⟨cur, q, R⟩ | E
    · refine .inl ⟨cur, q, { R with log := ?_ }⟩
      have hl := R.log
      have e1 : inHand s = [] := by unfold inHand; rw [n2, n3, n4]; rfl
      rw [e1, List.append_nil] at hl
      have e2 : inHand { s with polled := some ((s.log.drop s.pos).take (n + 1)), pos := min (s.pos + n + 1) s.log.length } =
          (s.log.drop s.pos).take (n + 1) := by
        unfold inHand; dsimp only; rw [n3, n4]; rfl
      rw [e2, ← hl]
      show s.log.take (min (s.pos + n + 1) s.log.length) = _
      rw [← List.take_add]
      rcases Nat.le_total (s.pos + n + 1) s.log.length with h | h
      · rw [Nat.min_eq_left h]; rfl
      · rw [Nat.min_eq_right h, List.take_length, List.take_of_length_le (by omega)]
    · exact .inr { E with }
  | check =>
    simp only [step] at h
    split at h
    · rename_i b hb
      have hone : s.passed = none ∧ s.sending = none := by
        rcases C.one with ⟨k, _⟩ | ⟨k, _⟩ | k
        · rw [hb] at k; cases k
        · rw [hb] at k; cases k
        · exact k
      split at h
      · rename_i hs
        cases h
        refine ⟨ms, d, core_frame C rfl rfl rfl rfl rfl rfl C.pos rfl (.inr (.inr hone)), ?_⟩
        rcases ph with ⟨cur, q, R⟩ | E
        · exfalso
          rcases R.state with ⟨_, k⟩ | ⟨_, _, k⟩
          · rw [hs] at k; rcases hst with e | e <;> rw [e] at k <;> cases k
          · rw [hs] at k; cases k
        · exact .inr { E with }
      · cases h
        refine ⟨ms, d, core_frame C rfl rfl rfl rfl rfl rfl C.pos rfl (.inr (.inl ⟨rfl, hone.2⟩)), ?_⟩
        rcases ph with ⟨cur, q, R⟩ | E
        · refine .inl ⟨cur, q, { R with log := ?_ }⟩
          have hl := R.log
          unfold inHand at hl ⊢
          rw [hone.2, hone.1, hb] at hl
          dsimp only at hl ⊢
          rw [hl, hone.2]; simp
        · exact .inr { E with }
    · cases h
  | eval =>
    simp only [step] at h
    split at h
    · rename_i b hb
      have hone : s.polled = none ∧ s.sending = none := by
        rcases C.one with ⟨_, k⟩ | k | ⟨k, _⟩
        · rw [hb] at k; cases k
        · exact k
        · rw [hb] at k; cases k
      cases h
      refine ⟨ms, d, core_frame C rfl rfl rfl rfl rfl rfl C.pos rfl (.inl ⟨hone.1, rfl⟩), ?_⟩
      rcases ph with ⟨cur, q, R⟩ | E
      · refine .inl ⟨cur, q, { R with log := ?_, send := ?_ }⟩
        · intro x i hx
          simp only [Option.some.injEq, Prod.mk.injEq] at hx
          rw [← hx.2]; exact R.buffer
        · have hl := R.log
          unfold inHand at hl ⊢
          rw [hone.2, hone.1, hb] at hl
          dsimp only at hl ⊢
          rw [hl, hone.1]; simp
      · exact .inr { E with }
    · cases h
  | send =>
    simp only [step] at h
    split at h
    · rename_i b i hb
      have hone : s.polled = none ∧ s.passed = none := by
        rcases C.one with k | ⟨_, k⟩ | ⟨_, k⟩
        · exact k
        · rw [hb] at k; cases k
        · rw [hb] at k; cases k
      split at h
      · rename_i c hc
        split at h
        · rename_i hcl
          cases h
          refine ⟨ms, d, core_frame C rfl rfl rfl rfl rfl rfl C.pos rfl (.inl hone), ?_⟩
          rcases ph with ⟨cur, q, R⟩ | E
          · exfalso
            have := R.send b _ hb
            simp only [Option.some.injEq] at this
            rw [this, R.chan] at hc
            cases hc; cases hcl
          · exact .inr { E with }
        · split at h
          · cases h
            refine ⟨ms, d, core_frame C rfl rfl rfl rfl rfl rfl C.pos rfl (.inl hone), ?_⟩
            rcases ph with ⟨cur, q, R⟩ | E
            · have hi := R.send b _ hb
              simp only [Option.some.injEq] at hi
              rw [hi, R.chan] at hc
              cases hc
              refine .inl ⟨cur, q ++ [b], { R with chan := ?_, send := ?_, log := ?_ }⟩
              · dsimp only; rw [hi]; exact setAt_same R.chan
              · intro x j hx; cases hx
              · have hl := R.log
                unfold inHand at hl ⊢
                rw [hb, hone.1, hone.2] at hl
                dsimp only at hl ⊢
                rw [hl, hone.1, hone.2]; simp
            · exact .inr { E with }
          · cases h
      · cases h
    · cases h
  | next i =>
    simp only [step] at h
    split at h
    · rename_i ch hp
      -- only the goroutine of this synchronisation
      have hi : i = s0.pops.length := by
        by_contra hne
        have := C.others i _ hne hp
        cases this
      subst hi
      rcases ph with ⟨cur, q, R⟩ | E
      · have hpop := R.pop
        rw [hp] at hpop
        simp only [Option.some.injEq, Pop.mk.injEq, and_true] at hpop
        obtain ⟨rfl, rfl⟩ := hpop
        rw [R.chan] at h
        cases q with
        | nil => cases h
        | cons b q =>
          simp only [Option.some.injEq] at h
          subst h
          refine ⟨ms, d, { C with others := ?_ }, .inl ⟨b, q, { R with chan := ?_, pop := ?_, log := ?_ }⟩⟩
          · intro j p hj hjp
            dsimp only at hjp
            rw [setAt_ne (fun e => hj e.symm)] at hjp
            exact C.others j p hj hjp
          · exact setAt_same R.chan
          · exact setAt_same hp
          · have hl := R.log
            show s.log.take s.pos = _
            rw [hl]
            show _ = d ++ b ++ q.flatten ++ inHand s
            simp
      · obtain ⟨p, k1, k2⟩ := E.pop
        rw [hp] at k1
        cases k1
        cases k2
    · cases h
  | record i =>
    simp only [step] at h
    split at h
    · rename_i ch r rest hp
      have hi : i = s0.pops.length := by
        by_contra hne
        have := C.others i _ hne hp
        cases this
      subst hi
      rcases ph with ⟨cur, q, R⟩ | E
      · have hpop := R.pop
        rw [hp] at hpop
        simp only [Option.some.injEq, Pop.mk.injEq, and_true] at hpop
        obtain ⟨rfl, hcur⟩ := hpop
        subst hcur
        have hpre : d ++ [r] <+: s.log := by
          have h1 : d ++ [r] <+: s.log.take s.pos := by
            rw [R.log]; exact ⟨rest ++ q.flatten ++ inHand s, by simp⟩
          exact h1.trans (List.take_prefix _ _)
        simp only [Option.some.injEq] at h
        subst h
        unfold handle
        have hoth : ∀ (ps : List Pop) (x : Pop), ps = s.pops → ∀ j p, j ≠ s0.pops.length →
            (setAt ps s0.pops.length x)[j]? = some p → p.ended = true := by
          intro ps x e j p hj hjp
          rw [setAt_ne (fun e => hj e.symm), e] at hjp
          exact C.others j p hj hjp
        by_cases hm : isMarkerRecord r = true
        · rw [if_pos hm]
          unfold completion
          by_cases hw' : markOf r ∈ s.waiters
          · obtain ⟨w1, w2⟩ := (C.wait _).1 hw'
            have hf : found ms (d ++ [r]) = found ms d ++ [markOf r] := by
              rw [found_append, found_single, if_pos ⟨hm, w1⟩]
            have hcore : ∀ s'' : SS, s''.marks = s.marks → s''.toSend = s.toSend → s''.log = s.log →
                s''.waiters = s.waiters.erase (markOf r) → s''.synced = s.synced ++ [markOf r] →
                (∀ j p, j ≠ s0.pops.length → s''.pops[j]? = some p → p.ended = true) → s''.pos = s.pos →
                s''.applied = s.applied → s''.polled = s.polled → s''.passed = s.passed → s''.sending = s.sending →
                Core s0 s'' a0 ms (d ++ [r]) := by
              intro s'' h1 h2 h3 h4 h5 h6 h7 h8 h9 h10 h11
              refine { marks := by rw [h1]; exact C.marks, sendSub := by rw [h2, h3]; exact C.sendSub, sendNodup := by rw [h2]; exact C.sendNodup,
                       once := by rw [h3]; exact C.once, wait := ?_, waitNodup := by rw [h4]; exact C.waitNodup.erase _, synced := ?_, others := h6,
                       pre := by rw [h3]; exact hpre, pos := by rw [h3, h7]; exact C.pos, applied := ?_, one := by rw [h9, h10, h11]; exact C.one }
              · intro m
                rw [h4, List.Nodup.mem_erase_iff C.waitNodup, C.wait m, hf, List.mem_append, List.mem_singleton]
                tauto
              · rw [h5, C.synced, hf, List.append_assoc]
              · rw [h8, C.applied, changes_append]
                simp [changes, hm]
            rw [if_pos hw']
            rcases R.state with ⟨k1, k2⟩ | ⟨k0, k1, k2⟩
            · rcases hst with e | e
              · -- complete
                subst e
                simp only [k2]
                obtain ⟨f1, f2, f3, f4, f5, f6, f7, f8, f9, f10, f11, f12, f13⟩ := kill_fields ({ ({ s with waiters := s.waiters.erase (markOf r), synced := s.synced ++ [markOf r] } : SS) with state := .paused, held := true })
                refine ⟨ms, d ++ [r], hcore _ f1 f2 f3 f4 f5 ?_ f7 f8 f11 f12 f13, .inr ⟨?_, ?_, ⟨d, r, rfl, hm, w1⟩⟩⟩
                · exact hoth _ _ f6
                · refine ⟨_, setAt_same (y := ⟨s0.bufs.length, r :: rest, false⟩) ?_, rfl⟩
                  show (cancel _).pops[_]? = _
                  unfold cancel; rw [f6]; exact hp
                · rw [hf, k1]; rfl
              · subst e
                simp only [k2]
                refine ⟨ms, d ++ [r], hcore _ rfl rfl rfl rfl rfl (hoth _ _ rfl) rfl rfl rfl rfl rfl, .inl ⟨rest, q, ?_⟩⟩
                refine { buffer := R.buffer, chan := R.chan, pop := setAt_same hp, send := R.send, log := ?_, state := .inr ⟨rfl, by rw [hf, k1]; rfl, rfl⟩, held := R.held }
                have hl := R.log
                show s.log.take s.pos = _
                rw [hl]
                show _ = d ++ [r] ++ rest ++ q.flatten ++ inHand s
                simp
            · subst k0
              simp only [k2]
              obtain ⟨f1, f2, f3, f4, f5, f6, f7, f8, f9, f10, f11, f12, f13⟩ := kill_fields ({ ({ s with waiters := s.waiters.erase (markOf r), synced := s.synced ++ [markOf r] } : SS) with state := .paused, held := true })
              refine ⟨ms, d ++ [r], hcore _ f1 f2 f3 f4 f5 ?_ f7 f8 f11 f12 f13, .inr ⟨?_, ?_, ⟨d, r, rfl, hm, w1⟩⟩⟩
              · exact hoth _ _ f6
              · refine ⟨_, setAt_same (y := ⟨s0.bufs.length, r :: rest, false⟩) ?_, rfl⟩
                show (cancel _).pops[_]? = _
                unfold cancel; rw [f6]; exact hp
              · rw [hf, List.length_append, k1]; rfl
          · rw [if_neg hw']
            have hnm : markOf r ∉ ms := by
              intro hc
              have h1 : markOf r ∈ found ms d := by
                by_contra h; exact hw' ((C.wait _).2 ⟨hc, h⟩)
              have h2 := (found_prefix (ms := ms) hpre).sublist.nodup C.once
              rw [found_append, found_single, if_pos ⟨hm, hc⟩, List.nodup_append] at h2
              exact h2.2.2 _ h1 _ (List.mem_singleton.2 rfl) rfl
            have hf : found ms (d ++ [r]) = found ms d := by
              rw [found_append, found_single, if_neg (fun h => hnm h.2), List.append_nil]
            have hch : changes (d ++ [r]) = changes d := by rw [changes_append]; simp [changes, hm]
            refine ⟨ms, d ++ [r], ?_, .inl ⟨rest, q, ?_⟩⟩
            · refine { C with wait := by rw [hf]; exact C.wait, synced := by rw [hf]; exact C.synced, others := hoth _ _ rfl, pre := hpre,
                              applied := by rw [hch]; exact C.applied }
            · refine { R with pop := setAt_same hp, log := ?_, state := by rw [hf]; exact R.state }
              have hl := R.log
              show s.log.take s.pos = _
              rw [hl]
              show _ = d ++ [r] ++ rest ++ q.flatten ++ inHand s
              simp
        · rw [if_neg hm]
          have hf : found ms (d ++ [r]) = found ms d := by
            rw [found_append, found_single, if_neg (fun h => hm h.1), List.append_nil]
          have hch : changes (d ++ [r]) = changes d ++ [r] := by rw [changes_append]; simp [changes, hm]
          refine ⟨ms, d ++ [r], ?_, .inl ⟨rest, q, ?_⟩⟩
          · refine { C with wait := by rw [hf]; exact C.wait, synced := by rw [hf]; exact C.synced, others := hoth _ _ rfl, pre := hpre,
                            applied := ?_ }
            show s.applied ++ [r] = _
            rw [hch, C.applied, List.append_assoc]
          · refine { R with pop := setAt_same hp, log := ?_, state := by rw [hf]; exact R.state }
            have hl := R.log
            show s.log.take s.pos = _
            rw [hl]
            show _ = d ++ [r] ++ rest ++ q.flatten ++ inHand s
            simp
      · obtain ⟨p, k1, k2⟩ := E.pop
        rw [hp] at k1
        cases k1
        cases k2
    · cases h

theorem inv_sess {s0 s : SS} {st : PState} {fresh : Bool} (hst : st = .ready ∨ st = .prepping) (hc : Clean s0)
    (h : Sess s0 st fresh s) : Inv s0 st (if fresh then [] else s0.applied) s := by
  induction h with
  | start h => exact inv_start hc h
  | step l _ hw hs ih => exact inv_step hst ih hw hs

end Verif.Sync

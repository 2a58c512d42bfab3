import Verif.Metrics.Model
import Mathlib.Tactic.Common
/-
Property C63: metrics and event processing (`streams/event_source.go`, `streams/eos_producer.go`, `streams/source_consumer.go`).
-/
namespace Verif.Metrics
set_option linter.unusedSimpArgs false

/-- The metric that `emitMetrics` has in hand. -/
def Spec.inHand (s : Chan) : List Metric := match s.emitter with | .handling m => [m] | _ => []

/-- What the handler should see for a metric: the execute time is the start time if it was not set (specification). -/
def Spec.shown (m : Metric) : Metric := ⟨m.start, if m.execute = 0 then m.start else m.execute, m.id⟩

theorem fill_eq (m : Metric) : fill m = Spec.shown m := by
  unfold fill Spec.shown; split <;> simp_all

/-- The invariant. -/
structure Good (s : Chan) : Prop where
  fifo : s.handled ++ Spec.inHand s ++ s.buf.map Spec.shown = s.accepted.map Spec.shown
  bound : s.buf.length ≤ cap
  halt : s.closed = true → s.halted = true
  live : s.on = true → (s.closed = true ↔ s.emitter = .ended)
  pan : s.panic = true → s.closed = true
  off : s.on = false → s.accepted = [] ∧ s.dropped = [] ∧ s.blocked = [] ∧ s.panic = false ∧ s.emitter = .ended

theorem good_init (on : Bool) : Good (Chan.init on) := by
  cases on <;> constructor <;> simp [Chan.init, Spec.inHand]

theorem good_step {s s' : Chan} {l : Label} (G : Good s) (h : step s l = some s') : Good s' := by
  obtain ⟨f, b, hh, hl, hp, ho⟩ := G
  unfold step at h
  split at h
  · simp at h
  · rename_i hnp
    cases l with
    | emit m =>
      simp only at h
      split at h
      · rename_i hon
        split at h
        · rename_i hc
          simp only [Option.some.injEq] at h; subst h
          exact ⟨f, b, hh, hl, fun _ => hc, by simp [hon]⟩
        · split at h
          · rename_i hlt
            simp only [Option.some.injEq] at h; subst h
            refine ⟨?_, ?_, hh, hl, hp, by simp [Chan.push, hon]⟩
            · simp only [Chan.push, List.map_append]
              rw [← f]; simp [Spec.inHand]
            · simp only [Chan.push, List.length_append, List.length_cons, List.length_nil]; omega
          · simp only [Option.some.injEq] at h; subst h
            exact ⟨f, b, hh, hl, hp, by simp [hon]⟩
      · simp only [Option.some.injEq] at h; subst h; exact ⟨f, b, hh, hl, hp, ho⟩
    | send m =>
      simp only at h
      split at h
      · rename_i hon
        simp only [Option.some.injEq] at h; subst h; exact ⟨f, b, hh, hl, hp, by simp [hon]⟩
      · simp only [Option.some.injEq] at h; subst h; exact ⟨f, b, hh, hl, hp, ho⟩
    | sent i =>
      simp only at h
      split at h
      · rename_i m hm
        have hon : s.on = true := by
          cases hx : s.on with
          | true => rfl
          | false => rw [(ho hx).2.2.1] at hm; simp at hm
        split at h
        · rename_i hc
          simp only [Option.some.injEq] at h; subst h
          exact ⟨f, b, hh, hl, fun _ => hc, by simp [hon]⟩
        · split at h
          · simp only [Option.some.injEq] at h; subst h
            refine ⟨?_, ?_, hh, hl, hp, by simp [Chan.push, hon]⟩
            · simp only [Chan.push, List.map_append]
              rw [← f]; simp [Spec.inHand]
            · simp only [Chan.push, List.length_append, List.length_cons, List.length_nil]; omega
          · simp at h
      · simp at h
    | recv =>
      simp only at h
      split at h
      · rename_i m rest he hb
        simp only [Option.some.injEq] at h; subst h
        rw [he] at hl; rw [hb] at b f
        refine ⟨?_, by simp at b ⊢; omega, hh, fun hon => by have := hl hon; simp_all, hp, fun hx => by have := (ho hx).2.2.2.2; simp_all⟩
        rw [← f]; simp [Spec.inHand, he, fill_eq]
      · simp at h
    | ret =>
      simp only at h
      split at h
      · rename_i m he
        simp only [Option.some.injEq] at h; subst h
        rw [he] at hl
        refine ⟨?_, b, hh, fun hon => by have := hl hon; simp_all, hp, fun hx => by have := (ho hx).2.2.2.2; simp_all⟩
        rw [← f]; simp [Spec.inHand, he]
      · simp at h
    | halt =>
      simp only [Option.some.injEq] at h; subst h
      exact ⟨f, b, fun _ => rfl, hl, hp, ho⟩
    | close =>
      simp only at h
      split at h
      · rename_i he
        split at h
        · rename_i hx
          simp only [Option.some.injEq] at h; subst h
          refine ⟨?_, b, fun _ => hx, fun _ => ⟨fun _ => rfl, fun _ => rfl⟩, fun _ => rfl, fun hx => by have := (ho hx).2.2.2.2; simp_all⟩
          rw [← f]; simp [Spec.inHand, he]
        · simp at h
      · simp at h

theorem good_run {s s' : Chan} {ls : List Label} (G : Good s) (h : run s ls = some s') : Good s' := by
  induction ls generalizing s with
  | nil => simp only [run, Option.some.injEq] at h; subst h; exact G
  | cons l ls ih =>
    simp only [run, Option.bind_eq_some_iff] at h
    obtain ⟨s1, h1, h2⟩ := h
    exact ih (good_step G h1) h2

/-- C63. The handler sees the metrics that were accepted, each once and in the order in which they were accepted: what it has seen, the one in hand and
those in the channel make up all accepted ones; there are never more than 2048 in the channel. -/
theorem C63_fifo {on : Bool} {ls : List Label} {s : Chan} (h : run (Chan.init on) ls = some s) :
    s.handled ++ Spec.inHand s ++ s.buf.map Spec.shown = s.accepted.map Spec.shown ∧ s.buf.length ≤ 2048 :=
  ⟨(good_run (good_init on) h).fifo, (good_run (good_init on) h).bound⟩

/-- C63, in part: while the event source runs (`Halt` was not called), `EmitMetric` returns at once without a panic, whatever the others do, and drops the
metric exactly when the channel holds 2048; without a handler it does nothing. Missing: the two plain sends (`C63_violated_block`), and after `Halt`
(`C63_violated_panic`). -/
theorem C63_emit_partial {on : Bool} {ls : List Label} {s : Chan} (h : run (Chan.init on) ls = some s) (hh : s.halted = false) (m : Metric) :
    ∃ s', step s (.emit m) = some s' ∧ s'.panic = false ∧ s'.handled = s.handled ∧ s'.blocked = s.blocked ∧
      (s.on = true → s.buf.length < 2048 → s'.buf = s.buf ++ [m] ∧ s'.dropped = s.dropped) ∧
      (s.on = true → ¬ s.buf.length < 2048 → s'.buf = s.buf ∧ s'.dropped = s.dropped ++ [m]) ∧ (s.on = false → s' = s) := by
  have G := good_run (good_init on) h
  have hc : s.closed = false := by
    cases hx : s.closed with
    | false => rfl
    | true => have := G.halt hx; rw [hh] at this; cases this
  have hp : s.panic = false := by
    cases hx : s.panic with
    | false => rfl
    | true => have := G.pan hx; rw [hc] at this; cases this
  unfold step
  rw [hp]
  simp only [Bool.false_eq_true, if_false]
  cases hon : s.on with
  | false => simp [hp]
  | true =>
    simp only [if_true, hc, Bool.false_eq_true, if_false]
    by_cases hl : s.buf.length < cap
    · rw [if_pos hl]
      refine ⟨_, rfl, ?_, rfl, rfl, fun _ _ => ⟨rfl, rfl⟩, fun _ hn => absurd hl hn, by simp⟩
      simp [Chan.push, hp]
    · rw [if_neg hl]
      exact ⟨_, rfl, rfl, rfl, rfl, fun _ hn => absurd hn hl, fun _ _ => ⟨rfl, rfl⟩, by simp⟩

theorem ne_none_true {s : Chan} (hx : s.closed = false) (G : Good s) : s.panic = false := by
  cases h : s.panic with
  | false => rfl
  | true => have := G.pan h; rw [hx] at this; cases this

/-- C63, in part: a goroutine in a plain send (the commit of a transaction, the end of a preparation) is held up only by the user's handler: unless the
event source is stopped, returns of the handler and steps of `emitMetrics` suffice to let it go on, at most three of them. -/
theorem C63_send_waits_for_handler_partial {on : Bool} {ls : List Label} {s : Chan} (h : run (Chan.init on) ls = some s) (hc : s.closed = false)
    {i : Nat} {m : Metric} (hi : s.blocked[i]? = some m) :
    ∃ more s', more.length ≤ 2 ∧ (∀ l ∈ more, l = .ret ∨ l = .recv) ∧ run s (more ++ [.sent i]) = some s' ∧ s'.panic = false ∧
      s'.blocked = s.blocked.eraseIdx i ∧ s'.accepted = s.accepted ++ [m] := by
  have G := good_run (good_init on) h
  have hp : s.panic = false := ne_none_true hc G
  have hon : s.on = true := by
    cases hx : s.on with
    | true => rfl
    | false => rw [(G.off hx).2.2.1] at hi; simp at hi
  have ending : ∀ s : Chan, s.panic = false → s.closed = false → s.blocked[i]? = some m → s.buf.length < cap →
      step s (.sent i) = some { s.push m with blocked := s.blocked.eraseIdx i } := by
    intro s a b c d
    simp [step, a, b, c, d]
  by_cases hl : s.buf.length < cap
  · exact ⟨[], { s.push m with blocked := s.blocked.eraseIdx i }, by simp, by simp,
      by simp only [List.nil_append, run]; rw [ending s hp hc hi hl]; rfl, hp, rfl, rfl⟩
  · have hb := G.bound
    have hlen : s.buf.length = cap := by omega
    cases hbuf : s.buf with
    | nil => rw [hbuf] at hlen; simp [cap] at hlen
    | cons x rest =>
      have hr : rest.length < cap := by rw [hbuf] at hlen; simp at hlen; omega
      have one : ∀ s : Chan, s.panic = false → s.closed = false → s.blocked[i]? = some m → s.buf = x :: rest → s.emitter = .waiting →
          ∃ s', run s [.recv, .sent i] = some s' ∧ s'.panic = false ∧ s'.blocked = s.blocked.eraseIdx i ∧ s'.accepted = s.accepted ++ [m] := by
        intro s a b c d e
        have h1 : step s .recv = some { s with buf := rest, emitter := .handling (fill x) } := by simp [step, a, d, e]
        have h2 := ending { s with buf := rest, emitter := .handling (fill x) } a b c hr
        exact ⟨{ ({ s with buf := rest, emitter := .handling (fill x) } : Chan).push m with blocked := s.blocked.eraseIdx i },
          by simp only [run, h1, h2, Option.bind_some], a, rfl, rfl⟩
      cases he : s.emitter with
      | ended => have := (G.live hon).mpr he; rw [hc] at this; cases this
      | waiting =>
        obtain ⟨s', h1, h2, h3, h4⟩ := one s hp hc hi hbuf he
        exact ⟨[.recv], s', by simp, by simp, h1, h2, h3, h4⟩
      | handling y =>
        have h0 : step s .ret = some { s with emitter := .waiting, handled := s.handled ++ [y] } := by simp [step, hp, he]
        obtain ⟨s', h1, h2, h3, h4⟩ := one { s with emitter := .waiting, handled := s.handled ++ [y] } hp hc hi hbuf rfl
        exact ⟨[.ret, .recv], s', by simp, by simp, by simpa only [List.cons_append, List.nil_append, run, h0, Option.bind_some] using h1, h2, h3, h4⟩

/-- One metric in hand, one waiting in a plain send with room in the channel. -/
example : ∃ s, run (Chan.init true) [.emit ⟨1, 0, 0⟩, .recv, .emit ⟨2, 5, 1⟩, .send ⟨3, 4, 2⟩] = some s ∧ s.closed = false ∧ s.halted = false ∧
    s.blocked[0]? = some ⟨3, 4, 2⟩ ∧ s.emitter = .handling ⟨1, 1, 0⟩ ∧ s.buf = [⟨2, 5, 1⟩] := ⟨_, rfl, by decide⟩

theorem fillUp (m : Metric) (n : Nat) (s : Chan) (h1 : s.on = true) (h2 : s.closed = false) (h3 : s.panic = false) (h4 : s.buf.length + n ≤ cap) :
    ∃ s', run s (List.replicate n (.emit m)) = some s' ∧ s'.buf.length = s.buf.length + n ∧ s'.on = true ∧ s'.closed = false ∧ s'.panic = false ∧
      s'.emitter = s.emitter ∧ s'.blocked = s.blocked ∧ s'.halted = s.halted := by
  induction n generalizing s with
  | zero => exact ⟨s, rfl, by simp, h1, h2, h3, rfl, rfl, rfl⟩
  | succ n ih =>
    have e : step s (.emit m) = some (s.push m) := by
      unfold step; simp only [h3, Bool.false_eq_true, if_false, h1, if_true, h2]; rw [if_pos (by omega)]
    obtain ⟨s', a, b, c⟩ := ih (s.push m) h1 h2 h3 (by simp [Chan.push]; omega)
    refine ⟨s', by simp only [List.replicate_succ, run, e, Option.bind_some]; exact a, ?_, c⟩
    rw [b]; simp [Chan.push]; omega

/-- C63 is violated: if the user's handler does not return, the goroutine that commits transactions gets stuck in its send: in no continuation without a
return of the handler does the send happen, and the event source is running. -/
theorem C63_violated_block (m : Metric) : ∃ ls s, run (Chan.init true) ls = some s ∧ s.halted = false ∧ s.blocked = [m] ∧
    ∀ more s', (∀ l ∈ more, l ≠ .ret) → run s more = some s' → s'.blocked[0]? = some m ∧ step s' (.sent 0) = none := by
  have h0 : run (Chan.init true) [.emit m, .recv, .send m] =
      some { Chan.init true with emitter := .handling (fill m), accepted := [m], blocked := [m] } := by
    simp [run, step, Chan.init, Chan.push, cap]
  obtain ⟨s, a, b, c, d, e, f, g, i⟩ := fillUp m cap { Chan.init true with emitter := .handling (fill m), accepted := [m], blocked := [m] } rfl rfl rfl (by simp [Chan.init])
  have hrun : ∀ (l1 l2 : List Label) (s1 s2 s3 : Chan), run s1 l1 = some s2 → run s2 l2 = some s3 → run s1 (l1 ++ l2) = some s3 := by
    intro l1
    induction l1 with
    | nil => intro l2 s1 s2 s3 h1 h2; simp only [run, Option.some.injEq] at h1; subst h1; exact h2
    | cons l l1 ih =>
      intro l2 s1 s2 s3 h1 h2
      simp only [run, Option.bind_eq_some_iff] at h1
      obtain ⟨t, h3, h4⟩ := h1
      simp only [List.cons_append, run, h3, Option.bind_some]
      exact ih _ _ _ _ h4 h2
  refine ⟨_, s, hrun _ _ _ _ _ h0 a, i, g, ?_⟩
  have key : ∀ (more : List Label) (s s' : Chan), s.buf.length = cap → s.closed = false → s.panic = false → s.emitter = .handling (fill m) →
      (∃ r, s.blocked = m :: r) → (∀ l ∈ more, l ≠ .ret) → run s more = some s' →
      s'.buf.length = cap ∧ s'.closed = false ∧ s'.panic = false ∧ s'.emitter = .handling (fill m) ∧ ∃ r, s'.blocked = m :: r := by
    intro more
    induction more with
    | nil => intro s s' h1 h2 h3 h4 h5 _ h; simp only [run, Option.some.injEq] at h; subst h; exact ⟨h1, h2, h3, h4, h5⟩
    | cons l more ih =>
      intro s s' h1 h2 h3 h4 h5 hl h
      simp only [run, Option.bind_eq_some_iff] at h
      obtain ⟨s1, h6, h7⟩ := h
      have hn : ¬ s.buf.length < cap := by omega
      have : s1.buf.length = cap ∧ s1.closed = false ∧ s1.panic = false ∧ s1.emitter = .handling (fill m) ∧ ∃ r, s1.blocked = m :: r := by
        unfold step at h6
        simp only [h3, Bool.false_eq_true, if_false] at h6
        cases l with
        | ret => exact absurd rfl (hl .ret (by simp))
        | emit x =>
          simp only [h2, Bool.false_eq_true, if_false, hn] at h6
          split at h6 <;> (simp only [Option.some.injEq] at h6; subst h6; refine ⟨h1, ?_, ?_, h4, h5⟩ <;> first | rfl | assumption)
        | send x =>
          simp only at h6
          split at h6
          · simp only [Option.some.injEq] at h6; subst h6
            obtain ⟨r, h5⟩ := h5
            exact ⟨h1, h2, rfl, h4, r ++ [x], by simp [h5]⟩
          · simp only [Option.some.injEq] at h6; subst h6; exact ⟨h1, h2, h3, h4, h5⟩
        | sent i =>
          simp only [h2, Bool.false_eq_true, if_false, hn] at h6
          split at h6 <;> simp at h6
        | recv => simp [h4] at h6
        | halt => simp only [Option.some.injEq] at h6; subst h6; exact ⟨h1, h2, rfl, h4, h5⟩
        | close => simp [h4] at h6
      obtain ⟨a1, a2, a3, a4, a5⟩ := this
      exact ih s1 s' a1 a2 a3 a4 a5 (fun l hm => hl l (List.mem_cons_of_mem _ hm)) h7
  intro more s' hl hr
  obtain ⟨k1, k2, k3, k4, r, k5⟩ := key more s s' (by rw [b]; simp [Chan.init]) d e f ⟨[], g⟩ hl hr
  refine ⟨by rw [k5]; rfl, ?_⟩
  have hn : ¬ s'.buf.length < cap := by omega
  simp [step, k3, k5, k2, hn]

/-- C63 is violated: after the event source was stopped, emitting a metric, or a commit or preparation that still reports one, is a send on a closed channel
and ends the process. -/
theorem C63_violated_panic (m : Metric) :
    (∃ s, run (Chan.init true) [.halt, .close, .emit m] = some s ∧ s.panic = true) ∧
    (∃ s, run (Chan.init true) [.halt, .close, .send m, .sent 0] = some s ∧ s.panic = true) := by
  constructor <;> refine ⟨_, rfl, rfl⟩

/-- The only panics are those after a stop. -/
theorem C63_panic_only_after_stop {on : Bool} {ls : List Label} {s : Chan} (h : run (Chan.init on) ls = some s) (hp : s.panic = true) :
    s.halted = true ∧ s.on = true := by
  have G := good_run (good_init on) h
  refine ⟨G.halt (G.pan hp), ?_⟩
  cases hx : s.on with
  | true => rfl
  | false => have := (G.off hx).2.2.2.1; rw [hp] at this; cases this

end Verif.Metrics

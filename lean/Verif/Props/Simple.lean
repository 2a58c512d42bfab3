import Verif.Simple.Rest
/-
Property C91: the simple `Producer` tells every caller the outcome of its own record, once, and leaves nobody waiting (streams/producer.go).
-/
namespace Verif.Simple

/-- Everything except new calls: what the producer, its client and the callers that are already in it do. -/
def Spec.own (a : Act) : Prop := (∀ t c, a ≠ .call t c) ∧ ∀ c, a ≠ .nested c

/-- Nothing goes on without a new call. -/
def Spec.still (cfg : Cfg) (s : Sys) : Prop := ∀ a, Spec.own a → step cfg s a = none

/-- Every call has been served: its record reached the client and was ended by Kafka, `Produce` returned this outcome, a callback ran with this outcome. -/
def Spec.allServed (s : Sys) : Prop :=
  s.buf = [] ∧ s.cur = none ∧ (∀ t, s.ph t = .idle) ∧
    ∀ i c, s.calls[i]? = some c → ∃ e, (i, e) ∈ s.ends ∧ (c.sync = true → (i, e) ∈ s.ret) ∧ (c.sync = false → c.hasCb = true → ∃ t, (i, t, e) ∈ s.cbs)

/-- Whatever happens later, the client ends no record any more, and nobody who waits now or later is told anything about a record that has not ended by now. -/
def Spec.dead (cfg : Cfg) (s : Sys) : Prop :=
  ∀ as s', run cfg s as = some s' → (∀ i e, step cfg s' (.promise i e) = none) ∧ s'.ends = s.ends ∧ s'.cbs = s.cbs ∧ ∀ x ∈ s'.ret, x ∈ s.ends

theorem own_iff (a : Act) : Spec.own a ↔ own a = true := by
  unfold Spec.own own
  cases a <;> simp

/-- C91: a record goes to the topic it names, to the default topic of the destination exactly when it names none, and it goes there once. -/
theorem C91_topic {cfg : Cfg} {s : Sys} (h : Reach cfg s) :
    (s.sent.map Prod.fst).Nodup ∧ ∀ x ∈ s.sent, ∃ c, s.calls[x.1]? = some c ∧ (c.topic = [] → x.2 = cfg.default) ∧ (c.topic ≠ [] → x.2 = c.topic) := by
  have I := inv_reach h
  refine ⟨I.sentN, fun x hx => ?_⟩
  obtain ⟨c, hc, ht⟩ := I.sentT x hx
  refine ⟨c, hc, fun h0 => ?_, fun h0 => ?_⟩
  · rw [ht]; simp [topicOf, h0]
  · rw [ht]; simp [topicOf, h0]

/-- C91: what `Produce` returns is how Kafka ended the record of this call, which it does only once; it returns at most once, and only to calls of `Produce`. -/
theorem C91_returns_own_outcome {cfg : Cfg} {s : Sys} (h : Reach cfg s) :
    (s.ret.map Prod.fst).Nodup ∧ (s.ends.map Prod.fst).Nodup ∧
      ∀ x ∈ s.ret, x ∈ s.ends ∧ (∃ c, s.calls[x.1]? = some c ∧ c.sync = true) ∧ ∀ e, (x.1, e) ∈ s.ends → e = x.2 := by
  have I := inv_reach h
  refine ⟨I.retN, I.endsN, fun x hx => ?_⟩
  have hd := I.retD x hx
  rw [I.doneE, List.mem_filter] at hd
  refine ⟨hd.1, ?_, fun e he => ?_⟩
  · have := hd.2
    unfold isSync at this
    cases hc : s.calls[x.1]? with
    | none => simp [hc] at this
    | some c => exact ⟨c, rfl, by simpa [hc] using this⟩
  · have := List.inj_on_of_nodup_map I.endsN he hd.1 rfl
    exact congrArg Prod.snd this

/-- C91: a callback runs when its record has ended, with the topic the record was sent to and with how Kafka ended it, once; and no record ends without it. -/
theorem C91_callback_once {cfg : Cfg} {s : Sys} (h : Reach cfg s) :
    (s.cbs.map Prod.fst).Nodup ∧ (∀ x ∈ s.cbs, (x.1, x.2.2) ∈ s.ends ∧ (x.1, x.2.1) ∈ s.sent ∧ ∃ c, s.calls[x.1]? = some c ∧ c.sync = false ∧ c.hasCb = true) ∧
      ∀ i e c, (i, e) ∈ s.ends → s.calls[i]? = some c → c.sync = false → c.hasCb = true → ∃ t, (i, t, e) ∈ s.cbs := by
  have I := inv_reach h
  have fst : ∀ y x, cbOf cfg.default s.calls y = some x → x.1 = y.1 ∧ x.2.2 = y.2 ∧ ∃ c, s.calls[y.1]? = some c ∧ x.2.1 = topicOf cfg.default c ∧ c.sync = false ∧ c.hasCb = true := by
    intro y x hy
    unfold cbOf at hy
    split at hy
    · rename_i c hc
      split at hy
      · rename_i hcs
        simp only [Option.some.injEq] at hy
        subst hy
        exact ⟨rfl, rfl, c, hc, rfl, hcs.1, hcs.2⟩
      · simp at hy
    · simp at hy
  refine ⟨?_, ?_, ?_⟩
  · rw [I.cbsE]
    have key : ∀ l : List (Nat × Option Nat), ((l.filterMap (cbOf cfg.default s.calls)).map Prod.fst).Sublist (l.map Prod.fst) := by
      intro l
      induction l with
      | nil => exact .slnil
      | cons y l ih =>
        simp only [List.filterMap_cons, List.map_cons]
        cases hy : cbOf cfg.default s.calls y with
        | none => exact ih.cons _
        | some x =>
          simp only [List.map_cons]
          rw [(fst y x hy).1]
          exact ih.cons_cons _
    exact (key s.ends).nodup I.endsN
  · intro x hx
    rw [I.cbsE, List.mem_filterMap] at hx
    obtain ⟨y, hy, hyx⟩ := hx
    obtain ⟨e1, e2, c, hc, ht, h1, h2⟩ := fst y x hyx
    obtain ⟨z, hz, hz1⟩ := List.mem_map.1 (I.endsS y.1 (List.mem_map_of_mem hy))
    obtain ⟨c', hc', ht'⟩ := I.sentT z hz
    rw [hz1, hc] at hc'
    injection hc' with hc'
    subst hc'
    refine ⟨?_, ?_, c, ?_, h1, h2⟩
    · rw [e1, e2]; exact hy
    · rw [e1, ht, ← ht', ← hz1]; exact hz
    · rw [e1]; exact hc
  · intro i e c he hc h1 h2
    refine ⟨topicOf cfg.default c, ?_⟩
    rw [I.cbsE, List.mem_filterMap]
    exact ⟨(i, e), he, by simp [cbOf, hc, h1, h2]⟩

/-- C91: without new calls every schedule ends. -/
theorem C91_every_schedule_ends {cfg : Cfg} {s : Sys} (h : Reach cfg s) : ∃ n, ∀ as s', run cfg s as = some s' → (∀ a ∈ as, Spec.own a) → as.length ≤ n := by
  obtain ⟨bs, hbs⟩ := h
  obtain ⟨N, O⟩ := outside_run hbs ⟨0, fun _ _ => rfl⟩
  exact ⟨todo N s, fun as s' h' ha => own_run as s s' (inv_reach ⟨bs, hbs⟩) O (fun a hm => (own_iff a).1 (ha a hm)) h'⟩

theorem served {cfg : Cfg} {s : Sys} (I : Inv cfg s) (h1 : s.cur = none) (h2 : s.buf = []) (h3 : ∀ a, s.phase a = .idle) : Spec.allServed s := by
  refine ⟨h2, h1, fun t => h3 (some t), fun i c hc => ?_⟩
  have hsent : i ∈ s.sent.map Prod.fst := by
    rcases I.all i (List.getElem?_eq_some_iff.1 hc).1 with h | ⟨a, ha⟩
    · exact h
    · rw [h3 a] at ha; simp at ha
  have hend : i ∈ s.ends.map Prod.fst := by
    rcases I.opn i hsent with h | h
    · exact h
    · rw [h2] at h; simp at h
  obtain ⟨⟨i', e⟩, he, rfl⟩ := List.mem_map.1 hend
  refine ⟨e, he, fun hs => ?_, fun hs hcb => ?_⟩
  · rcases I.retA i' hsent (by simp [isSync, hc, hs]) with h | ⟨a, ha⟩
    · obtain ⟨⟨j, e'⟩, he', rfl⟩ := List.mem_map.1 h
      have hd := I.retD _ he'
      rw [I.doneE, List.mem_filter] at hd
      have := List.inj_on_of_nodup_map I.endsN hd.1 he rfl
      rw [← this]
      exact he'
    · rw [h3 a] at ha; simp at ha
  · refine ⟨topicOf cfg.default c, ?_⟩
    rw [I.cbsE, List.mem_filterMap]
    exact ⟨(i', e), he, by simp [cbOf, hc, hs, hcb]⟩

/-- C91: when nothing goes on without a new call, then either every call has been served, or the callback that is running waits in the producer that runs it:
in `Produce`, or in `ProduceAsync` while the client keeps as many records as it may. -/
theorem C91_at_rest {cfg : Cfg} {s : Sys} (h : Reach cfg s) (hm : 1 ≤ cfg.max) (hend : Spec.still cfg s) :
    Spec.allServed s ∨ ∃ i e j, s.cur = some ⟨i, e, .waiting j⟩ ∨ s.cur = some ⟨i, e, .producing j⟩ ∧ cfg.max ≤ s.buf.length := by
  have I := inv_reach h
  rcases rest_cases hm I (fun a ha => hend a ((own_iff a).2 ha)) with ⟨i, e, ⟨j, hj⟩ | ⟨j, hj⟩⟩ | ⟨h1, h2, h3⟩
  · exact .inr ⟨i, e, j, .inl hj⟩
  · exact .inr ⟨i, e, j, .inr hj⟩
  · exact .inl (served I h1 h2 h3)

/-- C91, partial: while no callback calls the producer, when nothing goes on without a new call then every call has been served; with `C91_every_schedule_ends`: every schedule
serves all calls. The missing part are callbacks that call the producer, for which the claim is false (`C91_violated_nested`, `C91_violated_full`). -/
theorem C91_all_served_partial {cfg : Cfg} {as : List Act} {s : Sys} (h : run cfg Sys.init as = some s) (hm : 1 ≤ cfg.max) (hn : ∀ a ∈ as, ∀ c, a ≠ .nested c) (hend : Spec.still cfg s) :
    Spec.allServed s := by
  have I := inv_reach ⟨as, h⟩
  have hf : s.phase none = .idle := free_run h hn rfl
  rcases rest_cases hm I (fun a ha => hend a ((own_iff a).2 ha)) with ⟨i, e, ⟨j, hj⟩ | ⟨j, hj, _⟩⟩ | ⟨h1, h2, h3⟩
  · simp [Sys.phase, hj] at hf
  · simp [Sys.phase, hj] at hf
  · exact served I h1 h2 h3

theorem stuck_dead {cfg : Cfg} {s : Sys} (h : Reach cfg s) (S : Stuck cfg s.ends s) : Spec.dead cfg s := by
  intro as s' h'
  have I := inv_reach h
  have I' := inv_run I h'
  obtain ⟨he, i, e, S'⟩ := stuck_run I S h'
  have hc : s'.cur ≠ none := by rcases S' with ⟨j, hj, _⟩ | ⟨j, hj, _⟩ <;> rw [hj] <;> simp
  refine ⟨fun i e => ?_, he, ?_, fun x hx => ?_⟩
  · simp only [step]
    split
    · rename_i hc' _; exact absurd hc' hc
    · rfl
  · obtain ⟨l, hl⟩ : ∃ l, s'.calls = s.calls ++ l := calls_grow h'
    rw [I'.cbsE, I.cbsE, he]
    refine List.filterMap_congr fun x hx => ?_
    have : x.1 < s.calls.length := I.lt (I.endsS _ (List.mem_map_of_mem hx))
    unfold cbOf
    rw [hl, List.getElem?_append_left this]
  · have := I'.retD x hx
    rw [I'.doneE, List.mem_filter, he] at this
    exact this.1

/-- C91 is violated when a callback calls `Produce` (and the client has room for another record): `Produce` waits for a promise that runs only when the callback has returned. From then
on no record of this client ends any more, for anybody. -/
theorem C91_violated_nested (cfg : Cfg) (hm : 2 ≤ cfg.max) :
    ∃ s, Reach cfg s ∧ (∃ i e j, s.cur = some ⟨i, e, .waiting j⟩) ∧ Spec.dead cfg s := by
  have h1 : 0 < cfg.max := by omega
  have h2 : 1 < cfg.max := by omega
  suffices h : ∃ s, run cfg Sys.init [.call 0 ⟨false, [], true⟩, .produce 0, .promise 0 none, .nested ⟨true, [], true⟩, .nestedProduce] = some s ∧
      s.cur = some ⟨0, none, .waiting 1⟩ ∧ s.ends = [(0, none)] by
    obtain ⟨s, hr, hc, he⟩ := h
    exact ⟨s, ⟨_, hr⟩, ⟨0, none, 1, hc⟩, stuck_dead ⟨_, hr⟩ ⟨rfl, 0, none, .inl ⟨1, hc, by simp [he]⟩⟩⟩
  simp [run, step, Sys.init, upd, afterProduce, h1, h2]

/-- C91 is violated also by callbacks that only call `ProduceAsync`: when the client keeps as many records as it may, the call waits for room that the client makes only when the callback
has returned. -/
theorem C91_violated_full (cfg : Cfg) (hm : 1 ≤ cfg.max) :
    ∃ s, Reach cfg s ∧ (∃ i e j c, s.cur = some ⟨i, e, .producing j⟩ ∧ s.calls[j]? = some c ∧ c.sync = false) ∧ Spec.dead cfg s := by
  obtain ⟨s, ⟨as, hs⟩, F⟩ := reach_full cfg cfg.max (Nat.le_refl _)
  obtain ⟨f1, f2, f3, f4, f5⟩ := F
  have h0 : 0 < cfg.max := by omega
  suffices h : ∃ s', run cfg s [.promise 0 none, .nested ⟨false, [], false⟩] = some s' ∧
      s'.cur = some ⟨0, none, .producing cfg.max⟩ ∧ s'.buf.length = cfg.max ∧ s'.calls[cfg.max]? = some ⟨false, [], false⟩ by
    obtain ⟨s', hr, hc, hb, hl⟩ := h
    have hR : Reach cfg s' := ⟨_, run_append hs hr⟩
    exact ⟨s', hR, ⟨0, none, cfg.max, _, hc, hl, rfl⟩, stuck_dead hR ⟨rfl, 0, none, .inr ⟨_, hc, by omega⟩⟩⟩
  simp [run, step, f1, f3, f4, h0]

/-- Two goroutines and a callback: the second call fails, `Produce` returns this error, the callback sees the default topic. -/
example : ∃ s, run ⟨[100], 2⟩ Sys.init [.call 0 ⟨false, [], true⟩, .call 1 ⟨true, [7], true⟩, .produce 1, .produce 0, .promise 1 (some 5), .finish, .promise 0 none, .ret 1, .finish] = some s ∧
    s.ret = [(1, some 5)] ∧ s.cbs = [(0, [100], none)] ∧ s.sent = [(1, [7]), (0, [100])] ∧ s.buf = [] ∧ s.cur = none :=
  ⟨_, rfl, by decide +kernel, by decide +kernel, by decide +kernel, by decide +kernel, by decide +kernel⟩

/-- The hypotheses of `C91_all_served_partial` and `C91_at_rest` are met after this run. -/
example : ∃ as s, run ⟨[100], 2⟩ Sys.init as = some s ∧ (∀ a ∈ as, ∀ c, a ≠ .nested c) ∧ Spec.still ⟨[100], 2⟩ s ∧ s.ret = [(0, some 5)] := by
  refine ⟨[.call 0 ⟨true, [7], true⟩, .produce 0, .promise 0 (some 5), .finish, .ret 0], _, rfl, by simp, ?_, by decide +kernel⟩
  have hph : ∀ t, (Verif.Simple.upd (Verif.Simple.upd (Verif.Simple.upd Sys.init.ph 0 (.producing 0)) 0 (.waiting 0)) 0 .idle) t = .idle := by
    intro t
    simp only [upd]
    split <;> rfl
  intro a ha
  cases a with
  | call t c => exact absurd rfl (ha.1 t c)
  | nested c => exact absurd rfl (ha.2 c)
  | produce t => simp only [step, afterProduce]; erw [hph t]
  | ret t => simp only [step, afterProduce]; erw [hph t]
  | promise i e =>
    cases i with
    | zero => rfl
    | succ i => rfl
  | _ => rfl

/-- A callback may call `ProduceAsync` while there is room: the client is not stopped by it. -/
example : ∃ s, run ⟨[100], 2⟩ Sys.init [.call 0 ⟨false, [], true⟩, .produce 0, .promise 0 none, .nested ⟨false, [8], true⟩, .nestedProduce, .finish, .promise 1 none, .finish] = some s ∧
    s.cbs = [(0, [100], none), (1, [8], none)] ∧ s.buf = [] :=
  ⟨_, rfl, by decide +kernel, by decide +kernel⟩

end Verif.Simple

import Verif.Handover.Proofs
/-
Property C07: a partition that moves between consumers.
-/
namespace Verif.Handover
set_option linter.unusedSimpArgs false

/-- A session has a transaction whose commit record was not produced. -/
def Spec.hasOpen (v : Sess) : Prop := (if v.prep then 1 else 0) < v.pend.length

/-- Whenever a session sends its marker, no other session has such a transaction: the old consumer has drained. -/
def Spec.Drained (ls : List Label) : Prop :=
  ∀ ls1 i ls2 s, ls = ls1 ++ .mark i :: ls2 → run St.init ls1 = some s → ∀ j, j ≠ i → ¬ Spec.hasOpen (s.sess j)

theorem run_append {s s' : St} {l1 l2 : List Label} (h : run s (l1 ++ l2) = some s') : ∃ c, run s l1 = some c ∧ run c l2 = some s' := by
  induction l1 generalizing s with
  | nil => exact ⟨s, rfl, h⟩
  | cons l l1 ih =>
    simp only [List.cons_append, run, Option.bind_eq_some_iff] at h
    obtain ⟨c, e1, e2⟩ := h
    obtain ⟨d, e3, e4⟩ := ih e2
    exact ⟨d, by simp [run, e1, e3], e4⟩

theorem run_snoc {s c s' : St} {l1 : List Label} {l : Label} (h1 : run s l1 = some c) (h2 : step c l = some s') : run s (l1 ++ [l]) = some s' := by
  induction l1 generalizing s with
  | nil => simp only [run, Option.some.injEq] at h1; subst h1; simp [run, h2]
  | cons a l1 ih =>
    simp only [run, Option.bind_eq_some_iff] at h1
    obtain ⟨d, e1, e2⟩ := h1
    simp only [List.cons_append, run, e1, Option.bind_some]
    exact ih e2

theorem inv_run {ls : List Label} (hd : Spec.Drained ls) {s : St} (h : run St.init ls = some s) : Inv s := by
  have : ∀ (l2 l1 : List Label) (c : St), ls = l1 ++ l2 → run St.init l1 = some c → Inv c → run c l2 = some s → Inv s := by
    intro l2
    induction l2 with
    | nil => intro l1 c _ _ I h; simp only [run, Option.some.injEq] at h; subst h; exact I
    | cons l l2 ih =>
      intro l1 c e hr I h
      simp only [run, Option.bind_eq_some_iff] at h
      obtain ⟨d, e1, e2⟩ := h
      refine ih (l1 ++ [l]) d (by rw [e]; simp) (run_snoc hr e1) (inv_step I ?_ e1) e2
      intro i hi j hj
      subst hi
      have := hd l1 i l2 c e hr j hj
      unfold Spec.hasOpen at this
      by_cases hp : (c.sess j).prep = true
      · rw [if_pos hp] at this
        match hx : (c.sess j).pend with
        | [] => exact Or.inl rfl
        | [t] => exact Or.inr ⟨hp, t, rfl⟩
        | _ :: _ :: _ => rw [hx] at this; simp at this
      · rw [if_neg hp] at this
        exact Or.inl (List.eq_nil_of_length_eq_zero (by omega))
  exact this ls [] St.init rfl rfl inv_init h

/-- C07, in part: if the consumer that loses the partition has produced its commit records, or has given up its transactions, before the new one sends its marker, then
through any number of hand-overs, failures and aborted transactions the committed effects are those of the events 0, 1, 2, … in order, each once.
Missing: hand-overs in which the old consumer has not drained; nothing in the code waits for that, see `C07_violated`. -/
theorem C07_exactly_once_partial {ls : List Label} (hd : Spec.Drained ls) {s : St} (h : run St.init ls = some s) :
    s.effects = List.range s.effects.length := (inv_run hd h).eff

/-- C07, in part: under the same condition a session that works resumes exactly after the committed events, and continues without a gap. -/
theorem C07_resume_partial {ls : List Label} (hd : Spec.Drained ls) {s : St} (h : run St.init ls = some s) (i : Nat) (hi : i < s.n)
    (hr : (s.sess i).revoked = false) (hs : (s.sess i).start.isSome) (hf : (s.sess i).failed = false) :
    (s.sess i).next = s.effects.length + (s.sess i).pend.flatten.length ∧ ∀ j, j ≠ i → (s.sess j).pend = [] :=
  ⟨(inv_run hd h).nxt i hf (Or.inr ⟨hi, hr, hs⟩), (inv_run hd h).startd i hi hr hs⟩

/-- Two hand-overs: the first with a commit record of the old session still undecided when the marker is sent (it is committed later), the second after an abort. -/
def exampleRun : List Label :=
  [.assign, .mark 0, .read 0, .handle 0 true, .handle 0 false, .prepare 0, .commit 0, .handle 0 true, .prepare 0, .revoke 0,
   .assign, .mark 1, .read 1, .commit 0, .read 1, .read 1, .read 1, .handle 1 true, .handle 1 true, .prepare 1, .abort 1, .revoke 1,
   .assign, .mark 2, .read 2, .read 2, .read 2, .read 2, .read 2, .read 2, .handle 2 true, .prepare 2, .commit 2]

example : (run St.init exampleRun).map (fun s => (s.effects, (s.sess 2).start, s.log)) =
    some ([0, 1, 2, 3], some 3, [.mark 0, .cmt 0 2 .committed, .cmt 0 3 .committed, .mark 1, .cmt 1 4 .aborted, .mark 2, .cmt 2 4 .committed]) := by decide

/-- The hypothesis can be met: before each marker of that run the other sessions have nothing open. -/
example : (List.range exampleRun.length).all (fun k => match exampleRun[k]? with
    | some (.mark i) => (run St.init (exampleRun.take k)).all fun s =>
        (List.range 3).all fun j => decide (j = i ∨ (s.sess j).pend.length ≤ if (s.sess j).prep then 1 else 0)
    | _ => true) = true := by decide

/-- C07 is violated: session 0 handles the events 0 and 1, is revoked and has not yet produced its commit record; session 1 sends its marker, reads the watermark
0 and handles event 0 again; both transactions commit. -/
theorem C07_violated : ∃ ls s, run St.init ls = some s ∧ s.effects = [0, 1, 0] ∧ (s.sess 0).failed = false ∧ (s.sess 1).failed = false :=
  ⟨[.assign, .mark 0, .read 0, .handle 0 true, .handle 0 false, .revoke 0, .assign, .mark 1, .read 1, .read 1, .handle 1 true, .prepare 0, .commit 0, .prepare 1, .commit 1],
   _, rfl, by decide, by decide, by decide⟩

/-- And the commit log can go back: the session that was revoked commits last, so the next session starts before events that were committed. -/
theorem C07_violated_watermark : ∃ ls s, run St.init ls = some s ∧ s.effects = [0, 1, 2, 0] ∧ (s.sess 2).start = some 1 :=
  ⟨[.assign, .mark 0, .read 0, .handle 0 true, .revoke 0, .assign, .mark 1, .read 1, .read 1, .handle 1 true, .handle 1 false, .handle 1 false, .prepare 1, .commit 1, .prepare 0, .commit 0,
    .revoke 1, .assign, .mark 2, .read 2, .read 2, .read 2, .read 2, .read 2],
   _, rfl, by decide, by decide⟩

/-- The offset in the last committed record of a list of entries (0 if there is none). -/
def Spec.lastCommitted (l : List Entry) : Nat :=
  ((l.filterMap fun e => match e with | .cmt _ o .committed => some o | _ => none).getLast?).getD 0

theorem wmOf_eq (l : List Entry) : wmOf l = Spec.lastCommitted l := by
  induction l using List.reverseRecOn with
  | nil => rfl
  | append_singleton l e ih =>
    unfold wmOf at *
    rw [List.foldl_append, ih]
    unfold Spec.lastCommitted
    rw [List.filterMap_append]
    cases e with
    | mark i => simp [wmStep]
    | cmt i o st => cases st <;> simp [wmStep]

/-- A decided transaction. -/
def Spec.decided : Entry → Prop
  | .cmt _ _ .undecided => False
  | _ => True

/-- What holds without any condition. -/
structure Inv0 (s : St) : Prop where
  st : ∀ i x, (s.sess i).start = some x → ∃ pre post, s.log = pre ++ .mark i :: post ∧ (∀ e ∈ pre, e.und = false) ∧ x = wmOf pre
  rp : ∀ i, (s.sess i).wm = wmOf (s.log.take (s.sess i).pos) ∧ (s.sess i).pos ≤ s.log.length ∧ ∀ e ∈ s.log.take (s.sess i).pos, e.und = false

theorem inv0_append {s : St} (I : Inv0 s) (e : Entry) (s' : St) (hl : s'.log = s.log ++ [e])
    (hs : ∀ j, (s'.sess j).start = (s.sess j).start ∧ (s'.sess j).wm = (s.sess j).wm ∧ (s'.sess j).pos = (s.sess j).pos) : Inv0 s' := by
  constructor
  · intro i x hx
    rw [(hs i).1] at hx
    obtain ⟨pre, post, h1, h2, h3⟩ := I.st i x hx
    exact ⟨pre, post ++ [e], by rw [hl, h1]; simp, h2, h3⟩
  · intro i
    obtain ⟨r1, r2, r3⟩ := I.rp i
    rw [(hs i).2.1, (hs i).2.2, hl, List.take_append_of_le_length r2]
    exact ⟨r1, by simp; omega, r3⟩

theorem inv0_settle {s : St} (I : Inv0 s) (k : Nat) (st : Status) (s' : St) (hl : s'.log = s.log.map (settle k st))
    (hs : ∀ j, (s'.sess j).start = (s.sess j).start ∧ (s'.sess j).wm = (s.sess j).wm ∧ (s'.sess j).pos = (s.sess j).pos) : Inv0 s' := by
  constructor
  · intro i x hx
    rw [(hs i).1] at hx
    obtain ⟨pre, post, h1, h2, h3⟩ := I.st i x hx
    exact ⟨pre, post.map (settle k st), by rw [hl, h1, List.map_append, List.map_cons, map_settle h2]; rfl, h2, h3⟩
  · intro i
    obtain ⟨r1, r2, r3⟩ := I.rp i
    rw [(hs i).2.1, (hs i).2.2, hl, ← List.map_take, map_settle r3]
    exact ⟨r1, by simpa using r2, r3⟩

theorem inv0_same {s : St} (I : Inv0 s) (s' : St) (hl : s'.log = s.log)
    (hs : ∀ j, (s'.sess j).start = (s.sess j).start ∧ (s'.sess j).wm = (s.sess j).wm ∧ (s'.sess j).pos = (s.sess j).pos) : Inv0 s' := by
  constructor
  · intro i x hx; rw [(hs i).1] at hx; rw [hl]; exact I.st i x hx
  · intro i; rw [(hs i).2.1, (hs i).2.2, hl]; exact I.rp i

theorem set_same {s : St} {i : Nat} {v : Sess} (h1 : v.start = (s.sess i).start) (h2 : v.wm = (s.sess i).wm) (h3 : v.pos = (s.sess i).pos) (j : Nat) :
    ((s.set i v).sess j).start = (s.sess j).start ∧ ((s.set i v).sess j).wm = (s.sess j).wm ∧ ((s.set i v).sess j).pos = (s.sess j).pos := by
  rw [sess_set]; split
  · rename_i e; subst e; exact ⟨h1, h2, h3⟩
  · exact ⟨rfl, rfl, rfl⟩

theorem inv0_read {s : St} {i : Nat} {e : Entry} (I : Inv0 s) (he : s.log[(s.sess i).pos]? = some e) (hu : e.und = false) (v : Sess)
    (hp : v.pos = (s.sess i).pos + 1) (hw : v.wm = wmStep (s.sess i).wm e)
    (hst : v.start = (s.sess i).start ∨ (e = .mark i ∧ v.start = some (s.sess i).wm)) : Inv0 (s.set i v) := by
  have hlt : (s.sess i).pos < s.log.length := by
    by_contra hn; rw [List.getElem?_eq_none (by omega)] at he; cases he
  obtain ⟨r1, r2, r3⟩ := I.rp i
  constructor
  · intro j x hx
    rw [sess_set] at hx
    rw [set_log]
    split at hx
    · rename_i ej; subst ej
      rcases hst with h | ⟨rfl, h⟩
      · rw [h] at hx; exact I.st j x hx
      · rw [h] at hx
        simp only [Option.some.injEq] at hx
        refine ⟨s.log.take (s.sess j).pos, s.log.drop ((s.sess j).pos + 1), ?_, r3, by rw [← hx]; exact r1⟩
        conv => lhs; rw [← List.take_append_drop ((s.sess j).pos + 1) s.log, List.take_add_one, he]
        simp
    · exact I.st j x hx
  · intro j
    rw [sess_set, set_log]
    split
    · rename_i ej; subst ej
      rw [hp, hw, List.take_add_one, he]
      refine ⟨?_, by omega, ?_⟩
      · rw [r1]; unfold wmOf; rw [List.foldl_append]; rfl
      · intro x hx
        simp only [List.mem_append, Option.toList_some, List.mem_singleton] at hx
        rcases hx with hx | rfl
        · exact r3 x hx
        · exact hu
    · exact I.rp j

theorem inv0_step {s s' : St} {l : Label} (I : Inv0 s) (h : step s l = some s') : Inv0 s' := by
  cases l with
  | assign =>
    simp only [step] at h; split at h
    · simp only [Option.some.injEq] at h; subst h; exact inv0_same I _ rfl (fun _ => ⟨rfl, rfl, rfl⟩)
    · simp at h
  | mark i =>
    simp only [step] at h; split at h
    · simp only [Option.some.injEq] at h; subst h; exact inv0_append I (.mark i) _ rfl (set_same rfl rfl rfl)
    · simp at h
  | read i =>
    simp only [step] at h; split at h
    · split at h
      · simp at h
      · rename_i he; simp only [Option.some.injEq] at h; subst h; exact inv0_read I he rfl _ rfl rfl (Or.inl rfl)
      · rename_i he; simp only [Option.some.injEq] at h; subst h; exact inv0_read I he rfl _ rfl rfl (Or.inl rfl)
      · rename_i he
        split at h
        · rename_i e; subst e
          simp only [Option.some.injEq] at h; subst h; exact inv0_read I he rfl _ rfl rfl (Or.inr ⟨rfl, rfl⟩)
        · simp only [Option.some.injEq] at h; subst h; exact inv0_read I he rfl _ rfl rfl (Or.inl rfl)
      · simp at h
    · simp at h
  | revoke i =>
    simp only [step] at h; split at h
    · simp only [Option.some.injEq] at h; subst h; exact inv0_same I _ rfl (set_same rfl rfl rfl)
    · simp at h
  | handle i new =>
    simp only [step] at h; split at h
    · simp only [Option.map_eq_some_iff] at h
      obtain ⟨p, _, rfl⟩ := h
      exact inv0_same I _ rfl (set_same rfl rfl rfl)
    · simp at h
  | prepare i =>
    simp only [step] at h; split at h
    · split at h
      · simp at h
      · simp only [Option.some.injEq] at h; subst h; exact inv0_append I _ _ rfl (set_same rfl rfl rfl)
    · simp at h
  | commit i =>
    simp only [step] at h; split at h
    · split at h
      · simp at h
      · simp only [Option.some.injEq] at h; subst h; exact inv0_settle I i .committed _ rfl (set_same rfl rfl rfl)
    · simp at h
  | abort i =>
    simp only [step] at h; split at h
    · simp only [Option.some.injEq] at h; subst h; exact inv0_settle I i .aborted _ rfl (set_same rfl rfl rfl)
    · simp at h
  | fail i =>
    simp only [step] at h; split at h
    · simp only [Option.some.injEq] at h; subst h; exact inv0_same I _ rfl (set_same rfl rfl rfl)
    · simp at h

/-- C07, in part, without any condition: a session starts at the offset of the last commit record before its marker whose transaction was committed, and every
transaction with a record before the marker had been decided by then. Missing: transactions that produce their commit records after the marker. -/
theorem C07_start_partial {ls : List Label} {s : St} (h : run St.init ls = some s) {i x : Nat} (hx : (s.sess i).start = some x) :
    ∃ pre post, s.log = pre ++ .mark i :: post ∧ (∀ e ∈ pre, Spec.decided e) ∧ x = Spec.lastCommitted pre := by
  have : ∀ (ls : List Label) (a b : St), Inv0 a → run a ls = some b → Inv0 b := by
    intro ls
    induction ls with
    | nil => intro a b I h; simp only [run, Option.some.injEq] at h; subst h; exact I
    | cons l ls ih =>
      intro a b I h
      simp only [run, Option.bind_eq_some_iff] at h
      obtain ⟨c, e1, e2⟩ := h
      exact ih c b (inv0_step I e1) e2
  have I := this ls _ _ ⟨by simp [St.init, Sess.init], by simp [St.init, Sess.init, wmOf]⟩ h
  obtain ⟨pre, post, h1, h2, h3⟩ := I.st i x hx
  refine ⟨pre, post, h1, ?_, by rw [h3, wmOf_eq]⟩
  intro e he
  have := h2 e he
  cases e with
  | mark k => trivial
  | cmt k o st => cases st <;> trivial

end Verif.Handover

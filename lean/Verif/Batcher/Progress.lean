import Verif.Batcher.Account
/-
Progress of the batcher (a measure that every internal step lowers), calls of the executor, order of completions.
-/
namespace Verif.Batcher

set_option linter.unusedSectionVars false

variable {K : Type} [DecidableEq K]

/-! ### Measure -/

/-- Remaining work of a goroutine. -/
def Phase.work (e : Exec K) : Phase K → Nat
  | .queued => e.items.length + e.noops.length + 4
  | .running => e.items.length + e.noops.length + 3
  | .completing r => r.length + e.noops.length + 2
  | .nooping r => r.length + 1

/-- Remaining work of an executor. -/
def Exec.work (e : Exec K) : Nat :=
  (match e.gos with
    | [] => e.items.length + e.noops.length
    | p :: _ => p.work e) + e.late * 6 + (if e.timer = .armed then 7 else 0)

/-- Sum of the work of the first `n` executors. -/
def total (f : Nat → Exec K) : Nat → Nat
  | 0 => 0
  | n + 1 => total f n + (f n).work

theorem total_congr {f g : Nat → Exec K} {n : Nat} (h : ∀ i, i < n → f i = g i) : total f n = total g n := by
  induction n with
  | zero => rfl
  | succ n ih => rw [total, total, ih (fun i hi => h i (by omega)), h n (by omega)]

theorem total_upd {f : Nat → Exec K} {i n : Nat} (e : Exec K) (hi : i < n) : total (upd f i e) n + (f i).work = total f n + e.work := by
  induction n with
  | zero => omega
  | succ n ih =>
    rw [total, total]
    by_cases h : i = n
    · subst h
      rw [upd_self, total_congr (g := f)]
      · omega
      · intro j hj; rw [upd_ne _ _ (by omega)]
    · have := ih (by omega)
      rw [upd_ne _ _ (by omega)]; omega

/-- Total remaining work. -/
def State.work (s : State K) : Nat := total s.execs s.n + 9 * s.pending.length

theorem addE_work {max : Nat} {e : Exec K} (x : Item K) (hg : e.gos = []) : (addE max e x).work ≤ e.work + 8 := by
  have hlen := add_len e x
  unfold addE
  rw [hlen]
  split
  · rename_i h
    simp only [Exec.work, add_gos, hg, List.nil_append, Phase.work, add_late]
    simp only [reduceCtorEq, if_false]
    split <;> omega
  · split
    · rename_i ht
      rw [add_timer] at ht
      simp only [Exec.work, add_gos, hg, add_late, ht]
      simp
      omega
    · rename_i ht
      simp only [Exec.work, add_gos, hg, add_late, add_timer]
      omega

theorem addTo_work {s : State K} (S : Str s) {x : Item K} {i : Nat} (h : execFor s x = some i) :
    total (addTo s x i).execs (addTo s x i).n ≤ total s.execs s.n + 8 := by
  obtain ⟨hr, hi, ha⟩ := execFor_some S h
  rw [addTo_eq hr]
  change total (upd s.execs i _) s.n ≤ _
  have h1 := total_upd (f := s.execs) (addE s.maxSize (s.execs i) x) hi
  have h2 := addE_work (max := s.maxSize) x ((S.eok i).idle hr)
  omega

theorem flushLoop_work {s : State K} {kept rest : List (Item K)} (S : Str s) :
    (flushLoop s kept rest).work ≤ total s.execs s.n + 9 * (kept.length + rest.length) := by
  induction rest generalizing s kept with
  | nil => simp [flushLoop, State.work]
  | cons x rest ih =>
    simp only [flushLoop]
    cases he : execFor s x with
    | none =>
      simp only
      have := ih (kept := kept ++ [x]) S
      simp only [List.length_append, List.length_cons, List.length_nil] at this ⊢
      omega
    | some i =>
      simp only
      have hw := addTo_work S he
      split
      · simp only [State.work, List.length_append, List.length_cons]
        change total (addTo s x i).execs (addTo s x i).n + _ ≤ _
        omega
      · have := ih (kept := kept) (str_addTo S he)
        simp only [List.length_cons]
        omega

/-- Steps other than calls of `Add` and adding: timers and executing goroutines. -/
def Label.internal : Label K → Bool
  | .fire _ | .flush _ | .go _ _ => true
  | _ => false

theorem work_upd {s s' : State K} {i : Nat} {e : Exec K} (hi : i < s.n) (hn : s'.n = s.n) (hx : s'.execs = upd s.execs i e)
    (hp : s'.pending = s.pending) (hw : e.work < (s.execs i).work) : s'.work < s.work := by
  have := total_upd (f := s.execs) e hi
  unfold State.work
  rw [hn, hx, hp]
  omega

theorem step_work {s s' : State K} {l : Label K} (G : Good s) (hl : l.internal = true) (h : step s l = some s') : s'.work < s.work := by
  obtain ⟨I, W⟩ := G
  cases l with
  | call t b => simp [Label.internal] at hl
  | add t => simp [Label.internal] at hl
  | fire i =>
    simp only [step] at h
    split at h
    · rename_i ht
      simp only [Option.some.injEq] at h
      subst h
      have hi : i < s.n := lt_of_ne I.str (by intro h; rw [h] at ht; simp at ht)
      refine work_upd (i := i) (e := { s.execs i with timer := .fired, late := (s.execs i).late + 1 }) hi (by rfl) (by rfl) (by rfl) ?_
      simp only [Exec.work, ht]
      simp only [reduceCtorEq, if_false, if_true]
      cases (s.execs i).gos with
      | nil => simp only; omega
      | cons p r => simp only; cases p <;> simp only [Phase.work] <;> omega
    · simp at h
  | flush i =>
    simp only [step] at h
    split at h
    · simp at h
    · rename_i m hm
      simp only [Option.some.injEq] at h
      have hi : i < s.n := lt_of_ne I.str (by intro h; rw [h] at hm; simp at hm)
      have hself : (s.setE i { s.execs i with late := m }).execs i = { s.execs i with late := m } := by simp [State.setE]
      have hupd : ∀ (a b : Exec K), upd (upd s.execs i a) i b = upd s.execs i b := by
        intro a b; funext j; simp only [upd]; split <;> rfl
      rw [condExec, hself] at h
      simp only at h
      split at h
      · subst h
        refine work_upd (i := i) (e := { s.execs i with late := m }) hi (by rfl) (by rfl) (by rfl) ?_
        simp only [Exec.work, hm]
        cases (s.execs i).gos with
        | nil => simp only; omega
        | cons p r => simp only; cases p <;> simp only [Phase.work] <;> omega
      · rename_i he
        have hg := (I.str.eok i).idle (by simpa using he)
        refine work_upd (i := i) (e := { s.execs i with late := m, executing := true, timer := .nil, gos := (s.execs i).gos ++ [.queued] }) hi
          (by rw [← h]; rfl) (by rw [← h]; simp only [State.setE, hupd]) (by rw [← h]; rfl) ?_
        simp only [Exec.work, hm, hg, List.nil_append, Phase.work]
        simp only [reduceCtorEq, if_false]
        omega
  | go i j =>
    simp only [step, Option.map_eq_some_iff] at h
    obtain ⟨p, hp, hs⟩ := h
    obtain ⟨he, hg, hj, hok⟩ := the_go I.str hp
    subst hj
    have hi : i < s.n := lt_of_ne I.str (by intro h; rw [h] at hg; simp at hg)
    have hset : ∀ q, (s.execs i).gos.set 0 q = [q] := by intro q; rw [hg]; rfl
    have hmove : ∀ (q : Phase K), s'.n = s.n → s'.pending = s.pending → s'.execs = upd s.execs i { s.execs i with gos := [q] } →
        q.work (s.execs i) < p.work (s.execs i) → s'.work < s.work := by
      intro q h1 h2 h3 h4
      refine work_upd hi h1 h3 h2 ?_
      simp only [Exec.work, hg]
      cases q <;> simp only [Phase.work] at h4 ⊢ <;> omega
    cases p with
    | queued =>
      simp only [goStep] at hs
      split at hs
      · subst hs
        refine hmove .running (by rfl) (by rfl) (by simp [setGo, State.setE, hset]) ?_
        simp only [Phase.work]; omega
      · subst hs
        refine hmove (.nooping (s.execs i).noops) (by rfl) (by rfl) (by simp [setGo, State.setE, hset]) ?_
        simp only [Phase.work]; omega
    | running =>
      simp only [goStep] at hs
      subst hs
      refine hmove (.completing (s.execs i).items) (by rfl) (by rfl) (by simp [setGo, State.setE, hset]) ?_
      simp only [Phase.work]; omega
    | completing r =>
      cases r with
      | nil =>
        simp only [goStep] at hs
        subst hs
        refine hmove (.nooping (s.execs i).noops) (by rfl) (by rfl) (by simp [setGo, State.setE, hset]) ?_
        simp only [Phase.work, List.length_nil]; omega
      | cons x r =>
        simp only [goStep] at hs
        subst hs
        refine hmove (.completing r) (by rfl) (by rfl) (by simp [setGo, State.setE, completeItem, hset]) ?_
        simp only [Phase.work, List.length_cons]; omega
    | nooping r =>
      cases r with
      | cons x r =>
        simp only [goStep] at hs
        subst hs
        refine hmove (.nooping r) (by rfl) (by rfl) (by simp [setGo, State.setE, completeNoop, hset]) ?_
        simp only [Phase.work, List.length_cons]; omega
      | nil =>
        simp only [goStep, finish] at hs
        have hr := reset_inv I he hg rfl
        have herase : (s.execs i).gos.eraseIdx 0 = [] := by rw [hg]; rfl
        rw [herase] at hs
        have hupd : ∀ (a b : Exec K), upd (upd s.execs i a) i b = upd s.execs i b := by
          intro a b; funext j; simp only [upd]; split <;> rfl
        have hlt : (reset { s with count := s.count - 1, execs := upd s.execs i { s.execs i with gos := [] } } i).work < s.work := by
          refine work_upd (i := i) (e := { s.execs i with items := [], noops := [], executing := false, gos := [] }) hi (by rfl)
            (by simp [reset, hupd]) (by rfl) ?_
          simp only [Exec.work, hg, Phase.work, List.length_nil]; omega
        rw [← hs, flushPending, if_neg hr.2]
        refine Nat.lt_of_le_of_lt (flushLoop_work hr.1.str) ?_
        simp only [List.length_nil, Nat.zero_add]
        exact hlt

theorem run_work {s s' : State K} {ls : List (Label K)} (G : Good s) (hl : ∀ l ∈ ls, l.internal = true) (h : run s ls = some s') :
    ls.length + s'.work ≤ s.work := by
  induction ls generalizing s with
  | nil => simp only [run, Option.some.injEq] at h; subst h; simp
  | cons l ls ih =>
    simp only [run, Option.bind_eq_some_iff] at h
    obtain ⟨s1, e1, e2⟩ := h
    have h1 := step_work G (hl l (by simp)) e1
    have h2 := ih (good_step G e1) (fun l' h' => hl l' (List.mem_cons_of_mem _ h')) e2
    simp only [List.length_cons]
    omega

/-! ### Where an unfinished item is -/

theorem whereabouts {s : State K} (G : Good s) {x : Item K} (ha : x ∈ s.added) (hd : x ∉ s.done) :
    (∃ i, i < s.n ∧ s.assign x.key = some i ∧ (x ∈ (s.execs i).unfinished ∨ x ∈ (s.execs i).unnooped)) ∨ x ∈ s.pending := by
  have key : ∀ c (f : Exec K → List (Item K)), Line s s.pending c f s.done → x.noop = c →
      (∃ i, i < s.n ∧ s.assign x.key = some i ∧ x ∈ f (s.execs i)) ∨ x ∈ s.pending := by
    intro c f L hc
    have hx : x ∈ s.added.filter (cls x.key c) := by simp [cls, ha, hc]
    rw [L x.key, List.mem_append, List.mem_append] at hx
    rcases hx with (hx | hx) | hx
    · exact absurd (List.mem_filter.1 hx).1 hd
    · unfold here at hx
      split at hx
      · rename_i i hi
        exact .inl ⟨i, G.1.str.asg _ _ hi, hi, (List.mem_filter.1 hx).1⟩
      · simp at hx
    · exact .inr (List.mem_filter.1 hx).1
  cases hx : x.noop with
  | false =>
    rcases key false _ G.1.finished hx with ⟨i, h1, h2, h3⟩ | h
    · exact .inl ⟨i, h1, h2, .inl h3⟩
    · exact .inr h
  | true =>
    rcases key true _ G.1.nooped hx with ⟨i, h1, h2, h3⟩ | h
    · exact .inl ⟨i, h1, h2, .inr h3⟩
    · exact .inr h

theorem unfinished_items {s : State K} (S : Str s) {i : Nat} {x : Item K} (h : x ∈ (s.execs i).unfinished) : x ∈ (s.execs i).items := by
  unfold Exec.unfinished at h
  rcases he : (s.execs i).executing with _ | _
  · rw [(S.eok i).idle he] at h; exact h
  · obtain ⟨p, hp, hok⟩ := (S.eok i).go he
    rw [hp] at h
    cases p <;> simp only at h
    · exact h
    · exact h
    · exact suffix_mem hok h
    · simp at h

theorem unnooped_noops {s : State K} (S : Str s) {i : Nat} {x : Item K} (h : x ∈ (s.execs i).unnooped) : x ∈ (s.execs i).noops := by
  unfold Exec.unnooped at h
  rcases he : (s.execs i).executing with _ | _
  · rw [(S.eok i).idle he] at h; exact h
  · obtain ⟨p, hp, hok⟩ := (S.eok i).go he
    rw [hp] at h
    cases p <;> simp only at h
    · exact h
    · exact h
    · exact h
    · exact suffix_mem hok h

theorem quiet_done {s : State K} (G : Good s) (hn : 1 ≤ s.n) (hq : ∀ l : Label K, l.internal = true → step s l = none) :
    ∀ x ∈ s.added, x ∈ s.done := by
  intro x hx
  by_contra hd
  have hidle : ∀ i, (s.execs i).executing = false := by
    intro i
    by_contra he
    obtain ⟨p, hp, _⟩ := (G.1.str.eok i).go (by simpa using he)
    have := hq (.go i 0) rfl
    simp [step, hp] at this
  have hempty : ∀ i, (s.execs i).items.length + (s.execs i).noops.length = 0 := by
    intro i
    by_contra hne
    have ht := (G.1.str.eok i).timed (hidle i) (by omega)
    have h1 := hq (.fire i) rfl
    have h2 := hq (.flush i) rfl
    simp only [step] at h1 h2
    cases htm : (s.execs i).timer with
    | nil => exact ht htm
    | armed => rw [htm] at h1; simp at h1
    | fired =>
      have := (G.1.str.eok i).fired htm
      split at h2
      · omega
      · simp at h2
  rcases whereabouts G hx hd with ⟨i, _, _, h | h⟩ | h
  · have := List.length_pos_of_mem (unfinished_items G.1.str h)
    have := hempty i; omega
  · have := List.length_pos_of_mem (unnooped_noops G.1.str h)
    have := hempty i; omega
  · rcases G.2 x h with ⟨i, _, hi⟩ | hall
    · rw [hidle i] at hi; simp at hi
    · have := hall 0 (by omega); rw [hidle 0] at this; simp at this

/-! ### Calls of the user's executor -/

/-- Arguments of the calls are within the limits. -/
def CallsOk (s : State K) : Prop := ∀ c ∈ s.calls, c ≠ [] ∧ c.length ≤ s.maxSize ∧ ∀ x ∈ c, x.noop = false

theorem callsOk_step {s s' : State K} {l : Label K} (G : Good s) (C : CallsOk s) (h : step s l = some s') : CallsOk s' := by
  have keep : s'.calls = s.calls → s'.maxSize = s.maxSize → CallsOk s' := by
    intro h1 h2; unfold CallsOk; rw [h1, h2]; exact C
  cases l with
  | call t b =>
    simp only [step] at h
    split at h
    · simp only [Option.some.injEq] at h; subst h; exact keep rfl rfl
    · simp at h
  | add t =>
    simp only [step] at h
    split at h
    · simp at h
    · rename_i x r hx
      simp only [Option.some.injEq] at h
      subst h
      unfold addOne
      simp only
      split
      · rename_i i _
        have := same_addTo { s with adders := upd s.adders t r, added := s.added ++ [x] } x i
        unfold CallsOk; rw [this.calls, this.maxSize]; exact C
      · exact C
  | fire i =>
    simp only [step] at h
    split at h
    · simp only [Option.some.injEq] at h; subst h; exact keep rfl rfl
    · simp at h
  | flush i =>
    simp only [step] at h
    split at h
    · simp at h
    · rename_i m hm
      simp only [Option.some.injEq] at h
      have := same_condExec (s.setE i { s.execs i with late := m }) i
      rw [h] at this
      exact keep this.calls this.maxSize
  | go i j =>
    simp only [step, Option.map_eq_some_iff] at h
    obtain ⟨p, hp, hs⟩ := h
    have E := G.1.str.eok i
    cases p with
    | queued =>
      simp only [goStep] at hs
      split at hs
      · rename_i hpos
        subst hs
        intro c hc
        rcases List.mem_append.1 (show c ∈ s.calls ++ [(s.execs i).items] from hc) with hc | hc
        · exact C c hc
        · rw [List.mem_singleton] at hc
          subst hc
          refine ⟨?_, ?_, E.kindI⟩
          · intro h; rw [h] at hpos; simp at hpos
          · have := E.size
            change _ ≤ s.maxSize
            omega
      · subst hs; exact keep rfl rfl
    | running => simp only [goStep] at hs; subst hs; exact keep rfl rfl
    | completing r => cases r <;> simp only [goStep] at hs <;> subst hs <;> exact keep rfl rfl
    | nooping r =>
      cases r with
      | nil =>
        simp only [goStep] at hs
        have := same_finish s i j
        rw [hs] at this
        exact keep this.calls this.maxSize
      | cons x r => simp only [goStep] at hs; subst hs; exact keep rfl rfl

theorem fixed_step {s s' : State K} {l : Label K} (h : step s l = some s') : s'.n = s.n ∧ s'.maxSize = s.maxSize := by
  cases l with
  | call t b =>
    simp only [step] at h
    split at h
    · simp only [Option.some.injEq] at h; subst h; exact ⟨rfl, rfl⟩
    · simp at h
  | add t =>
    simp only [step] at h
    split at h
    · simp at h
    · rename_i x r hx
      simp only [Option.some.injEq] at h
      subst h
      unfold addOne
      simp only
      split
      · rename_i i _
        have := same_addTo { s with adders := upd s.adders t r, added := s.added ++ [x] } x i
        exact ⟨this.n, this.maxSize⟩
      · exact ⟨rfl, rfl⟩
  | fire i =>
    simp only [step] at h
    split at h
    · simp only [Option.some.injEq] at h; subst h; exact ⟨rfl, rfl⟩
    · simp at h
  | flush i =>
    simp only [step] at h
    split at h
    · simp at h
    · rename_i m hm
      simp only [Option.some.injEq] at h
      have := same_condExec (s.setE i { s.execs i with late := m }) i
      rw [h] at this
      exact ⟨this.n, this.maxSize⟩
  | go i j =>
    simp only [step, Option.map_eq_some_iff] at h
    obtain ⟨p, hp, hs⟩ := h
    cases p with
    | queued => simp only [goStep] at hs; split at hs <;> subst hs <;> exact ⟨rfl, rfl⟩
    | running => simp only [goStep] at hs; subst hs; exact ⟨rfl, rfl⟩
    | completing r => cases r <;> simp only [goStep] at hs <;> subst hs <;> exact ⟨rfl, rfl⟩
    | nooping r =>
      cases r with
      | nil =>
        simp only [goStep] at hs
        have := same_finish s i j
        rw [hs] at this
        exact ⟨this.n, this.maxSize⟩
      | cons x r => simp only [goStep] at hs; subst hs; exact ⟨rfl, rfl⟩

/-! ### Order of completions -/

theorem sublist_front {l H R : List (Item K)} {x y : Item K} (hl : l = H ++ R) (hn : l.Nodup) (h : [x, y].Sublist l) (hy : y ∈ H) : x ∈ H := by
  subst hl
  obtain ⟨l1, l2, h0, h1, h2⟩ := List.sublist_append_iff.1 h
  have hdis := (List.nodup_append.1 hn).2.2
  match l1, h0 with
  | [], h0 =>
    simp only [List.nil_append] at h0
    subst h0
    have : y ∈ R := h2.subset (by simp)
    exact absurd rfl (hdis y hy y this)
  | a :: r, h0 =>
    simp only [List.cons_append, List.cons.injEq] at h0
    rw [h0.1]
    exact h1.subset (by simp)

/-- A real item before a placeholder of the same key is completed before it. -/
def Mixed (s : State K) : Prop :=
  ∀ x y, [x, y].Sublist s.added → x.key = y.key → x.noop = false → y.noop = true → y ∈ s.done → x ∈ s.done

theorem mixed_step {s s' : State K} {l : Label K} (G : Good s) (A : Acc s) (M : Mixed s) (h : step s l = some s') : Mixed s' := by
  have keep : s'.added = s.added → s'.done = s.done → Mixed s' := by
    intro h1 h2; unfold Mixed; rw [h1, h2]; exact M
  cases l with
  | call t b =>
    simp only [step] at h
    split at h
    · simp only [Option.some.injEq] at h; subst h; exact keep rfl rfl
    · simp at h
  | add t =>
    have A' := acc_step G A h
    simp only [step] at h
    split at h
    · simp at h
    · rename_i z r hz
      simp only [Option.some.injEq] at h
      subst h
      obtain ⟨_, _, _, h4, h5, _⟩ := addOne_fields { s with adders := upd s.adders t r } z
      intro x y hxy hk hx hy hd
      rw [h5] at hd ⊢
      rw [h4] at hxy
      have hd' : y ∈ s.done := hd
      have hya := done_added G.1 hd'
      have hnd := A'.nodup
      rw [h4] at hnd
      have hx' : x ∈ s.added := sublist_front rfl hnd hxy hya
      apply M x y _ hk hx hy hd'
      obtain ⟨l1, l2, e0, e1, e2⟩ := List.sublist_append_iff.1 hxy
      have hdis := (List.nodup_append.1 hnd).2.2
      match l1, e0 with
      | [], e0 =>
        simp only [List.nil_append] at e0
        subst e0
        have := e2.length_le
        simp at this
      | [a], e0 =>
        simp only [List.cons_append, List.nil_append, List.cons.injEq] at e0
        have : y ∈ l2 := by rw [← e0.2]; simp
        exact absurd rfl (hdis y hya y (e2.subset this))
      | [a, b], e0 =>
        simp only [List.cons_append, List.nil_append, List.cons.injEq] at e0
        rw [e0.1, e0.2.1]; exact e1
      | a :: b :: c :: d, e0 => simp at e0
  | fire i =>
    simp only [step] at h
    split at h
    · simp only [Option.some.injEq] at h; subst h; exact keep rfl rfl
    · simp at h
  | flush i =>
    simp only [step] at h
    split at h
    · simp at h
    · rename_i m hm
      simp only [Option.some.injEq] at h
      have := same_condExec (s.setE i { s.execs i with late := m }) i
      rw [h] at this
      exact keep this.added this.done
  | go i j =>
    simp only [step, Option.map_eq_some_iff] at h
    obtain ⟨p, hp, hs⟩ := h
    obtain ⟨he, hg, hj, hok⟩ := the_go G.1.str hp
    have E := G.1.str.eok i
    cases p with
    | queued => simp only [goStep] at hs; split at hs <;> subst hs <;> exact keep rfl rfl
    | running => simp only [goStep] at hs; subst hs; exact keep rfl rfl
    | completing r =>
      cases r with
      | nil => simp only [goStep] at hs; subst hs; exact keep rfl rfl
      | cons z r =>
        simp only [goStep] at hs
        subst hs
        simp only [Phase.ok] at hok
        have hz := E.kindI z (suffix_cons hok).1
        intro x y hxy hk hx hy hd
        rcases List.mem_append.1 (show y ∈ s.done ++ [z] from hd) with hd | hd
        · exact List.mem_append_left _ (M x y hxy hk hx hy hd)
        · rw [List.mem_singleton] at hd; subst hd; rw [hz] at hy; simp at hy
    | nooping r =>
      cases r with
      | nil =>
        simp only [goStep] at hs
        have := same_finish s i j
        rw [hs] at this
        exact keep this.added this.done
      | cons z r =>
        simp only [goStep] at hs
        subst hs
        simp only [Phase.ok] at hok
        have hz := (suffix_cons hok).1
        intro x y hxy hk hx hy hd
        have hxy' : [x, y].Sublist s.added := hxy
        rcases List.mem_append.1 (show y ∈ s.done ++ [z] from hd) with hd | hd
        · exact List.mem_append_left _ (M x y hxy hk hx hy hd)
        · rw [List.mem_singleton] at hd
          subst hd
          apply List.mem_append_left
          by_contra hxd
          have hasg := G.1.str.locN i y hz
          have hxP : x ∈ s.pending := by
            have hx1 : x ∈ s.added.filter (cls y.key false) := by simp [cls, hxy'.subset (show x ∈ [x, y] by simp), hk, hx]
            rw [G.1.finished y.key, List.mem_append, List.mem_append] at hx1
            rcases hx1 with (h | h) | h
            · exact absurd (List.mem_filter.1 h).1 hxd
            · unfold here at h
              rw [hasg] at h
              simp [Exec.unfinished, hg] at h
            · exact (List.mem_filter.1 h).1
          have hyP : y ∉ s.pending := by
            intro hyP
            have hL := G.1.nooped y.key
            have hn2 := (A.nodup.filter (cls y.key true))
            rw [hL] at hn2
            refine (List.nodup_append.1 hn2).2.2 y ?_ y ?_ rfl
            · apply List.mem_append_right
              unfold here
              rw [hasg]
              simp [Exec.unnooped, hg, cls, hy]
            · simp [hyP, cls, hy]
          obtain ⟨g, hgm⟩ := G.1.mix y.key
          have hsub : [x, y].Sublist (s.added.filter fun z => decide (z.key = y.key)) := by
            have := hxy'.filter (fun z => decide (z.key = y.key))
            simpa [hk] using this
          have hyg : y ∈ g := by
            have : y ∈ s.added.filter fun z => decide (z.key = y.key) := hsub.subset (by simp)
            rw [hgm, List.mem_append] at this
            rcases this with h | h
            · exact h
            · exact absurd (List.mem_filter.1 h).1 hyP
          have hndk := A.nodup.filter (fun z => decide (z.key = y.key))
          have hxg := sublist_front hgm hndk hsub hyg
          rw [hgm] at hndk
          exact (List.nodup_append.1 hndk).2.2 x hxg x (by simp [hxP, hk]) rfl

/-- Everything known about a reachable state. -/
structure Full (s : State K) : Prop where
  good : Good s
  acc : Acc s
  calls : CallsOk s
  mixed : Mixed s

theorem full_step {s s' : State K} {l : Label K} (F : Full s) (h : step s l = some s') : Full s' :=
  ⟨good_step F.good h, acc_step F.good F.acc h, callsOk_step F.good F.calls h, mixed_step F.good F.acc F.mixed h⟩

theorem full_run {s s' : State K} {ls : List (Label K)} (F : Full s) (h : run s ls = some s') : Full s' := by
  induction ls generalizing s with
  | nil => simp only [run, Option.some.injEq] at h; subst h; exact F
  | cons l ls ih =>
    simp only [run, Option.bind_eq_some_iff] at h
    obtain ⟨s1, e1, e2⟩ := h
    exact ih (full_step F e1) e2

theorem full_init (max n : Nat) (hm : 1 ≤ max) : Full (init K max n) :=
  ⟨inv_init max n hm, acc_init max n, by intro c hc; simp [init] at hc, by intro x y h; simp [init] at h⟩

theorem full_reach {max n : Nat} (hm : 1 ≤ max) {s : State K} (h : Reach max n s) : Full s := by
  obtain ⟨ls, h⟩ := h
  exact full_run (full_init max n hm) h

theorem fixed_run {s s' : State K} {ls : List (Label K)} (h : run s ls = some s') : s'.n = s.n ∧ s'.maxSize = s.maxSize := by
  induction ls generalizing s with
  | nil => simp only [run, Option.some.injEq] at h; subst h; exact ⟨rfl, rfl⟩
  | cons l ls ih =>
    simp only [run, Option.bind_eq_some_iff] at h
    obtain ⟨s1, e1, e2⟩ := h
    have h1 := fixed_step e1
    have h2 := ih e2
    exact ⟨h2.1.trans h1.1, h2.2.trans h1.2⟩

theorem fixed_reach {max n : Nat} {s : State K} (h : Reach max n s) : s.n = n ∧ s.maxSize = max := by
  obtain ⟨ls, h⟩ := h
  exact fixed_run h

/-! ### The histories only grow, and the callbacks one at a time -/

theorem grow_step {s s' : State K} {l : Label K} (h : step s l = some s') :
    s.added <+: s'.added ∧ (s'.called = s.called ∨ ∃ b, s'.called = s.called ++ [b]) := by
  cases l with
  | call t b =>
    simp only [step] at h
    split at h
    · simp only [Option.some.injEq] at h; subst h; exact ⟨List.prefix_refl _, .inl rfl⟩
    · simp at h
  | add t =>
    simp only [step] at h
    split at h
    · simp at h
    · rename_i x r hx
      simp only [Option.some.injEq] at h
      subst h
      obtain ⟨_, _, _, h4, _, h6⟩ := addOne_fields { s with adders := upd s.adders t r } x
      rw [h4, h6]
      exact ⟨⟨[x], rfl⟩, .inl rfl⟩
  | fire i =>
    simp only [step] at h
    split at h
    · simp only [Option.some.injEq] at h; subst h; exact ⟨List.prefix_refl _, .inl rfl⟩
    · simp at h
  | flush i =>
    simp only [step] at h
    split at h
    · simp at h
    · rename_i m hm
      simp only [Option.some.injEq] at h
      have := same_condExec (s.setE i { s.execs i with late := m }) i
      rw [h] at this
      rw [this.added, this.called]
      exact ⟨List.prefix_refl _, .inl rfl⟩
  | go i j =>
    simp only [step, Option.map_eq_some_iff] at h
    obtain ⟨p, hp, hs⟩ := h
    cases p with
    | queued => simp only [goStep] at hs; split at hs <;> subst hs <;> exact ⟨List.prefix_refl _, .inl rfl⟩
    | running => simp only [goStep] at hs; subst hs; exact ⟨List.prefix_refl _, .inl rfl⟩
    | completing r =>
      cases r with
      | nil => simp only [goStep] at hs; subst hs; exact ⟨List.prefix_refl _, .inl rfl⟩
      | cons x r =>
        simp only [goStep] at hs
        subst hs
        refine ⟨List.prefix_refl _, ?_⟩
        simp only [setGo, State.setE, completeItem]
        split
        · exact .inr ⟨_, rfl⟩
        · exact .inl rfl
    | nooping r =>
      cases r with
      | nil =>
        simp only [goStep] at hs
        have := same_finish s i j
        rw [hs] at this
        rw [this.added, this.called]
        exact ⟨List.prefix_refl _, .inl rfl⟩
      | cons x r =>
        simp only [goStep] at hs
        subst hs
        exact ⟨List.prefix_refl _, .inr ⟨x.batch, rfl⟩⟩

theorem run_append {s s' s'' : State K} {a b : List (Label K)} (h1 : run s a = some s') (h2 : run s' b = some s'') : run s (a ++ b) = some s'' := by
  induction a generalizing s with
  | nil => simp only [run, Option.some.injEq] at h1; subst h1; exact h2
  | cons l a ih =>
    simp only [run, Option.bind_eq_some_iff] at h1
    obtain ⟨s1, e1, e2⟩ := h1
    simp only [List.cons_append, run, e1, Option.bind_some]
    exact ih e2

theorem batches_step {s s' : State K} {l : Label K} (h : step s l = some s') {b : Nat} {B : Batch K} (hb : s.batches b = some B) : s'.batches b = some B := by
  cases l with
  | call t b' =>
    simp only [step] at h
    split at h
    · rename_i hc
      simp only [Option.some.injEq] at h; subst h
      change upd s.batches b'.id (some b') b = some B
      rw [upd_ne]
      · exact hb
      · rintro rfl; rw [hc.2] at hb; simp at hb
    · simp at h
  | add t =>
    simp only [step] at h
    split at h
    · simp at h
    · rename_i x r hx
      simp only [Option.some.injEq] at h
      subst h
      obtain ⟨_, h2, _⟩ := addOne_fields { s with adders := upd s.adders t r } x
      rw [h2]; exact hb
  | fire i =>
    simp only [step] at h
    split at h
    · simp only [Option.some.injEq] at h; subst h; exact hb
    · simp at h
  | flush i =>
    simp only [step] at h
    split at h
    · simp at h
    · rename_i m hm
      simp only [Option.some.injEq] at h
      have := same_condExec (s.setE i { s.execs i with late := m }) i
      rw [h] at this
      rw [this.batches]; exact hb
  | go i j =>
    simp only [step, Option.map_eq_some_iff] at h
    obtain ⟨p, hp, hs⟩ := h
    cases p with
    | queued => simp only [goStep] at hs; split at hs <;> subst hs <;> exact hb
    | running => simp only [goStep] at hs; subst hs; exact hb
    | completing r => cases r <;> simp only [goStep] at hs <;> subst hs <;> exact hb
    | nooping r =>
      cases r with
      | nil =>
        simp only [goStep] at hs
        have := same_finish s i j
        rw [hs] at this
        rw [this.batches]; exact hb
      | cons x r => simp only [goStep] at hs; subst hs; exact hb

theorem batches_run {s s' : State K} {ls : List (Label K)} (h : run s ls = some s') {b : Nat} {B : Batch K} (hb : s.batches b = some B) :
    s'.batches b = some B := by
  induction ls generalizing s with
  | nil => simp only [run, Option.some.injEq] at h; subst h; exact hb
  | cons l ls ih =>
    simp only [run, Option.bind_eq_some_iff] at h
    obtain ⟨s1, e1, e2⟩ := h
    exact ih e2 (batches_step e1 hb)

/-- The moment at which a callback happened. -/
theorem moment {s s' : State K} {ls : List (Label K)} (h : run s ls = some s') {c1 c2 : List Nat} {b : Nat}
    (hc : s'.called = c1 ++ b :: c2) (h0 : s.called.length ≤ c1.length) :
    ∃ ls1 ls2 s1, run s ls1 = some s1 ∧ run s1 ls2 = some s' ∧ s1.called = c1 ++ [b] ∧ s1.added <+: s'.added := by
  have grow : ∀ {s s' : State K} {ls : List (Label K)}, run s ls = some s' → s.added <+: s'.added ∧ s.called <+: s'.called := by
    intro s s' ls h
    induction ls generalizing s with
    | nil => simp only [run, Option.some.injEq] at h; subst h; exact ⟨List.prefix_refl _, List.prefix_refl _⟩
    | cons l ls ih =>
      simp only [run, Option.bind_eq_some_iff] at h
      obtain ⟨s1, e1, e2⟩ := h
      obtain ⟨g1, g2⟩ := grow_step e1
      obtain ⟨i1, i2⟩ := ih e2
      refine ⟨g1.trans i1, ?_⟩
      rcases g2 with g2 | ⟨b, g2⟩
      · rw [← g2]; exact i2
      · exact List.IsPrefix.trans ⟨[b], g2.symm⟩ i2
  induction ls generalizing s with
  | nil =>
    simp only [run, Option.some.injEq] at h; subst h
    rw [hc] at h0; simp at h0; omega
  | cons l ls ih =>
    have hall := h
    simp only [run, Option.bind_eq_some_iff] at h
    obtain ⟨s1, e1, e2⟩ := h
    obtain ⟨g1, g2⟩ := grow_step e1
    by_cases hlen : s1.called.length ≤ c1.length
    · obtain ⟨ls1, ls2, s2, r1, r2, r3, r4⟩ := ih e2 hlen
      refine ⟨l :: ls1, ls2, s2, ?_, r2, r3, r4⟩
      simp only [run, e1, Option.bind_some]; exact r1
    · refine ⟨[l], ls, s1, by simp [run, e1], e2, ?_, (grow e2).1⟩
      have hp := (grow e2).2
      rw [hc] at hp
      have hl1 : s1.called.length = c1.length + 1 := by
        rcases g2 with g2 | ⟨b', g2⟩
        · rw [g2] at hlen; omega
        · rw [g2, List.length_append, List.length_singleton] at hlen ⊢; omega
      have hp2 : c1 ++ [b] <+: c1 ++ b :: c2 := ⟨c2, by simp⟩
      exact (List.prefix_of_prefix_length_le hp hp2 (by simp [hl1])).eq_of_length (by simp [hl1])

/-- State form of the order of callbacks. -/
theorem called_earlier {s : State K} (F : Full s) {A B : Batch K} {k : K} (hA : s.batches A.id = some A) (hB : s.batches B.id = some B)
    (kA : ∀ x ∈ A.itemsToAdd, x.key = k) (kB : ∀ x ∈ B.itemsToAdd, x.key = k) (hk : A.keys = [] → B.keys = [])
    (hord : ∀ x ∈ A.itemsToAdd, ∀ y ∈ B.itemsToAdd, [x, y].Sublist s.added) (hc : B.id ∈ s.called) : A.id ∈ s.called := by
  rw [F.acc.callback] at hc ⊢
  obtain ⟨B', hB', hdone⟩ := hc
  rw [hB] at hB'
  simp only [Option.some.injEq] at hB'
  subst hB'
  refine ⟨A, hA, fun x hx => ?_⟩
  obtain ⟨y, hy⟩ := List.exists_mem_of_ne_nil _ (items_ne B)
  have hyd := hdone y hy
  have hxy := hord x hx y hy
  have hline : ∀ c (f : Exec K → List (Item K)), Line s s.pending c f s.done → x.noop = c → y.noop = c → x ∈ s.done := by
    intro c f L hx' hy'
    have hL := L k
    rw [List.append_assoc] at hL
    have hsub : [x, y].Sublist (s.added.filter (cls k c)) := by
      have := hxy.filter (cls k c)
      simpa [cls, kA x hx, kB y hy, hx', hy'] using this
    have := sublist_front hL (F.acc.nodup.filter _) hsub (by simp [cls, hyd, kB y hy, hy'])
    exact (List.mem_filter.1 this).1
  cases hyn : y.noop with
  | false =>
    have hBk : B.keys ≠ [] := by
      intro h; rw [(items_noop hy).2 h] at hyn; simp at hyn
    have hxn : x.noop = false := by
      cases hxn : x.noop with
      | false => rfl
      | true => exact absurd (hk ((items_noop hx).1 hxn)) hBk
    exact hline false _ F.good.1.finished hxn hyn
  | true =>
    cases hxn : x.noop with
    | false => exact F.mixed x y hxy (by rw [kA x hx, kB y hy]) hxn hyn hyd
    | true => exact hline true _ F.good.1.nooped hxn hyn

end Verif.Batcher

import Verif.Whole.Rest
import Verif.Whole.Spec
/-
What a consumer does by itself comes to an end.
-/
set_option linter.unusedSimpArgs false
namespace Verif.Whole
open Verif.Eos (Ev Pool)
open Verif.Effects (Inc)
open Verif.Worker (PW It)

variable {c : Eos.Cfg} {ecap : Nat} {src : Nat → List Nat} {w w' : Group} {k : Nat}

/-! ### Sums over the workers -/

/-- What the first `n` workers still have to do. -/
def sumTodo (f : Nat → PW) (n : Nat) : Nat := ((List.range n).map fun j => (Worker.todo (f j)).toNat).sum

theorem sum_le {n : Nat} {f g : Nat → PW} (h : ∀ j, j < n → Worker.todo (g j) ≤ Worker.todo (f j)) : sumTodo g n ≤ sumTodo f n := by
  unfold sumTodo
  induction n with
  | zero => simp
  | succ n ih =>
    simp only [List.range_succ, List.map_append, List.map_cons, List.map_nil, List.sum_append, List.sum_cons, List.sum_nil]
    have := ih fun j hj => h j (by omega)
    have := h n (by omega)
    omega

theorem sum_lt {n i : Nat} {f g : Nat → PW} (h : ∀ j, j < n → Worker.todo (g j) ≤ Worker.todo (f j)) (hi : i < n)
    (h0 : 0 ≤ Worker.todo (g i)) (hlt : Worker.todo (g i) < Worker.todo (f i)) : sumTodo g n + 1 ≤ sumTodo f n := by
  unfold sumTodo
  induction n with
  | zero => omega
  | succ n ih =>
    simp only [List.range_succ, List.map_append, List.map_cons, List.map_nil, List.sum_append, List.sum_cons, List.sum_nil]
    have h2 := h n (by omega)
    by_cases hin : i = n
    · subst hin
      have := sum_le (n := i) (f := f) (g := g) fun j hj => h j (by omega)
      unfold sumTodo at this
      omega
    · have := ih (fun j hj => h j (by omega)) (by omega)
      omega

theorem sum_upd {n i : Nat} {cw : Worker.Cfg} {f : Nat → PW} {s : PW} {l : Worker.Label} (hr : ∀ j, Worker.Reach cw (f j)) (hi : i < n)
    (hs : Worker.step cw (f i) l = some s) (hl : Worker.internal l = true) : sumTodo (Eos.upd f i s) n + 1 ≤ sumTodo f n := by
  have hlt := Worker.todo_lt (hr i) hs hl
  refine sum_lt (i := i) ?_ hi ?_ ?_
  · intro j _
    by_cases hj : j = i
    · subst hj; rw [upd_self]; omega
    · rw [upd_other _ _ hj]
  · rw [upd_self]; exact Worker.todo_nonneg (Worker.invB_reach (.step l (hr i) hs))
  · rw [upd_self]; exact hlt

/-- A step of one worker, if it is possible. -/
theorem try_step {cw : Worker.Cfg} {f : Nat → PW} (hr : ∀ j, Worker.Reach cw (f j)) (i : Nat) {l : Worker.Label} (hl : Worker.internal l = true) :
    (∀ j, Worker.Reach cw (Eos.upd f i ((Worker.step cw (f i) l).getD (f i)) j)) ∧
    ∀ j, Worker.todo (Eos.upd f i ((Worker.step cw (f i) l).getD (f i)) j) ≤ Worker.todo (f j) := by
  constructor
  · intro j
    by_cases hj : j = i
    · subst hj
      rw [upd_self]
      cases hs : Worker.step cw (f j) l with
      | none => exact hr j
      | some s => exact .step l (hr j) hs
    · rw [upd_other _ _ hj]; exact hr j
  · intro j
    by_cases hj : j = i
    · subst hj
      rw [upd_self]
      cases hs : Worker.step cw (f j) l with
      | none => exact Int.le_refl _
      | some s => exact Int.le_of_lt (Worker.todo_lt (hr j) hs hl)
    · rw [upd_other _ _ hj]

theorem rooted_todo {cw : Worker.Cfg} (es : List Ev) {f : Nat → PW} (hr : ∀ j, Worker.Reach cw (f j)) :
    ∀ j, Worker.todo (rooted cw f es j) ≤ Worker.todo (f j) := by
  unfold rooted
  induction es generalizing f with
  | nil => intro j; exact Int.le_refl _
  | cons e es ih =>
    intro j
    obtain ⟨h1, h2⟩ := try_step hr (owner e) (l := .root) rfl
    rw [List.foldl_cons]
    exact Int.le_trans (ih h1 j) (h2 j)

/-! ### Steps that do not belong to the consumer -/

/-- Nothing changes for consumer `k`. -/
structure Same (w w' : Group) (k : Nat) : Prop where
  inst : w'.inst k = w.inst k
  wks : w'.wks k = w.wks k
  nw : w'.nw k = w.nw k
  dead : w'.dead k = w.dead k
  n : w.n ≤ w'.n

theorem same_set {k' j : Nat} {s : PW} (h : k' ≠ k) : Same w (w.set k' j s) k :=
  ⟨rfl, upd_other _ _ (Ne.symm h), rfl, rfl, Nat.le_refl _⟩

theorem same_move {k' : Nat} {i : Inc} (h : k' ≠ k) : Same w (w.move k' i) k :=
  ⟨upd_other _ _ (Ne.symm h), rfl, rfl, rfl, Nat.le_refl _⟩

theorem same_setAll {k' : Nat} {f : Nat → PW} (h : k' ≠ k) : Same w (w.setAll k' f) k :=
  ⟨rfl, upd_other _ _ (Ne.symm h), rfl, rfl, Nat.le_refl _⟩

theorem Same.trans {w'' : Group} (h : Same w w' k) (h' : Same w' w'' k) : Same w w'' k :=
  ⟨h'.inst.trans h.inst, h'.wks.trans h.wks, h'.nw.trans h.nw, h'.dead.trans h.dead, Nat.le_trans h.n h'.n⟩

theorem aside_same {a : Act} (ha : aside k a = true) (h : step c ecap src w a = some w') :
    Same w w' k ∨ (∃ tp, a = .revoke k tp) ∨ ∃ j it v, a = .emit k j it v := by
  cases a with
  | start => cases h; exact .inl ⟨rfl, rfl, rfl, rfl, Nat.le_succ _⟩
  | crash k' =>
    have hk : k' ≠ k := by simpa [aside] using ha
    simp only [step] at h; split at h
    · cases h; exact .inl ⟨rfl, rfl, rfl, upd_other _ _ (Ne.symm hk), Nat.le_refl _⟩
    · cases h
  | assign k' tp f =>
    have hk : k' ≠ k := by simpa [aside] using ha
    simp only [step] at h; split at h
    · cases h; exact .inl ⟨rfl, rfl, upd_other _ _ (Ne.symm hk), rfl, Nat.le_refl _⟩
    · cases h
  | revoke k' tp =>
    by_cases hk : k' = k
    · subst hk; exact .inr (.inl ⟨tp, rfl⟩)
    · left
      simp only [step] at h; split at h
      · split at h
        · obtain ⟨s, _, rfl⟩ := Option.map_eq_some_iff.1 h
          have := same_set (w := w) (s := s) (j := ‹Nat›) hk
          exact ⟨this.inst, this.wks, this.nw, this.dead, this.n⟩
        · cases h
      · cases h
  | fetch k' j recs =>
    have hk : k' ≠ k := by simpa [aside] using ha
    simp only [step] at h; split at h
    · obtain ⟨s, _, rfl⟩ := Option.map_eq_some_iff.1 h
      exact .inl (same_set hk)
    · cases h
  | ready k' j wm =>
    have hk : k' ≠ k := by simpa [aside] using ha
    simp only [step] at h; split at h
    · obtain ⟨s, _, rfl⟩ := Option.map_eq_some_iff.1 h
      exact .inl (same_set hk)
    · cases h
  | own k' j l =>
    have hk : k' ≠ k := by simpa [aside] using ha
    simp only [step] at h; split at h
    · obtain ⟨s, _, h2⟩ := Option.bind_eq_some_iff.1 h
      split at h2
      · cases h2; exact .inl (same_set hk)
      · obtain ⟨p, _, rfl⟩ := Option.map_eq_some_iff.1 h2
        exact .inl ((same_set hk).trans (same_move hk))
    · cases h
  | forward k' j =>
    have hk : k' ≠ k := by simpa [aside] using ha
    simp only [step] at h; split at h
    · split at h
      · split at h
        · split at h
          · obtain ⟨s, _, rfl⟩ := Option.map_eq_some_iff.1 h
            exact .inl (same_set hk)
          · cases h
        · obtain ⟨p, _, h2⟩ := Option.bind_eq_some_iff.1 h
          obtain ⟨s, _, rfl⟩ := Option.map_eq_some_iff.1 h2
          exact .inl ((same_set hk).trans (same_move hk))
      · cases h
    · cases h
  | emit k' j it v =>
    by_cases hk : k' = k
    · subst hk; exact .inr (.inr ⟨j, it, v, rfl⟩)
    · left
      simp only [step] at h; split at h
      · obtain ⟨p, _, rfl⟩ := Option.map_eq_some_iff.1 h
        exact same_move hk
      · cases h
  | wait k' =>
    have hk : k' ≠ k := by simpa [aside] using ha
    simp only [step] at h; split at h
    · obtain ⟨p, _, rfl⟩ := Option.map_eq_some_iff.1 h
      split
      · exact .inl ((same_setAll hk).trans (same_move hk))
      · exact .inl (same_move hk)
    · cases h
  | endTxn k' order =>
    have hk : k' ≠ k := by simpa [aside] using ha
    simp only [step] at h; split at h
    · obtain ⟨p, _, rfl⟩ := Option.map_eq_some_iff.1 h
      split
      · exact .inl ((same_setAll hk).trans (same_move hk))
      · exact .inl (same_move hk)
    · cases h
  | pool k' l =>
    have hk : k' ≠ k := by simpa [aside] using ha
    simp only [step] at h; split at h
    · obtain ⟨p, _, rfl⟩ := Option.map_eq_some_iff.1 h
      exact .inl (same_move hk)
    · cases h

/-! ### The measure -/

/-- What is left to do in consumer `k`. -/
def Left (c : Eos.Cfg) (w : Group) (k m : Nat) : Prop :=
  ∃ a, Eos.AReach c a ∧ Eos.R c.poolSize (w.inst k).pool a ∧ m = Live.measA c a + 23 * sumTodo (w.wks k) (w.nw k)

theorem set_row (w : Group) (k j : Nat) (s : PW) : (w.set k j s).wks k = Eos.upd (w.wks k) j s := upd_self _ _ _

theorem move_inst (w : Group) (k : Nat) (i : Inc) : (w.move k i).inst k = i := upd_self _ _ _

theorem left_work {m j : Nat} {s : PW} {l : Worker.Label} (B : Base c ecap src w) (hm : Left c w k m) (hj : j < w.nw k)
    (hs : Worker.step (wcfg c ecap) (w.wks k j) l = some s) (hl : Worker.internal l = true) : ∃ m', m' < m ∧ Left c (w.set k j s) k m' := by
  obtain ⟨a, h1, h2, rfl⟩ := hm
  have := sum_upd (n := w.nw k) (fun j => B.wr k j) hj hs hl
  refine ⟨_, ?_, a, h1, h2, rfl⟩
  rw [set_row]
  change _ + 23 * sumTodo _ (w.nw k) < _
  omega

/-- A step of a worker together with one of the pool that adds little. -/
theorem left_both {m j d : Nat} {s : PW} {l : Worker.Label} {el : Eos.Label} {p : Pool} (hn : 0 < c.poolSize) (B : Base c ecap src w)
    (hm : Left c w k m) (hj : j < w.nw k) (hs : Worker.step (wcfg c ecap) (w.wks k j) l = some s) (hl : Worker.internal l = true)
    (hne : el ≠ .commitFail true) (hp : Eos.step c (w.inst k).pool el = some p) (hd : d < 23)
    (hM : ∀ a a', Eos.AReach c a → Eos.Base c.poolSize a → Eos.astep c a el = some a' → Live.measA c a' ≤ Live.measA c a + d) :
    ∃ m', m' < m ∧ Left c ((w.set k j s).move k { w.inst k with pool := p }) k m' := by
  obtain ⟨a, h1, h2, rfl⟩ := hm
  have hsum := sum_upd (n := w.nw k) (fun j => B.wr k j) hj hs hl
  have Ba := Eos.base_reach hn h1
  obtain ⟨a', h3, h4⟩ := Eos.sim_step hn el hne Ba (Eos.order_reach hn h1) h2 hp
  have := hM a a' h1 Ba h3
  refine ⟨_, ?_, a', .step _ h1 h3, by rw [move_inst]; exact h4, rfl⟩
  change _ + 23 * sumTodo ((w.set k j s).wks k) (w.nw k) < _
  rw [set_row]
  omega

theorem counts_of {p : Pool} {a a' : Eos.A} {l : Eos.Label} (hn : 0 < c.poolSize) (h : Eos.AReach c a) (r : Eos.R c.poolSize p a)
    (hl : runs c p l = true) (hs : Eos.astep c a l = some a') : Live.Counts c a l := by
  have B := Eos.base_reach hn h
  cases l with
  | add => cases hl
  | complete => cases hl
  | produce => cases hl
  | commitFail => cases hl
  | asyncFail => cases hl
  | tick =>
    have hf : a.fwd = .idle := by
      unfold Eos.astep at hs; simp only at hs
      split at hs
      · rename_i hf; exact hf
      · cases hs
    simp only [runs, decide_eq_true_eq] at hl
    have hcn := Live.cnt_gen B (by rw [hf]; simp)
    have ht := Eos.top_of_ne (a := a) (by rw [hf]; simp)
    have hw := B.win
    have hq : p.cq.length = a.top - a.st := by rw [r.cq]; simp
    have h2 : (p.nodes p.onDeck).cnt = (a.nodes a.gen).cnt := by
      rw [r.onDeck, r.nodes a.gen (by omega) hw.2]
    unfold Live.Counts
    rw [← hcn, ← h2, ← ht, ← hq]
    exact hl
  | _ => trivial

theorem left_pool {m : Nat} {f : Nat → PW} {l : Eos.Label} {p : Pool} (hn : 0 < c.poolSize) (hm : Left c w k m)
    (hf : ∀ j, Worker.todo (f j) ≤ Worker.todo (w.wks k j)) (hl : runs c (w.inst k).pool l = true)
    (hp : Eos.step c (w.inst k).pool l = some p) : ∃ m', m' < m ∧ Left c ((w.setAll k f).move k { w.inst k with pool := p }) k m' := by
  obtain ⟨a, h1, h2, rfl⟩ := hm
  have hne : l ≠ .commitFail true := by rintro rfl; cases hl
  have Ba := Eos.base_reach hn h1
  obtain ⟨a', h3, h4⟩ := Eos.sim_step hn l hne Ba (Eos.order_reach hn h1) h2 hp
  have h5 := Live.astep_meas Ba (counts_of hn h1 h2 hl h3) h3
  have h6 := sum_le (n := w.nw k) fun j _ => hf j
  refine ⟨_, ?_, a', .step _ h1 h3, by rw [move_inst]; exact h4, rfl⟩
  have : ((w.setAll k f).move k { w.inst k with pool := p }).wks k = f := upd_self _ _ _
  rw [this]
  change _ + 23 * sumTodo f (w.nw k) < _
  omega

theorem setAll_same (w : Group) (k : Nat) : w.setAll k (w.wks k) = w := by
  unfold Group.setAll
  have : Eos.upd w.wks k (w.wks k) = w.wks := by
    funext i
    by_cases h : i = k
    · subst h; exact upd_self _ _ _
    · exact upd_other _ _ h
  rw [this]

theorem internal_left {a : Act} {m : Nat} (hn : 0 < c.poolSize) (hr : Reach c ecap src w) (hm : Left c w k m) (ha : internal c w k a = true)
    (h : step c ecap src w a = some w') : ∃ m', m' < m ∧ Left c w' k m' := by
  have B := base_reach hr
  cases a with
  | ready k' j wm =>
    have hk : k' = k := by simpa [internal] using ha
    subst hk
    simp only [step] at h; split at h
    · rename_i hg
      obtain ⟨s, h1, rfl⟩ := Option.map_eq_some_iff.1 h
      exact left_work B hm hg.2.1 h1 rfl
    · cases h
  | own k' j l =>
    simp only [internal, Bool.and_eq_true, decide_eq_true_eq] at ha
    obtain ⟨rfl, hl⟩ := ha
    simp only [step] at h; split at h
    · rename_i hg
      have hi : Worker.internal l = true := by
        have := hg.2.2.1
        cases l <;> first | rfl | exact hl | cases this
      obtain ⟨s, h1, h2⟩ := Option.bind_eq_some_iff.1 h
      split at h2
      · cases h2; exact left_work B hm hg.2.1 h1 hi
      · obtain ⟨p, h3, rfl⟩ := Option.map_eq_some_iff.1 h2
        exact left_both (d := 0) hn B hm hg.2.1 h1 hi (by simp) h3 (by omega) fun a a' _ _ hs => Nat.le_of_eq (Live.complete_meas hs)
    · cases h
  | forward k' j =>
    have hk : k' = k := by simpa [internal] using ha
    subst hk
    simp only [step] at h; split at h
    · rename_i hg
      split at h
      · split at h
        · split at h
          · obtain ⟨s, h1, rfl⟩ := Option.map_eq_some_iff.1 h
            exact left_work B hm hg.2 h1 rfl
          · cases h
        · obtain ⟨p, h1, h2⟩ := Option.bind_eq_some_iff.1 h
          obtain ⟨s, h3, rfl⟩ := Option.map_eq_some_iff.1 h2
          exact left_both (d := 22) hn B hm hg.2 h3 rfl (by simp) h1 (by omega) fun a a' _ hB hs => Live.add_meas hB hs
      · cases h
    · cases h
  | wait k' =>
    have hk : k' = k := by simpa [internal] using ha
    subst hk
    simp only [step] at h; split at h
    · obtain ⟨p, h1, rfl⟩ := Option.map_eq_some_iff.1 h
      split
      · rename_i e _ _ _ _
        exact left_pool hn hm (try_step (fun j => B.wr k' j) (owner e) (l := .finalize (number e)) rfl).2 rfl h1
      · have := left_pool (f := w.wks k') hn hm (fun j => Int.le_refl _) (l := .wait) rfl h1
        rw [setAll_same] at this
        exact this
    · cases h
  | endTxn k' order =>
    have hk : k' = k := by simpa [internal] using ha
    subst hk
    simp only [step] at h; split at h
    · obtain ⟨p, h1, rfl⟩ := Option.map_eq_some_iff.1 h
      split
      · exact left_pool hn hm (rooted_todo _ fun j => B.wr k' j) rfl h1
      · have := left_pool (f := w.wks k') hn hm (fun j => Int.le_refl _) (l := .endTxn order) rfl h1
        rw [setAll_same] at this
        exact this
    · cases h
  | pool k' l =>
    simp only [internal, Bool.and_eq_true, decide_eq_true_eq] at ha
    obtain ⟨rfl, hl⟩ := ha
    simp only [step] at h; split at h
    · obtain ⟨p, h1, rfl⟩ := Option.map_eq_some_iff.1 h
      have := left_pool (f := w.wks k') hn hm (fun j => Int.le_refl _) hl h1
      rw [setAll_same] at this
      exact this
    · cases h
  | start => cases ha
  | assign => cases ha
  | revoke => cases ha
  | fetch => cases ha
  | emit => cases ha
  | crash => cases ha

theorem aside_left {a : Act} {m : Nat} (hn : 0 < c.poolSize) (hm : Left c w k m) (ha : aside k a = true)
    (h : step c ecap src w a = some w') : Left c w' k m := by
  rcases aside_same ha h with S | ⟨tp, rfl⟩ | ⟨j, it, v, rfl⟩
  · obtain ⟨a, h1, h2, h3⟩ := hm
    exact ⟨a, h1, by rw [S.inst]; exact h2, by rw [S.wks, S.nw]; exact h3⟩
  · obtain ⟨a, h1, h2, h3⟩ := hm
    simp only [step] at h; split at h
    · split at h
      · rename_i j hj
        simp only [Worker.step, Option.map_some, Option.some.injEq] at h
        subst h
        refine ⟨a, h1, h2, ?_⟩
        rw [h3]
        have : sumTodo (Eos.upd (w.wks k) j { w.wks k j with revoked := true }) (w.nw k) = sumTodo (w.wks k) (w.nw k) := by
          unfold sumTodo
          congr 1
          apply List.map_congr_left
          intro i _
          by_cases hi : i = j
          · subst hi; rw [upd_self]; rfl
          · rw [upd_other _ _ hi]
        rw [← this]
        show _ = _ + 23 * sumTodo ((w.set k j _).wks k) (w.nw k)
        rw [set_row]
      · cases h
    · cases h
  · obtain ⟨a, h1, h2, h3⟩ := hm
    simp only [step] at h; split at h
    · obtain ⟨p, hp, rfl⟩ := Option.map_eq_some_iff.1 h
      obtain ⟨a', h4, h5⟩ := Eos.sim_step hn _ (by simp) (Eos.base_reach hn h1) (Eos.order_reach hn h1) h2 hp
      refine ⟨a', .step _ h1 h4, by rw [move_inst]; exact h5, ?_⟩
      rw [h3, Live.produce_meas h4]
      rfl
    · cases h

theorem calm_reach {n : Nat} (hr : Reach c ecap src w) (h : Calm c ecap src k w n w') : Reach c ecap src w' := by
  induction h with
  | start => exact hr
  | next a _ _ hs ih => exact .step a ih hs
  | aside a _ _ hs ih => exact .step a ih hs

theorem calm_left {n m : Nat} (hn : 0 < c.poolSize) (hr : Reach c ecap src w) (hm : Left c w k m) (h : Calm c ecap src k w n w') :
    ∃ m', n + m' ≤ m ∧ Left c w' k m' := by
  induction h with
  | start => exact ⟨m, by omega, hm⟩
  | next a hc ha hs ih =>
    obtain ⟨m1, h1, h2⟩ := ih
    obtain ⟨m2, h3, h4⟩ := internal_left hn (calm_reach hr hc) h2 ha hs
    exact ⟨m2, by omega, h4⟩
  | aside a hc ha hs ih =>
    obtain ⟨m1, h1, h2⟩ := ih
    exact ⟨m1, h1, aside_left hn h2 ha hs⟩

theorem calm_bounded (hn : 0 < c.poolSize) (hr : Reach c ecap src w) (k : Nat) : ∃ N, ∀ n w', Calm c ecap src k w n w' → n ≤ N := by
  obtain ⟨a, h1, h2⟩ := Eos.sim_reach hn ((base_reach hr).pr k)
  refine ⟨Live.measA c a + 23 * sumTodo (w.wks k) (w.nw k), fun n w' h => ?_⟩
  obtain ⟨m', h3, _⟩ := calm_left hn hr ⟨a, h1, h2, rfl⟩ h
  omega

end Verif.Whole

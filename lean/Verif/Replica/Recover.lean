import Verif.Replica.Cycle
import Verif.Replica.Proofs
/-
Proofs for C110: what a new consumer can do.
-/
namespace Verif.Replica
open Verif.Eos Verif.Effects Verif.Fleet

variable {σ X : Type} {c : Cfg} {a : Exact.App σ X} {src : Nat → List Nat} {val : Nat → Nat → X} {w w' : W σ}

theorem Later.trans {w1 w2 w3 : W σ} (h : Later c a src val w1 w2) (h' : Later c a src val w2 w3) : Later c a src val w1 w3 := by
  induction h' with
  | refl => exact h
  | step x _ ho hs ih => exact .step x ih ho hs

theorem Later.calm (hw : Calm c a src val w) (h : Later c a src val w w') : Calm c a src val w' := by
  induction h with
  | refl => exact hw
  | step x _ ho hs ih => exact .step x ih ho hs

theorem Later.one {x : Act} (ho : Orderly w x) (hs : Verif.Replica.step c a src val w x = some w') : Later c a src val w w' := .step x .refl ho hs

/-- Which consumers live, and the work, events and handlers of consumer `k`, are the same. -/
structure Same (k : Nat) (w w' : W σ) : Prop where
  n : w'.g.n = w.g.n
  dead : w'.g.dead = w.g.dead
  work : w'.g.work k = w.g.work k
  queue : w'.queue k = w.queue k
  cur : w'.cur k = w.cur k

theorem Same.refl (k : Nat) (w : W σ) : Same k w w := ⟨rfl, rfl, rfl, rfl, rfl⟩

theorem Same.trans {k : Nat} {w1 w2 w3 : W σ} (h : Same k w1 w2) (h' : Same k w2 w3) : Same k w1 w3 :=
  ⟨h'.n.trans h.n, h'.dead.trans h.dead, h'.work.trans h.work, h'.queue.trans h.queue, h'.cur.trans h.cur⟩

theorem alive_same (hn : w'.g.n = w.g.n) (hd : w'.g.dead = w.g.dead) (j : Nat) : w'.g.alive j = w.g.alive j := by
  unfold World.alive; rw [hn, hd]

/-- A step of the pool of a living consumer. -/
theorem lift_one {k : Nat} (hk : w.g.alive k = true) {l : Label} (hi : internal l = true) (ho : other l = true) {p : Pool}
    (hs : Eos.step c (w.g.inst k).pool l = some p) :
    ∃ w', Later c a src val w w' ∧ (w'.g.inst k).pool = p ∧ Same k w w' := by
  have h1 : step c a src val w (.pool k l) = some (w.go k (w.g.move k { w.g.inst k with pool := p })) := by
    simp only [step, if_pos ho, Fleet.step, if_pos (⟨hk, hi⟩ : _ ∧ _), hs, Option.map_some]
  refine ⟨_, .one (x := .pool k l) trivial h1, ?_, ⟨rfl, rfl, rfl, rfl, rfl⟩⟩
  show (upd w.g.inst k _ k).pool = p
  rw [upd_self]

theorem lift_auto {k : Nat} {ls : List Label} (hl : ∀ l ∈ ls, Auto l = true) :
    ∀ {w : W σ} {p : Pool}, w.g.alive k = true → Eos.run c (w.g.inst k).pool ls = some p →
    ∃ w', Later c a src val w w' ∧ (w'.g.inst k).pool = p ∧ Same k w w' := by
  induction ls with
  | nil =>
    intro w p _ hr
    cases hr
    exact ⟨w, .refl, rfl, .refl k w⟩
  | cons l ls ih =>
    intro w p hk hr
    simp only [Eos.run] at hr
    obtain ⟨p1, h1, h2⟩ := Option.bind_eq_some_iff.1 hr
    have hA : Auto l = true := hl l (by simp)
    obtain ⟨w1, L1, e1, S1⟩ := lift_one (a := a) (src := src) (val := val) hk (l := l) (by cases l <;> first | rfl | cases hA)
      (by cases l <;> first | rfl | cases hA) h1
    obtain ⟨w2, L2, e2, S2⟩ := ih (fun x hx => hl x (by simp [hx])) (w := w1) (p := p) (by rw [alive_same S1.n S1.dead]; exact hk) (by rw [e1]; exact h2)
    exact ⟨w2, L1.trans L2, e2, S1.trans S2⟩

/-- Consumer `k` is the only one that lives, and has nothing to do. -/
structure Ready (c : Cfg) (k : Nat) (w : W σ) : Prop where
  alive : w.g.alive k = true
  only : ∀ j, w.g.alive j = true → j = k
  clean : Clean c (w.g.inst k).pool
  queue : ∀ tp, w.queue k tp = []
  cur : ∀ tp, w.cur k tp = none

/-- Consumer `k` is the only one that lives, and handles an event with the records `ys` still to be produced. -/
structure Mid (c : Cfg) (k tp : Nat) (e : Ev) (ys : List Nat) (wk : Nat → Option (List Nat)) (w : W σ) : Prop where
  alive : w.g.alive k = true
  only : ∀ j, w.g.alive j = true → j = k
  one : One c (w.g.inst k).pool .given e
  cur : w.cur k tp = some (e, ys)
  cur' : ∀ tp', tp' ≠ tp → w.cur k tp' = none
  queue : ∀ tp, w.queue k tp = []
  work : w.g.work k = wk
  done : e.id ∉ (w.g.inst k).pool.done

theorem fresh_id (l : List Nat) : ∃ n, n ∉ l := by
  have : ∃ b, ∀ x ∈ l, x < b := by
    induction l with
    | nil => exact ⟨0, by simp⟩
    | cons x l ih =>
      obtain ⟨b, hb⟩ := ih
      refine ⟨max b (x + 1), ?_⟩
      intro y hy
      rcases List.mem_cons.1 hy with rfl | hy
      · omega
      · have := hb y hy; omega
  obtain ⟨b, hb⟩ := this
  exact ⟨b, fun h => Nat.lt_irrefl _ (hb b h)⟩

theorem put_same {α : Type} (f : Nat → Nat → α) (k tp : Nat) (v : α) : put f k tp v k tp = v := by
  rw [put_eq, if_pos ⟨rfl, rfl⟩]

theorem put_other {α : Type} (f : Nat → Nat → α) (k tp : Nat) (v : α) {tp' : Nat} (h : tp' ≠ tp) : put f k tp v k tp' = f k tp' := by
  rw [put_eq, if_neg (fun h' => h h'.2)]

/-- The next record of a partition is handed to the handler. -/
theorem rec_begin {k tp o : Nat} {rest : List Nat} (R : Ready c k w) (hw : w.g.work k tp = some (o :: rest)) :
    ∃ w' e ys, Later c a src val w w' ∧ e.off = some o ∧ Mid c k tp e ys (upd (w.g.work k) tp (some rest)) w' := by
  obtain ⟨id, hid⟩ := fresh_id (((w.g.inst k).pool.added.map fun x => x.1.id) ++ (w.g.inst k).pool.done)
  rw [List.mem_append, not_or] at hid
  obtain ⟨p1, p2, s1, s2, O, d1, d2, -, ha⟩ := cycle_add R.clean (e := ⟨id, tp, some o⟩) hid.1
  have h1 : step c a src val w (.feed k tp id) = some { w.go k ((w.g.move k { w.g.inst k with pool := p1 }).setWork k tp (some rest)) with
      queue := put w.queue k tp (w.queue k tp ++ [⟨id, tp, some o⟩]) } := by
    simp only [step, hw, Fleet.step, if_pos R.alive, s1, Option.map_some]
  have L1 := Later.one (x := .feed k tp id) trivial h1
  have hp1 : (upd w.g.inst k { w.g.inst k with pool := p1 } k).pool = p1 := by rw [upd_self]
  obtain ⟨w2, L2, e2, S2⟩ := lift_one (a := a) (src := src) (val := val)
    (w := { w.go k ((w.g.move k { w.g.inst k with pool := p1 }).setWork k tp (some rest)) with
      queue := put w.queue k tp (w.queue k tp ++ [⟨id, tp, some o⟩]) }) (k := k) R.alive (l := .give) rfl rfl (p := p2) (by
        show Eos.step c (upd w.g.inst k _ k).pool .give = _
        rw [hp1]; exact s2)
  have hc2 : w2.cur k = w.cur k := S2.cur
  have hq2 : w2.queue k = put w.queue k tp (w.queue k tp ++ [⟨id, tp, some o⟩]) k := S2.queue
  have hw2 : w2.g.work k = upd w.g.work k (upd (w.g.work k) tp (some rest)) k := S2.work
  have ha2 : ∀ j, w2.g.alive j = w.g.alive j := alive_same (w := w) S2.n S2.dead
  have hq2' : w2.queue k tp = [⟨id, tp, some o⟩] := by rw [hq2, put_same, R.queue]; rfl
  have h3 : step c a src val w2 (.begin k tp) = some { w2 with
      queue := put w2.queue k tp []
      cur := put w2.cur k tp (some (⟨id, tp, some o⟩, a.handle (w2.st k tp) (val tp o))) } := by
    simp only [step]
    rw [if_pos (by rw [ha2]; exact R.alive), hc2, R.cur, hq2']
    simp only [e2, O.asg, Option.isSome_some, if_true, Option.getD_some]
  refine ⟨_, ⟨id, tp, some o⟩, a.handle (w2.st k tp) (val tp o), (L1.trans L2).trans (.one (x := .begin k tp) trivial h3), rfl, ?_⟩
  refine ⟨(ha2 k).trans R.alive, fun j hj => R.only j ((ha2 j).symm.trans hj), ?_, put_same _ _ _ _, ?_, ?_, ?_, ?_⟩
  · show One c (w2.g.inst k).pool _ _
    rw [e2]; exact O
  · intro tp' ht
    show put w2.cur k tp _ k tp' = none
    rw [put_other _ _ _ _ ht, hc2, R.cur]
  · intro tp'
    show put w2.queue k tp [] k tp' = []
    by_cases ht : tp' = tp
    · subst ht; rw [put_same]
    · rw [put_other _ _ _ _ ht, hq2, put_other _ _ _ _ ht, R.queue]
  · show w2.g.work k = _
    rw [hw2, upd_self]
  · show id ∉ (w2.g.inst k).pool.done
    rw [e2, d2]; exact hid.2

/-- The handler goes on to its end. -/
theorem rec_emit {k tp : Nat} {e : Ev} {wk : Nat → Option (List Nat)} (ys : List Nat) :
    ∀ {w : W σ}, Mid c k tp e ys wk w → ∃ w', Later c a src val w w' ∧ Mid c k tp e [] wk w' := by
  induction ys with
  | nil => intro w M; exact ⟨w, .refl, M⟩
  | cons y ys ih =>
    intro w M
    obtain ⟨p1, s1, O1, d1⟩ := cycle_produce M.one M.done (w.g.inst k).prods.length
    have h1 : step c a src val w (.emit k tp) = some { w.go k (w.g.move k ⟨p1, (w.g.inst k).prods ++ [(e, y)]⟩) with
        st := put w.st k tp (a.apply (w.st k tp) y), cur := put w.cur k tp (some (e, ys)) } := by
      simp only [step, M.cur, Fleet.step, if_pos M.alive, s1, Option.map_some]
    have hp1 : (upd w.g.inst k ⟨p1, (w.g.inst k).prods ++ [(e, y)]⟩ k).pool = p1 := by rw [upd_self]
    have M1 : Mid c k tp e ys wk { w.go k (w.g.move k ⟨p1, (w.g.inst k).prods ++ [(e, y)]⟩) with
        st := put w.st k tp (a.apply (w.st k tp) y), cur := put w.cur k tp (some (e, ys)) } := by
      refine ⟨M.alive, M.only, ?_, put_same _ _ _ _, ?_, M.queue, M.work, ?_⟩
      · show One c (upd w.g.inst k _ k).pool _ _
        rw [hp1]; exact O1
      · intro tp' ht
        show put w.cur k tp _ k tp' = none
        rw [put_other _ _ _ _ ht, M.cur' tp' ht]
      · show e.id ∉ (upd w.g.inst k _ k).pool.done
        rw [hp1, d1]; exact M.done
    obtain ⟨w2, L2, M2⟩ := ih M1
    exact ⟨w2, Later.trans (.one (x := .emit k tp) trivial h1) L2, M2⟩

/-- It returns, and the transaction is committed. -/
theorem rec_finish (hp : 0 < c.pending) {k tp o : Nat} {e : Ev} {wk : Nat → Option (List Nat)} (M : Mid c k tp e [] wk w) (ho : e.off = some o) :
    ∃ w', Later c a src val w w' ∧ Ready c k w' ∧ w'.g.work k = wk := by
  obtain ⟨p1, s1, O1, d1⟩ := cycle_complete M.one M.done
  have h1 : step c a src val w (.finish k tp) = some { w.go k (w.g.move k { w.g.inst k with pool := p1 }) with cur := put w.cur k tp none } := by
    simp only [step, M.cur, Fleet.step, if_pos (⟨M.alive, rfl⟩ : w.g.alive k = true ∧ internal (.complete e) = true), s1, Option.map_some]
  have hp1 : (upd w.g.inst k { w.g.inst k with pool := p1 } k).pool = p1 := by rw [upd_self]
  obtain ⟨ls, p2, A1, r1, e1⟩ := cycle_flush hp O1
  obtain ⟨ms, p3, A2, r2, C⟩ := cycle_commit O1 d1 ho
  obtain ⟨w2, L2, e2, S2⟩ := lift_auto (a := a) (src := src) (val := val) (ls := ls ++ ms) (k := k) (p := p3)
    (w := { w.go k (w.g.move k { w.g.inst k with pool := p1 }) with cur := put w.cur k tp none })
    (by intro l hl; rcases List.mem_append.1 hl with h | h; exacts [A1 l h, A2 l h]) M.alive (by
      show Eos.run c (upd w.g.inst k _ k).pool _ = _
      rw [hp1, run_append, r1, Option.bind_some, e1, r2])
  have ha2 : ∀ j, w2.g.alive j = w.g.alive j := alive_same (w := w) S2.n S2.dead
  refine ⟨w2, Later.trans (.one (x := .finish k tp) trivial h1) L2, ⟨(ha2 k).trans M.alive, fun j hj => M.only j ((ha2 j).symm.trans hj), ?_, ?_, ?_⟩, ?_⟩
  · rw [e2]; exact C
  · intro tp'
    have : w2.queue k = w.queue k := S2.queue
    rw [this]; exact M.queue tp'
  · intro tp'
    have : w2.cur k = put w.cur k tp none k := S2.cur
    rw [this]
    by_cases ht : tp' = tp
    · subst ht; rw [put_same]
    · rw [put_other _ _ _ _ ht, M.cur' tp' ht]
  · have : w2.g.work k = w.g.work k := S2.work
    rw [this]; exact M.work

/-- All records of a partition. -/
theorem rec_all (hp : 0 < c.pending) {k tp : Nat} (l : List Nat) :
    ∀ {w : W σ}, Ready c k w → w.g.work k tp = some l →
    ∃ w', Later c a src val w w' ∧ Ready c k w' ∧ w'.g.work k = upd (w.g.work k) tp (some []) := by
  induction l with
  | nil =>
    intro w R hw
    refine ⟨w, .refl, R, ?_⟩
    funext tp'
    by_cases h : tp' = tp
    · subst h; rw [upd_self, hw]
    · rw [upd_other _ _ h]
  | cons o rest ih =>
    intro w R hw
    obtain ⟨w1, e, ys, L1, ho, M1⟩ := rec_begin (a := a) (src := src) (val := val) R hw
    obtain ⟨w2, L2, M2⟩ := rec_emit (a := a) (src := src) (val := val) ys M1
    obtain ⟨w3, L3, R3, hw3⟩ := rec_finish (a := a) (src := src) (val := val) hp M2 ho
    obtain ⟨w4, L4, R4, hw4⟩ := ih R3 (by rw [hw3, upd_self])
    refine ⟨w4, ((L1.trans L2).trans L3).trans L4, R4, ?_⟩
    rw [hw4, hw3]
    funext tp'
    by_cases h : tp' = tp
    · subst h; rw [upd_self, upd_self]
    · rw [upd_other _ _ h, upd_other _ _ h, upd_other _ _ h]

theorem clean_not_busy (hn : 0 < c.poolSize) {i : Inc} (C : Core c i) (h : Clean c i.pool) (tp : Nat) : ¬ Busy i tp := by
  rintro ⟨e, g, h1, -, h3, h4⟩
  cases ho : e.off with
  | none => exact h3 ho
  | some o =>
    obtain ⟨g', h5, h6⟩ := (committed_lt hn C.reach ho).2 ⟨g, h.all _ h1, h1⟩
    have := (C04_in_order hn C.reach).2.2.2
    have he : (e, g) = (e, g') := List.inj_on_of_nodup_map this h1 h5 rfl
    cases he
    exact h4 h6

theorem wm_mem (g : Fleet.World) (tp : Nat) : g.wm tp ∈ 0 :: g.log tp := by
  unfold Fleet.World.wm
  cases h : (g.log tp).getLast? with
  | none => simp
  | some x => exact List.mem_cons_of_mem _ (List.mem_of_getLast? h)

/-- The partitions of a list, one after the other. -/
theorem rec_parts (hn : 0 < c.poolSize) (hp : 0 < c.pending) (hsrc : ∀ tp, (src tp).Pairwise (· < ·)) {k : Nat} (tps : List Nat) :
    ∀ {w : W σ}, Calm c a src val w → Ready c k w → (∀ tp, w.g.work k tp = none ∨ w.g.work k tp = some []) →
    ∃ w', Later c a src val w w' ∧ Ready c k w' ∧ (∀ tp ∈ tps, w'.g.work k tp = some []) ∧
      (∀ tp, w.g.work k tp = some [] → w'.g.work k tp = some []) := by
  induction tps with
  | nil => intro w _ R _; exact ⟨w, .refl, R, by simp, fun _ h => h⟩
  | cons tp tps ih =>
    intro w hc R hw
    have key : ∃ w1, Later c a src val w w1 ∧ Ready c k w1 ∧ w1.g.work k = upd (w.g.work k) tp (some []) := by
      rcases hw tp with h0 | h0
      · have hx : Fleet.step c src w.g (.assign k tp (w.g.wm tp)) =
            some (w.g.setWork k tp (some ((src tp).filter fun o => w.g.wm tp ≤ o))) := by
          simp only [Fleet.step]
          rw [if_pos ⟨R.alive, h0, wm_mem w.g tp⟩]
        have h1 : step c a src val w (.assign k tp) = some { w with
            g := w.g.setWork k tp (some ((src tp).filter fun o => w.g.wm tp ≤ o)),
            st := put w.st k tp ((w.vis tp).foldl a.apply a.s0), queue := put w.queue k tp [], cur := put w.cur k tp none } := by
          simp only [step, hx, Option.map_some]
        have ho : Orderly w (.assign k tp) := by
          intro j hj
          have := R.only j hj
          subst this
          exact ⟨h0, clean_not_busy hn (cores hn (inv_calm hn hsrc hc).calm.reach j) R.clean tp⟩
        have R1 : Ready c k { w with
            g := w.g.setWork k tp (some ((src tp).filter fun o => w.g.wm tp ≤ o)),
            st := put w.st k tp ((w.vis tp).foldl a.apply a.s0), queue := put w.queue k tp [], cur := put w.cur k tp none } := by
          refine ⟨R.alive, R.only, R.clean, ?_, ?_⟩
          · intro tp'
            show put w.queue k tp [] k tp' = []
            by_cases ht : tp' = tp
            · subst ht; rw [put_same]
            · rw [put_other _ _ _ _ ht, R.queue]
          · intro tp'
            show put w.cur k tp none k tp' = none
            by_cases ht : tp' = tp
            · subst ht; rw [put_same]
            · rw [put_other _ _ _ _ ht, R.cur]
        obtain ⟨w2, L2, R2, hw2⟩ := rec_all (a := a) (src := src) (val := val) hp ((src tp).filter fun o => w.g.wm tp ≤ o) R1 (tp := tp) (by
          show (w.g.setWork k tp _).work k tp = _
          rw [setWork_work, if_pos ⟨rfl, rfl⟩])
        refine ⟨w2, Later.trans (.one ho h1) L2, R2, ?_⟩
        rw [hw2]
        funext tp'
        by_cases ht : tp' = tp
        · subst ht; rw [upd_self, upd_self]
        · rw [upd_other _ _ ht, upd_other _ _ ht]
          show (w.g.setWork k tp _).work k tp' = _
          rw [setWork_work, if_neg (fun h => ht h.2)]
      · refine ⟨w, .refl, R, ?_⟩
        funext tp'
        by_cases h : tp' = tp
        · subst h; rw [upd_self, h0]
        · rw [upd_other _ _ h]
    obtain ⟨w1, L1, R1, hw1⟩ := key
    obtain ⟨w2, L2, R2, h2, h3⟩ := ih (L1.calm hc) R1 (by
      intro tp'
      rw [hw1]
      by_cases h : tp' = tp
      · subst h; rw [upd_self]; exact .inr rfl
      · rw [upd_other _ _ h]; exact hw tp')
    refine ⟨w2, L1.trans L2, R2, ?_, ?_⟩
    · intro tp' ht
      rcases List.mem_cons.1 ht with rfl | ht
      · exact h3 _ (by rw [hw1, upd_self])
      · exact h2 _ ht
    · intro tp' ht
      apply h3
      rw [hw1]
      by_cases h : tp' = tp
      · subst h; rw [upd_self]
      · rw [upd_other _ _ h]; exact ht

/-- All consumers die. -/
theorem all_die (m : Nat) : ∃ w', Later c a src val w w' ∧ w'.g.n = w.g.n ∧ (∀ j, j < m → w'.g.alive j = false) := by
  induction m with
  | zero => exact ⟨w, .refl, rfl, by simp⟩
  | succ m ih =>
    obtain ⟨w1, L1, n1, h1⟩ := ih
    cases hm : w1.g.alive m with
    | false =>
      refine ⟨w1, L1, n1, ?_⟩
      intro j hj
      by_cases h : j = m
      · subst h; exact hm
      · exact h1 j (by omega)
    | true =>
      have h2 : step c a src val w1 (.crash m) = some { w1 with g := { w1.g with dead := upd w1.g.dead m true } } := by
        simp only [step, Fleet.step, hm, if_true, Option.map_some]
      refine ⟨_, .step (.crash m) L1 trivial h2, n1, ?_⟩
      intro j hj
      show (decide (j < w1.g.n) && !(upd w1.g.dead m true j)) = false
      by_cases h : j = m
      · subst h; rw [upd_self]; simp
      · rw [upd_other _ _ h]; exact h1 j (by omega)

theorem unborn_not_dead (hn : 0 < c.poolSize) {g : Fleet.World} (h : Fleet.Reach c src g) : ∀ k, g.n ≤ k → g.dead k = false := by
  induction h with
  | init => intro k _; rfl
  | @step g g' x hr hs ih =>
    rcases step_cases hn (cores hn hr) hs with ⟨-, rfl⟩ | ⟨k, tp, x, -, -, -, -, rfl⟩ | ⟨k, tp, -, -, rfl⟩ | ⟨k, tp, id, o, rest, i', -, -, -, A, rfl⟩ |
      ⟨k, tp, id, i', -, -, A, rfl⟩ | ⟨k, i', -, -, G, rfl⟩ | ⟨k, -, hk, rfl⟩
    · intro k hk; exact ih k (by have : g.n + 1 ≤ k := hk; omega)
    · exact ih
    · exact ih
    · exact ih
    · exact ih
    · exact ih
    · intro j hj
      have h1 := (alive_lt hk).1
      have h2 : g.n ≤ j := hj
      show upd g.dead k true j = false
      rw [upd_other _ _ (by omega)]
      exact ih j h2

/-- A new consumer takes the place of all others. -/
theorem takes_over (hn : 0 < c.poolSize) (hsrc : ∀ tp, (src tp).Pairwise (· < ·)) (h : Calm c a src val w) :
    ∃ w', Later c a src val w w' ∧ Ready c w.g.n w' ∧ ∀ tp, w'.g.work w.g.n tp = none := by
  obtain ⟨w1, L1, n1, h1⟩ := all_die (c := c) (a := a) (src := src) (val := val) (w := w) w.g.n
  have h2 : step c a src val w1 .start = some { w1 with g := { w1.g with n := w1.g.n + 1 } } := rfl
  have I := inv_calm hn hsrc (L1.calm h)
  obtain ⟨last, O⟩ := once_calm hn hsrc I.calm
  have hin : w1.g.inst w.g.n = Inc.start c := O.unborn _ (by omega)
  have hdead := unborn_not_dead hn I.calm.reach w.g.n (by omega)
  have hcell : ∀ tp, w1.cur w.g.n tp = none ∧ w1.queue w.g.n tp = [] := by
    intro tp
    obtain ⟨fin, pre, K⟩ := I.cells w.g.n tp
    refine todo_nil (idle_cell hn (cores hn I.calm.reach w.g.n) K ?_)
    rw [hin]
    rintro ⟨e, g, h3, -⟩
    simp [Inc.start, Pool.init] at h3
  refine ⟨_, .step .start L1 trivial h2, ⟨?_, ?_, ?_, fun tp => (hcell tp).2, fun tp => (hcell tp).1⟩, fun tp => O.fut _ tp (by omega)⟩
  · show (decide (w.g.n < w1.g.n + 1) && !(w1.g.dead w.g.n)) = true
    rw [hdead]; simp; omega
  · intro j hj
    by_contra hne
    have hj' : (decide (j < w1.g.n + 1) && !(w1.g.dead j)) = true := hj
    have h3 := Bool.and_eq_true_iff.1 hj'
    have h4 : j < w1.g.n + 1 := by simpa using h3.1
    have h5 := h1 j (by omega)
    have h6 : (decide (j < w1.g.n) && !(w1.g.dead j)) = false := h5
    have h7 : j < w1.g.n := by omega
    simp [h7, h3.2] at h6
  · show Clean c (w1.g.inst w.g.n).pool
    rw [hin]; exact clean_init hn

end Verif.Replica

import Verif.Effects.Proofs
import Mathlib.Data.Nat.Find
/-
Property C76: exactly-once effects with asynchronous handlers, interjections, many partitions and crashes, for every number of transactional
producers, every batch size, every interleaving, every application and every source topic with increasing offsets.
-/
namespace Verif.Effects
open Verif.Eos Verif.Exact

variable {c : Cfg} {src : Nat → List Nat}

/-! ### A run that meets the hypotheses

Partition 5 has records at 10, 12 and 17, partition 6 one at 3. In the first incarnation 10, an interjection and 12 are added; they are completed
in the other order; the transaction of 12 is not committed. The second incarnation starts at 12 and commits it together with the record of
partition 6. -/

def demoSrc : Nat → List Nat := fun tp => if tp = 5 then [10, 12, 17] else if tp = 6 then [3] else []

def first : List Act :=
  [.feed 5 0, .pool .give, .emit ⟨0, 5, some 10⟩ 100, .pool .check, .interject 5 1, .pool .give, .emit ⟨1, 5, none⟩ 150, .emit ⟨0, 5, some 10⟩ 101,
   .pool .check, .pool .tryFlush, .pool .swapIn, .feed 5 2, .pool .give, .emit ⟨2, 5, some 12⟩ 200, .pool .take, .pool (.beginCommit [5]),
   .pool .wait, .pool (.complete ⟨1, 5, none⟩), .pool .wait, .pool (.complete ⟨0, 5, some 10⟩), .pool .wait, .pool (.endTxn [5])]

def second : List Act :=
  [.crash, .feed 6 0, .pool .give, .pool .check, .feed 5 1, .pool .give, .emit ⟨1, 5, some 12⟩ 201, .emit ⟨0, 6, some 3⟩ 300,
   .emit ⟨1, 5, some 12⟩ 202, .pool .check, .pool .tryFlush, .pool .take, .pool (.beginCommit [5, 6]), .pool .wait,
   .pool (.complete ⟨0, 6, some 3⟩), .pool (.complete ⟨1, 5, some 12⟩), .pool .wait, .pool .wait, .pool .wait, .pool (.endTxn [5, 6])]

def demoCfg : Cfg := ⟨2, 1, 2, 4⟩

theorem run_reach {w w' : World} {as : List Act} (h : Reach c src w) (hr : run c src w as = some w') : Reach c src w' := by
  induction as generalizing w with
  | nil => cases hr; exact h
  | cons a as ih =>
    simp only [run, Option.bind_eq_some_iff] at hr
    obtain ⟨w1, h1, h2⟩ := hr
    exact ih (.step a h h1) h2

example : ∀ tp, (demoSrc tp).Pairwise (· < ·) := by
  intro tp; unfold demoSrc; split
  · decide
  · split <;> decide

/-- After the first incarnation: two records of 10 and one of the interjection are visible, nothing of 12. -/
example : ∃ w, Reach demoCfg demoSrc w ∧ w.wm 5 = 11 ∧ w.cur.seen 5 = [(⟨0, 5, some 10⟩, 100), (⟨1, 5, none⟩, 150), (⟨0, 5, some 10⟩, 101)] ∧
    effectsAt w.incs 5 10 = [100, 101] ∧ effectsAt w.incs 5 12 = [] ∧ w.cur.made ⟨2, 5, some 12⟩ = [200] := by
  have hd : ∃ w, run demoCfg demoSrc (boot demoCfg demoSrc []) first = some w ∧ w.wm 5 = 11 ∧
      w.cur.seen 5 = [(⟨0, 5, some 10⟩, 100), (⟨1, 5, none⟩, 150), (⟨0, 5, some 10⟩, 101)] ∧
      effectsAt w.incs 5 10 = [100, 101] ∧ effectsAt w.incs 5 12 = [] ∧ w.cur.made ⟨2, 5, some 12⟩ = [200] :=
    ⟨_, rfl, by decide +kernel, by decide +kernel, by decide +kernel, by decide +kernel, by decide +kernel⟩
  obtain ⟨w, h1, h2⟩ := hd
  exact ⟨w, run_reach .init h1, h2⟩

/-- After the second: 12 with the records of the second time it was handled. -/
example : ∃ w, Reach demoCfg demoSrc w ∧ w.wm 5 = 13 ∧ w.wm 6 = 4 ∧ effectsAt w.incs 5 10 = [100, 101] ∧
    effectsAt w.incs 5 12 = [201, 202] ∧ effectsAt w.incs 6 3 = [300] ∧ effectsAt w.incs 5 17 = [] ∧ w.next 5 = [17] := by
  have hd : ∃ w, run demoCfg demoSrc (boot demoCfg demoSrc []) (first ++ second) = some w ∧ w.wm 5 = 13 ∧ w.wm 6 = 4 ∧
      effectsAt w.incs 5 10 = [100, 101] ∧
      effectsAt w.incs 5 12 = [201, 202] ∧ effectsAt w.incs 6 3 = [300] ∧ effectsAt w.incs 5 17 = [] ∧ w.next 5 = [17] :=
    ⟨_, rfl, by decide +kernel, by decide +kernel, by decide +kernel, by decide +kernel, by decide +kernel, by decide +kernel, by decide +kernel⟩
  obtain ⟨w, h1, h2⟩ := hd
  exact ⟨w, run_reach .init h1, h2⟩

/-! ### The theorems -/

open Classical in
/-- **C76** (all or nothing, one event). Of every event, interjections included, readers see either nothing, or, if its transaction was committed,
all records that were produced for it, in the order of production; then the event is complete. -/
theorem C76_atomic (hn : 0 < c.poolSize) {w : World} (h : Reach c src w) {i : Inc} (hi : i ∈ w.incs) (e : Ev) :
    ((i.seen e.part).filter fun x => x.1 = e).map Prod.snd = (if i.Committed e then i.made e else []) ∧
    (i.Committed e → e.id ∈ i.pool.done) := by
  obtain ⟨j, hj⟩ := List.getElem?_of_mem hi
  obtain ⟨rest, J⟩ := (inv_reach hn h).all hj
  refine ⟨seen_event hn J e, ?_⟩
  rintro ⟨g, h1, h2⟩
  exact ended_done hn J.reach (List.mem_map.2 ⟨_, h2, rfl⟩) _ h1

/-- **C76** (order). What readers see of a partition is, transaction by transaction, what the handlers of its events produced, in the order of
production; nothing else, and nothing twice. -/
theorem C76_log (hn : 0 < c.poolSize) {w : World} (h : Reach c src w) {i : Inc} (hi : i ∈ w.incs) (tp : Nat) :
    i.seen tp = (List.range i.pool.ended.length).flatMap fun g =>
      i.prods.filter fun x => x.1.part = tp ∧ (x.1, g) ∈ i.pool.added := by
  obtain ⟨j, hj⟩ := List.getElem?_of_mem hi
  obtain ⟨rest, J⟩ := (inv_reach hn h).all hj
  exact seen_eq hn J tp

/-- **C76** (exactly once). A source record below the watermark of its partition was committed by exactly one incarnation, as exactly one event;
the event was complete, and the records that readers see for it, from all incarnations, are those it produced there. -/
theorem C76_once (hn : 0 < c.poolSize) (hsrc : ∀ tp, (src tp).Pairwise (· < ·)) {w : World} (h : Reach c src w) {tp o : Nat}
    (ho : o ∈ src tp) (hw : o < w.wm tp) :
    ∃ (j : Nat) (i : Inc) (e : Ev), w.incs[j]? = some i ∧ e.part = tp ∧ e.off = some o ∧ i.Committed e ∧ e.id ∈ i.pool.done ∧
      effectsAt w.incs tp o = i.made e ∧
      ∀ (j' : Nat) (i' : Inc) (e' : Ev), w.incs[j']? = some i' → e'.part = tp → e'.off = some o → i'.Committed e' → j' = j ∧ e' = e := by
  have I := inv_reach hn h
  -- the incarnation in which the watermark passed the offset
  have hex : ∃ k, o < watermark (w.incs.take k) tp := ⟨w.incs.length, by rw [List.take_length]; exact hw⟩
  obtain ⟨k, hk, hmin⟩ : ∃ k, o < watermark (w.incs.take k) tp ∧ ∀ m, m < k → ¬ o < watermark (w.incs.take m) tp :=
    ⟨Nat.find hex, Nat.find_spec hex, fun m hm => Nat.find_min hex hm⟩
  obtain ⟨j, rfl⟩ : ∃ j, k = j + 1 := by
    cases k with
    | zero => simp [watermark] at hk
    | succ j => exact ⟨j, rfl⟩
  have hlow := hmin j (by omega)
  obtain ⟨i, hj⟩ : ∃ i, w.incs[j]? = some i := by
    cases hj : w.incs[j]? with
    | some i => exact ⟨i, rfl⟩
    | none =>
      rw [List.take_add_one, hj] at hk
      simp at hk
      exact absurd hk hlow
  obtain ⟨rest, J⟩ := I.all hj
  rw [watermark_take_succ hj] at hk
  obtain ⟨e, hc, hp, heo⟩ := between hn hsrc J ho (by omega) hk
  have huniq : ∀ (j' : Nat) (i' : Inc) (e' : Ev), w.incs[j']? = some i' → e'.part = tp → e'.off = some o → i'.Committed e' → j' = j ∧ e' = e := by
    intro j' i' e' hj' hp' ho' hc'
    exact committed_unique hn hsrc I hj' hj hc' hc ho' heo (hp'.trans hp.symm)
  refine ⟨j, i, e, hj, hp, heo, hc, (C76_atomic hn h (List.mem_of_getElem? hj) e).2 hc, ?_, huniq⟩
  unfold effectsAt
  rw [flatMap_single hj]
  · have h1 := (C76_atomic hn h (List.mem_of_getElem? hj) e).1
    rw [if_pos hc, hp] at h1
    rw [← h1]
    congr 1
    apply List.filter_congr
    intro x hx
    rw [decide_eq_decide]
    constructor
    · intro hxo
      obtain ⟨q1, q2⟩ := seen_committed hn J hx
      exact (huniq j i x.1 hj q2 hxo q1).2
    · rintro rfl; exact heo
  · intro j' y hy hne
    rw [List.map_eq_nil_iff, List.filter_eq_nil_iff]
    intro x hx hxo
    obtain ⟨rest', J'⟩ := I.all hy
    obtain ⟨q1, q2⟩ := seen_committed hn J' hx
    exact hne (huniq j' y x.1 hy q2 (by simpa using hxo) q1).1

/-- **C76** (not yet). Of a source record at or above the watermark readers see nothing, from no incarnation. -/
theorem C76_none (hn : 0 < c.poolSize) (hsrc : ∀ tp, (src tp).Pairwise (· < ·)) {w : World} (h : Reach c src w) {tp o : Nat}
    (hw : w.wm tp ≤ o) : effectsAt w.incs tp o = [] := by
  have I := inv_reach hn h
  unfold effectsAt
  rw [List.flatMap_eq_nil_iff]
  intro i hi
  obtain ⟨j, hj⟩ := List.getElem?_of_mem hi
  rw [List.map_eq_nil_iff, List.filter_eq_nil_iff]
  intro x hx hxo
  obtain ⟨rest, J⟩ := I.all hj
  obtain ⟨q1, q2⟩ := seen_committed hn J hx
  obtain ⟨-, -, h3⟩ := committed_range hn hsrc I hj q1 (by simpa using hxo)
  rw [q2] at h3
  have h4 := wm_le hn hsrc I tp (j + 1)
  omega

/-- **C76** (resume). What an incarnation has added and still has to fetch of a partition is the source topic from the watermark at which it started:
no record is left out, none is fetched twice, none below the watermark. -/
theorem C76_resume (hn : 0 < c.poolSize) {w : World} (h : Reach c src w) (tp : Nat) :
    ((w.cur.pool.added.filter fun x => x.1.part = tp).filterMap fun x => x.1.off) ++ w.next tp =
      (src tp).filter fun o => watermark w.past tp ≤ o :=
  (inv_reach hn h).cur.fed tp

/-- **C76** (final). No step, not even a crash, moves a watermark back or changes what readers see of records below it. -/
theorem C76_final (hn : 0 < c.poolSize) (hsrc : ∀ tp, (src tp).Pairwise (· < ·)) {w w' : World} (h : Reach c src w) {a : Act}
    (hs : step c src w a = some w') (tp : Nat) :
    w.wm tp ≤ w'.wm tp ∧ ∀ o ∈ src tp, o < w.wm tp → effectsAt w'.incs tp o = effectsAt w.incs tp o := by
  have hr' : Reach c src w' := .step a h hs
  have I := inv_reach hn h
  have I' := inv_reach hn hr'
  -- what was committed stays committed
  have hkeep : ∀ (j : Nat) (i : Inc), w.incs[j]? = some i → ∃ i', w'.incs[j]? = some i' ∧
      ∀ e, i.Committed e → i'.Committed e ∧ i'.made e = i.made e := incs_step hn h hs
  have hwm : w.wm tp ≤ w'.wm tp := by
    by_contra hlt
    have hex : ∃ k, w'.wm tp < watermark (w.incs.take k) tp := ⟨w.incs.length, by rw [List.take_length]; unfold World.wm at hlt ⊢; omega⟩
    obtain ⟨k, hk, hmin⟩ : ∃ k, w'.wm tp < watermark (w.incs.take k) tp ∧ ∀ m, m < k → ¬ w'.wm tp < watermark (w.incs.take m) tp :=
      ⟨Nat.find hex, Nat.find_spec hex, fun m hm => Nat.find_min hex hm⟩
    cases k with
    | zero => simp [watermark] at hk
    | succ j =>
      have hlow := hmin j (by omega)
      cases hj : w.incs[j]? with
      | none =>
        rw [List.take_add_one, hj] at hk
        simp at hk
        exact hlow hk
      | some i =>
        rw [watermark_take_succ hj] at hk
        obtain ⟨rest, J⟩ := I.all hj
        rcases endWm_cases hn hsrc J tp with hq | ⟨e, o, hc, hp, heo, hq, -⟩
        · omega
        · obtain ⟨i', hj', hi'⟩ := hkeep j i hj
          obtain ⟨-, -, h3⟩ := committed_range hn hsrc I' hj' (hi' e hc).1 heo
          rw [hp] at h3
          have h4 := wm_le hn hsrc I' tp (j + 1)
          omega
  refine ⟨hwm, ?_⟩
  intro o ho hlt
  obtain ⟨j, i, e, hj, hp, heo, hc, -, heff, -⟩ := C76_once hn hsrc h ho hlt
  obtain ⟨j2, i2, e2, hj2, -, -, -, -, heff2, huniq⟩ := C76_once hn hsrc hr' ho (Nat.lt_of_lt_of_le hlt hwm)
  obtain ⟨i', hj', hi'⟩ := hkeep j i hj
  obtain ⟨rfl, rfl⟩ := huniq j i' e hj' hp heo (hi' e hc).1
  rw [hj'] at hj2
  cases hj2
  rw [heff, heff2, (hi' e hc).2]

/-- The second incarnation changes nothing of what the first one committed; this is about the crash between them. -/
example : ∃ w w', Reach demoCfg demoSrc w ∧ step demoCfg demoSrc w .crash = some w' ∧ w'.wm 5 = 11 ∧ effectsAt w'.incs 5 10 = [100, 101] ∧
    w'.cur.prods = [] := by
  have hd : ∃ w, run demoCfg demoSrc (boot demoCfg demoSrc []) first = some w ∧
      ∃ w', step demoCfg demoSrc w .crash = some w' ∧ w'.wm 5 = 11 ∧ effectsAt w'.incs 5 10 = [100, 101] ∧ w'.cur.prods = [] :=
    ⟨_, rfl, _, rfl, by decide +kernel, by decide +kernel, by decide +kernel⟩
  obtain ⟨w, h1, w', h2⟩ := hd
  exact ⟨w, w', run_reach .init h1, h2⟩

end Verif.Effects

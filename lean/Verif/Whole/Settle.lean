import Verif.Whole.Calm
import Verif.Props.Whole
/-
A consumer that can do nothing by itself has done everything.
-/
set_option linter.unusedSimpArgs false
namespace Verif.Whole
open Verif.Eos (Ev Pool)
open Verif.Effects (Inc)
open Verif.Worker (PW It)

/-! ### No interjections -/

/-- Without interjections all events are records. -/
structure NoIj (s : PW) : Prop where
  inp : s.nextTag = 0 → s.ijIn = []
  rec_ : s.nextTag = 0 → ∀ it ∈ s.sched, it.off ≠ none

theorem noIj_reach {cw : Worker.Cfg} {s : PW} (h : Worker.Reach cw s) : NoIj s := by
  induction h with
  | init => exact ⟨fun _ => rfl, fun _ it h => by cases h⟩
  | @step s s' l _ hs ih =>
    have hst := Worker.st_of_step hs
    generalize Worker.internal l = b at hst
    cases hst with
    | interject _ _ => exact ⟨fun h => by simp at h, fun h => by simp at h⟩
    | ijLost _ h1 _ => exact ⟨fun h => absurd ((ih.inp h).symm.trans h1) (by simp), ih.rec_⟩
    | ijSched _ h1 _ =>
      exact ⟨fun h => absurd ((ih.inp h).symm.trans h1) (by simp), fun h => absurd ((ih.inp h).symm.trans h1) (by simp)⟩
    | record _ _ =>
      refine ⟨ih.inp, fun h it hit => ?_⟩
      rcases List.mem_append.1 hit with h1 | h1
      · exact ih.rec_ h it h1
      · cases List.mem_singleton.1 h1; simp
    | _ => exact ⟨ih.inp, ih.rec_⟩

theorem tag_step {cw : Worker.Cfg} {s s' : PW} {l : Worker.Label} (hs : Worker.step cw s l = some s') (hl : l ≠ .interject) : s'.nextTag = s.nextTag := by
  cases l <;> simp only [Worker.step] at hs <;> (repeat' split at hs) <;>
    first
    | exact absurd rfl hl
    | (cases hs; done)
    | (simp only [Option.some.injEq] at hs; subst hs
       first
       | rfl
       | (unfold Worker.schedIj; split <;> rfl))
    | (obtain ⟨s1, h1, rfl⟩ := Option.map_eq_some_iff.1 hs
       unfold Worker.completeEv at h1
       split at h1
       · cases h1
       · cases h1; rfl)

/-! ### What stays as it is -/

variable {c : Eos.Cfg} {ecap : Nat} {src : Nat → List Nat} {w w' : Group} {k : Nat}

theorem com_ok {p p' : Pool} {l : Eos.Label} (h : Eos.step c p l = some p') (hl : ∀ b, l ≠ .commitFail b) (hl' : l ≠ .asyncFail)
    (ok : p.com ≠ .stopped) : p'.com ≠ .stopped := by
  have pc : ∀ a b r, (Eos.produce p a b r).com = p.com := by
    intro a b r; unfold Eos.produce; dsimp only; split <;> rfl
  cases l <;> simp only [Eos.step] at h <;> (repeat' split at h) <;>
    first
    | exact absurd rfl (hl _)
    | exact absurd rfl hl'
    | (cases h; done)
    | (cases h; exact ok)
    | (cases h; rw [pc]; exact ok)
    | (cases h; simp)

/-- The consumer lives, its commits did not fail, there are no interjections. -/
structure Fine (w : Group) (k : Nat) : Prop where
  alive : w.alive k = true
  ok : (w.inst k).pool.com ≠ .stopped
  plain : ∀ j, (w.wks k j).nextTag = 0

theorem fine_set {j : Nat} {s : PW} (F : Fine w k) (h : s.nextTag = (w.wks k j).nextTag) : Fine (w.set k j s) k where
  alive := F.alive
  ok := F.ok
  plain := by
    intro i
    rw [set_row]
    by_cases hi : i = j
    · subst hi; rw [upd_self, h]; exact F.plain i
    · rw [upd_other _ _ hi]; exact F.plain i

theorem fine_setAll {f : Nat → PW} (F : Fine w k) (h : ∀ j, (f j).nextTag = (w.wks k j).nextTag) : Fine (w.setAll k f) k where
  alive := F.alive
  ok := F.ok
  plain := by
    intro i
    show (Eos.upd w.wks k f k i).nextTag = 0
    rw [upd_self, h]; exact F.plain i

theorem fine_move {i : Inc} (F : Fine w k) (h : i.pool.com ≠ .stopped) : Fine (w.move k i) k where
  alive := F.alive
  ok := by rw [move_inst]; exact h
  plain := F.plain

theorem try_tag {cw : Worker.Cfg} {f : Nat → PW} (i : Nat) {l : Worker.Label} (hl : l ≠ .interject) (j : Nat) :
    (Eos.upd f i ((Worker.step cw (f i) l).getD (f i)) j).nextTag = (f j).nextTag := by
  by_cases hj : j = i
  · subst hj
    rw [upd_self]
    cases hs : Worker.step cw (f j) l with
    | none => rfl
    | some s => exact tag_step hs hl
  · rw [upd_other _ _ hj]

theorem rooted_tag {cw : Worker.Cfg} (es : List Ev) {f : Nat → PW} (j : Nat) : (rooted cw f es j).nextTag = (f j).nextTag := by
  unfold rooted
  induction es generalizing f with
  | nil => rfl
  | cons e es ih => rw [List.foldl_cons, ih]; exact try_tag _ (by simp) j

theorem fine_step {a : Act} (F : Fine w k) (ha : internal c w k a = true ∨ aside k a = true) (h : step c ecap src w a = some w') : Fine w' k := by
  rcases ha with ha | ha
  · cases a with
    | ready k' j wm =>
      have hk : k' = k := by simpa [internal] using ha
      subst hk
      simp only [step] at h; split at h
      · obtain ⟨s, h1, rfl⟩ := Option.map_eq_some_iff.1 h
        exact fine_set F (tag_step h1 (by simp))
      · cases h
    | own k' j l =>
      simp only [internal, Bool.and_eq_true, decide_eq_true_eq] at ha
      obtain ⟨rfl, hl⟩ := ha
      have hne : l ≠ .interject := by rintro rfl; cases hl
      simp only [step] at h; split at h
      · obtain ⟨s, h1, h2⟩ := Option.bind_eq_some_iff.1 h
        split at h2
        · cases h2; exact fine_set F (tag_step h1 hne)
        · obtain ⟨p, h3, rfl⟩ := Option.map_eq_some_iff.1 h2
          exact fine_move (fine_set F (tag_step h1 hne)) (com_ok h3 (by simp) (by simp) F.ok)
      · cases h
    | forward k' j =>
      have hk : k' = k := by simpa [internal] using ha
      subst hk
      simp only [step] at h; split at h
      · split at h
        · split at h
          · split at h
            · obtain ⟨s, h1, rfl⟩ := Option.map_eq_some_iff.1 h
              exact fine_set F (tag_step h1 (by simp))
            · cases h
          · obtain ⟨p, h1, h2⟩ := Option.bind_eq_some_iff.1 h
            obtain ⟨s, h3, rfl⟩ := Option.map_eq_some_iff.1 h2
            exact fine_move (fine_set F (tag_step h3 (by simp))) (com_ok h1 (by simp) (by simp) F.ok)
        · cases h
      · cases h
    | wait k' =>
      have hk : k' = k := by simpa [internal] using ha
      subst hk
      simp only [step] at h; split at h
      · obtain ⟨p, h1, rfl⟩ := Option.map_eq_some_iff.1 h
        have hok := com_ok h1 (by simp) (by simp) F.ok
        split
        · exact fine_move (fine_setAll F fun j => try_tag _ (by simp) j) hok
        · exact fine_move F hok
      · cases h
    | endTxn k' order =>
      have hk : k' = k := by simpa [internal] using ha
      subst hk
      simp only [step] at h; split at h
      · obtain ⟨p, h1, rfl⟩ := Option.map_eq_some_iff.1 h
        have hok := com_ok h1 (by simp) (by simp) F.ok
        split
        · exact fine_move (fine_setAll F fun j => rooted_tag _ j) hok
        · exact fine_move F hok
      · cases h
    | pool k' l =>
      simp only [internal, Bool.and_eq_true, decide_eq_true_eq] at ha
      obtain ⟨rfl, hl⟩ := ha
      simp only [step] at h; split at h
      · obtain ⟨p, h1, rfl⟩ := Option.map_eq_some_iff.1 h
        exact fine_move F (com_ok h1 (by rintro b rfl; cases hl) (by rintro rfl; cases hl) F.ok)
      · cases h
    | start => cases ha
    | assign => cases ha
    | revoke => cases ha
    | fetch => cases ha
    | emit => cases ha
    | crash => cases ha
  · rcases aside_same ha h with S | ⟨tp, rfl⟩ | ⟨j, it, v, rfl⟩
    · refine ⟨?_, by rw [S.inst]; exact F.ok, by rw [S.wks]; exact F.plain⟩
      have := F.alive
      unfold Group.alive at this ⊢
      rw [S.dead]
      simp only [Bool.and_eq_true, decide_eq_true_eq] at this ⊢
      exact ⟨Nat.lt_of_lt_of_le this.1 S.n, this.2⟩
    · simp only [step] at h; split at h
      · split at h
        · rename_i j hj
          obtain ⟨s, h1, rfl⟩ := Option.map_eq_some_iff.1 h
          have := fine_set (j := j) F (tag_step h1 (by simp))
          exact ⟨this.alive, this.ok, this.plain⟩
        · cases h
      · cases h
    · simp only [step] at h; split at h
      · obtain ⟨p, hp, rfl⟩ := Option.map_eq_some_iff.1 h
        exact fine_move F (com_ok hp (by simp) (by simp) F.ok)
      · cases h

theorem fine_calm {n : Nat} (F : Fine w k) (h : Calm c ecap src k w n w') : Fine w' k := by
  induction h with
  | start => exact F
  | next a _ ha hs ih => exact fine_step ih (.inl ha) hs
  | aside a _ ha hs ih => exact fine_step ih (.inr ha) hs

/-! ### Quiet -/

/-- Nothing happens by itself in consumer `k`. -/
def Quiet (c : Eos.Cfg) (ecap : Nat) (src : Nat → List Nat) (w : Group) (k : Nat) : Prop :=
  ∀ a, internal c w k a = true → step c ecap src w a = none

theorem quiet_pool (F : Fine w k) (q : Quiet c ecap src w k) (l : Eos.Label) (hl : runs c (w.inst k).pool l = true) :
    Eos.step c (w.inst k).pool l = none := by
  cases l with
  | add => cases hl
  | complete => cases hl
  | produce => cases hl
  | commitFail => cases hl
  | asyncFail => cases hl
  | wait =>
    have := q (.wait k) (by simp [internal])
    simpa [step, F.alive] using this
  | endTxn order =>
    have := q (.endTxn k order) (by simp [internal])
    simpa [step, F.alive] using this
  | _ =>
    have := q (.pool k _) (by simp only [internal, decide_true, Bool.true_and]; exact hl)
    simpa [step, F.alive, poolOnly] using this

variable {j : Nat}

theorem quiet_own (hn : 0 < c.poolSize) (hr : Reach c ecap src w) (F : Fine w k) (q : Quiet c ecap src w k) (hj : j < w.nw k) :
    OwnQuiet (wcfg c ecap) (w.wks k j) := by
  intro l h1 h2 h3
  by_contra hne
  obtain ⟨s, hs⟩ := Option.ne_none_iff_exists'.1 hne
  have := C96_completes hn hr F.alive hj h1 h3 hs
  rw [q (.own k j l) (by simp only [internal, decide_true, Bool.true_and]; exact h2)] at this
  cases this

theorem quiet_got (hn : 0 < c.poolSize) (hr : Reach c ecap src w) (F : Fine w k) (q : Quiet c ecap src w k) (hj : j < w.nw k) (it : It)
    (hw : (w.wks k j).wk = .assign it) : (w.wks k j).prod it.id = none := by
  have B := base_reach hr
  have L := link_reach hn hr
  have IA := Worker.invA_reach (B.wr k j)
  have IB := Worker.invB_reach (B.wr k j)
  have hl : it ∈ Worker.live (w.wks k j) := by unfold Worker.live; rw [hw]; simp [Worker.wkIt]
  have hs : (w.wks k j).slots ≠ 0 := by
    rw [IB.slots]; exact Nat.pos_iff_ne_zero.1 (List.length_pos_of_mem hl)
  have hsched : it ∈ (w.wks k j).sched := by rw [IA.acc]; exact List.mem_append.2 (.inl (IB.sub it hl))
  have := q (.own k j .got) (by simp [internal, finishes])
  simp only [step] at this
  cases hp : (w.wks k j).prod it.id with
  | none => rfl
  | some b =>
    exfalso
    have hready : w.ready k j .got = true := by
      simp only [Group.ready, hw, hp, Bool.or_eq_true]
      cases b with
      | false => left; rfl
      | true =>
        right
        exact pool_asg hn (B.pr k) (quiet_pool F q) (e := w.ev k j it) (((L k).ad _).2 ⟨j, it, hj, ⟨hsched, hp⟩, rfl⟩)
    rw [if_pos ⟨F.alive, hj, rfl, hready⟩] at this
    cases b with
    | false => simp [Worker.step, hw, hp, hs, completes] at this
    | true =>
      simp only [Worker.step, hw, hp, completes] at this
      split at this <;> simp at this

theorem quiet_settled (hn : 0 < c.poolSize) (hp : 0 < c.pending) (hm : 0 < c.max) (he : 0 < ecap) (hsrc : ∀ tp, (src tp).Pairwise (· < ·))
    (hr : Reach c ecap src w) (F : Fine w k) (q : Quiet c ecap src w k) : Settled c w k := by
  have B := base_reach hr
  have L := link_reach hn hr
  have N := fins_reach hn hr
  have hgd : ∀ j it, j < w.nw k → Given (w.wks k j) it → it.id ∈ (w.wks k j).done := fun j it hj hg =>
    given_done (B.wr k j) (asc_of hsrc B k j) he ((noIj_reach (B.wr k j)).rec_ (F.plain j)) (quiet_own hn hr F q hj)
      (quiet_got hn hr F q hj) hg
  have hdone : ∀ e ∈ (w.inst k).pool.added.map Prod.fst, e.id ∈ (w.inst k).pool.done := by
    intro e he
    obtain ⟨j, it, h1, h2, rfl⟩ := ((L k).ad e).1 he
    exact ((L k).dn j it.id).2 (hgd j it h1 h2)
  obtain ⟨p1, p2, p3, p4, p5⟩ := pool_rest hn hp (B.pr k) F.ok hdone (quiet_pool F q)
  have hend : ∀ e g, (e, g) ∈ (w.inst k).pool.added → g ∈ (w.inst k).pool.ended.map Prod.fst := by
    intro e g h
    rw [(Eos.C04_in_order hn (B.pr k)).1, List.mem_range]; exact p5 e g h
  have hcom : ∀ e g, (e, g) ∈ (w.inst k).pool.added → e.off ≠ none → (w.inst k).Committed e := by
    intro e g h hne
    obtain ⟨o, hoff⟩ := Option.ne_none_iff_exists'.1 hne
    exact ⟨g, h, Marks.committed_of_ended hn (B.pr k) h (hend e g h) hoff⟩
  have hbuf : ∀ j, j < w.nw k → (w.wks k j).buf = [] := by
    intro j hj
    cases hb : (w.wks k j).buf with
    | nil => rfl
    | cons it l =>
      have := (C96_forwards hn hr F.alive hj hb p3 (by rw [p1]; simp)).1
      rw [q (.forward k j) (by simp [internal])] at this
      cases this
  have hfin : ∀ j, j < w.nw k → ∀ it, Given (w.wks k j) it → it.id ∈ (w.wks k j).fin := by
    intro j hj it hg
    have hin := ((L k).ad (w.ev k j it)).2 ⟨j, it, hj, hg, rfl⟩
    obtain ⟨⟨e, g⟩, hm, hev⟩ := List.mem_map.1 hin
    change e = _ at hev
    subst hev
    have := N k (w.ev k j it) ⟨g, hm, .inl (p5 _ _ hm)⟩
    unfold Group.ev at this
    rw [owner_pair, number_pair] at this
    exact this
  have hdf : ∀ j, j < w.nw k → ∀ i ∈ (w.wks k j).done, i ∈ (w.wks k j).fin := by
    intro j hj i hi
    have IA := Worker.invA_reach (B.wr k j)
    have IB := Worker.invB_reach (B.wr k j)
    obtain ⟨h1, h2⟩ := IB.dn i hi
    obtain ⟨pre, k1, k2⟩ := IA.dec
    obtain ⟨it, hit, rfl⟩ := List.mem_map.1 ((k2 i).1 (by rw [h2]; simp))
    exact hfin j hj it ⟨by rw [k1]; exact List.mem_append.2 (.inl hit), h2⟩
  have hroot : ∀ j, (w.wks k j).roots = 0 := by
    intro j
    rw [(L k).rt j]
    unfold openRoots
    rw [List.sum_eq_zero_iff_forall_eq_nat]
    intro x hx
    obtain ⟨g, hg, rfl⟩ := List.mem_map.1 hx
    have hno : Eos.evOf (w.inst k).pool.added g = [] := by
      rw [List.eq_nil_iff_forall_not_mem]
      intro e he
      have := p5 e g (Eos.mem_evOf.1 he)
      have := (List.mem_range'_1.1 hg).1
      omega
    rw [hno]; rfl
  have hquiet : ∀ j, j < w.nw k → (w.wks k j).wk ≠ .boot → Worker.Quiet (wcfg c ecap) (w.wks k j) := fun j hj hb =>
    worker_rest (quiet_own hn hr F q hj) (quiet_got hn hr F q hj) (hbuf j hj) (hdf j hj) (hroot j) hb
  have hcases := fun j hj hb => Worker.quiet_cases (c := wcfg c ecap) (Nat.mul_pos hm hn) he (B.wr k j) (hquiet j hj hb)
  refine ⟨fun e g h => ⟨hdone e (List.mem_map.2 ⟨_, h, rfl⟩), hend e g h, hcom e g h⟩, ⟨p1, p2, p3⟩, ?_, ?_, ?_⟩
  · intro j hj hb hrv
    rcases hcases j hj hb with h | h
    · rw [hrv] at h; cases h.1
    · exact h.2.2.1
  · intro j hj hb hrv
    rcases hcases j hj hb with h | h
    · obtain ⟨_, h2, h3, h4, h5, h6, h7⟩ := h
      have IA := Worker.invA_reach (B.wr k j)
      have IB := Worker.invB_reach (B.wr k j)
      have IC := Worker.invC_reach (B.wr k j)
      have ID := Worker.invD_reach (B.wr k j) (asc_of hsrc B k j)
      have hund : Worker.undecided (w.wks k j) = [] := by
        unfold Worker.undecided; rw [hbuf j hj, h2]; rfl
      have hgiv : ∀ it ∈ (w.wks k j).sched, Given (w.wks k j) it := by
        intro it hit
        refine ⟨hit, ?_⟩
        obtain ⟨pre, k1, k2⟩ := IA.dec
        rw [hund, List.append_nil] at k1
        have := (k2 it.id).2 (List.mem_map.2 ⟨it, by rw [← k1]; exact hit, rfl⟩)
        cases hpr : (w.wks k j).prod it.id with
        | none => exact absurd hpr this
        | some b =>
          cases b with
          | true => rfl
          | false => have := IA.rev _ hpr; rw [hrv] at this; cases this
      have hev : (w.wks k j).evq = [] := by
        have := h7
        unfold Worker.live at this
        simp only [List.append_eq_nil_iff] at this
        exact this.1.1.1.2
      have hpipe : Worker.pipe (w.wks k j) = [] := by
        unfold Worker.pipe; rw [h2, h3, hev]; rfl
      have hofs : (w.wks k j).offered = Worker.schedOffs (w.wks k j) := by
        obtain ⟨past, q1, q2, q3⟩ := ID.q
        rw [hpipe, List.append_nil] at q1
        have hpast : ∀ it ∈ past, it ∈ (w.wks k j).sched := by
          intro it hit; rw [← q1] at hit; exact (List.mem_filter.1 hit).1
        rw [q2, List.filter_eq_self.2 fun it hit => decide_eq_true (hgiv it (hpast it hit)).2, ← q1]
        unfold Worker.schedOffs
        rw [List.filter_eq_self.2 fun it hit => Option.isSome_iff_ne_none.2 ((noIj_reach (B.wr k j)).rec_ (F.plain j) it hit)]
      have hwant : Worker.wanted (w.wks k j) = Worker.schedOffs (w.wks k j) := by
        obtain ⟨x, x1, x2⟩ := ID.f
        have hdr : (w.wks k j).dropped = false := by
          cases hd : (w.wks k j).dropped with
          | false => rfl
          | true => have := (ID.d hd).1; rw [hrv] at this; cases this
        have hrecs : Worker.recs (w.wks k j) = [] := by
          unfold Worker.recs; rw [h2, h4, h5]; rfl
        rw [x1, x2 hdr, hrecs]; simp
      refine ⟨h3, by rw [IB.slots, h7]; rfl, ?_, ?_, ?_⟩
      · rw [IC.w, hroot j, h2]
        have : (w.wks k j).sched.countP (Worker.counts (w.wks k j)) = 0 := by
          rw [List.countP_eq_zero]
          intro it hit hc
          unfold Worker.counts at hc
          exact (of_decide_eq_true hc).1 (hfin j hj it (hgiv it hit))
        rw [this]; rfl
      · rw [hofs, ← hwant]; rfl
      · intro o ho
        rw [hofs] at ho
        obtain ⟨it, hit, hio⟩ := List.mem_filterMap.1 ho
        have hin := ((L k).ad (w.ev k j it)).2 ⟨j, it, hj, hgiv it hit, rfl⟩
        obtain ⟨⟨e, g⟩, hm, hev⟩ := List.mem_map.1 hin
        change e = _ at hev
        subst hev
        exact ⟨it, hio, hcom _ g hm (by show it.off ≠ none; rw [hio]; simp)⟩
    · rw [hrv] at h; cases h.1
  · intro j hj hb x hx
    by_contra hlt
    have := q (.ready k j (x : Int)) (by simp [internal])
    simp only [step] at this
    rw [if_pos ⟨F.alive, hj, by omega, by simpa using hx, by simpa using Nat.le_of_not_lt hlt⟩] at this
    simp [Worker.step, hb] at this

end Verif.Whole

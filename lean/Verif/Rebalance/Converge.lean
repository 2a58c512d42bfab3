import Verif.Rebalance.Plan
import Verif.Rebalance.Member
/-
Rounds of a group whose members are all active: the moves carried out one at a time.
-/
set_option linter.unusedSectionVars false
set_option linter.unusedSimpArgs false
namespace Verif.Rebalance

open Verif.BTree

/-! ### Sums -/

theorem sum_lt {α : Type} {f : α → Nat} {l : List α} {t : Nat} (h : ∀ x ∈ l, f x ≤ t)
    (hx : ∃ x ∈ l, f x < t) : (l.map f).sum < l.length * t := by
  induction l with
  | nil => simp at hx
  | cons a l ih =>
    have hle : (l.map f).sum ≤ l.length * t := by
      clear ih hx
      induction l with
      | nil => simp
      | cons b l ih =>
        have := ih (fun x hx => h x (by simp at hx; rcases hx with h | h <;> simp [h]))
        have := h b (by simp)
        simp only [List.map_cons, List.sum_cons, List.length_cons, Nat.add_mul, Nat.one_mul]; omega
    simp only [List.map_cons, List.sum_cons, List.length_cons, Nat.add_mul, Nat.one_mul]
    obtain ⟨x, hx, hlt⟩ := hx
    have ha := h a (by simp)
    rcases List.mem_cons.1 hx with rfl | hx
    · omega
    · have := ih (fun y hy => h y (by simp [hy])) ⟨x, hx, hlt⟩
      omega

theorem le_sum {α : Type} {f : α → Nat} {l : List α} {t : Nat} (h : ∀ x ∈ l, t ≤ f x) :
    l.length * t ≤ (l.map f).sum := by
  induction l with
  | nil => simp
  | cons a l ih =>
    have := ih (fun x hx => h x (by simp [hx]))
    have := h a (by simp)
    simp only [List.map_cons, List.sum_cons, List.length_cons, Nat.add_mul, Nat.one_mul]; omega

theorem sum_upd {α : Type} {f h : α → Nat} {l : List α} {a : α} (hn : l.Nodup) (ha : a ∈ l)
    (hh : ∀ x ∈ l, x ≠ a → h x = f x) : (l.map h).sum + f a = (l.map f).sum + h a := by
  induction l with
  | nil => simp at ha
  | cons b l ih =>
    have hn' := List.nodup_cons.1 hn
    simp only [List.map_cons, List.sum_cons]
    rcases List.mem_cons.1 ha with rfl | ha
    · have : l.map h = l.map f := by
        apply List.map_congr_left
        intro x hx
        exact hh x (by simp [hx]) (by rintro rfl; exact hn'.1 hx)
      rw [this]; omega
    · have := ih hn'.2 ha (fun x hx => hh x (by simp [hx]))
      have hb : h b = f b := hh b (by simp) (by rintro rfl; exact hn'.1 ha)
      omega

/-! ### Members' steps -/

theorem mem_insTP {tp x : TP} {l : List TP} : x ∈ insTP tp l ↔ x = tp ∨ x ∈ l := by
  unfold insTP; split
  · constructor
    · exact .inr
    · rintro (rfl | h) <;> assumption
  · simp; tauto

theorem mem_delTP {tp x : TP} {l : List TP} : x ∈ delTP tp l ↔ x ∈ l ∧ x ≠ tp := by simp [delTP]

theorem partitionsAssigned_eq (m : Mb) (tps : List TP) :
    (m.partitionsAssigned tps).1 =
      { m with preparing := m.preparing.filter fun x => x ∉ tps, ready := m.ready.filter fun x => x ∉ tps } := by
  induction tps generalizing m with
  | nil =>
    have h : ∀ l : List TP, l.filter (fun x => decide (x ∉ ([] : List TP))) = l := by
      intro l; rw [List.filter_eq_self]; simp
    simp only [Mb.partitionsAssigned, h]
  | cons tp tps ih =>
    have h : ∀ l : List TP, (delTP tp l).filter (fun x => decide (x ∉ tps)) =
        l.filter fun x => decide (x ∉ tp :: tps) := by
      intro l
      unfold delTP
      rw [List.filter_filter]
      apply List.filter_congr
      intro x _
      by_cases h1 : x = tp <;> by_cases h2 : x ∈ tps <;> simp [h1, h2]
    simp only [Mb.partitionsAssigned, ih, h]

@[simp] theorem ownedOf_report (m : Mb) (topic : Bytes) : (m.report topic).ownedOf topic = m.owned := by
  simp [Mb.report, Input.ownedOf]

@[simp] theorem id_report (m : Mb) (topic : Bytes) : (m.report topic).id = m.id := rfl

@[simp] theorem md_report (m : Mb) (topic : Bytes) : (m.report topic).md =
    { preparing := m.preparing, ready := m.ready, status := m.status, leftAt := m.leaveTime } := rfl

theorem moving_report (m : Mb) (topic : Bytes) (h : m.status = activeMember) :
    (m.report topic).moving = m.preparing ++ m.ready := by simp [Input.moving, Mb.report, h]

theorem readyTPs_report (m : Mb) (topic : Bytes) (h : m.status = activeMember) :
    (m.report topic).readyTPs = m.ready := by simp [Input.readyTPs, Mb.report, h]

theorem forget_report (m : Mb) (topic : Bytes) (h : m.status = activeMember) :
    (m.report topic).forget = [] := by simp [Input.forget, Mb.report, h]

/-- All members take part in a round and take up the plan. -/
def roundAll (o : Sched) (count : Nat) (topic : Bytes) (ms : List Mb) : List Mb :=
  ms.map fun m => m.sync topic ((round o (ms.map fun m => m.report topic) count topic).parts m.id)
    ((round o (ms.map fun m => m.report topic) count topic).instr m.id)

/-- Every member finishes the preparations it has begun. -/
def prepareAll (ms : List Mb) : List Mb := ms.map fun m => m.preparing.foldl Mb.partitionPrepared m

/-- A requested move carried out: the round requesting it, the preparation, the round in which the old owner gives the
partition up, the round in which the new one gets it. -/
def cycle (o : Sched × Sched × Sched) (count : Nat) (topic : Bytes) (ms : List Mb) : List Mb :=
  roundAll o.2.2 count topic (roundAll o.2.1 count topic (prepareAll (roundAll o.1 count topic ms)))

/-- A group of active members, `own` says who owns what, `rd` which partitions the members have ready. -/
structure Mid (ms : List Mb) (count : Nat) (own : Int → Option Nat) (rd : Nat → List TP) : Prop where
  ids : (ms.map Mb.id).Nodup
  ne : ms ≠ []
  act : ∀ m ∈ ms, m.status = activeMember
  prep : ∀ m ∈ ms, m.preparing = []
  rdy : ∀ m ∈ ms, m.ready = rd m.id
  nodup : ∀ m ∈ ms, m.owned.Nodup
  has : ∀ m ∈ ms, ∀ p, p ∈ m.owned ↔ own p = some m.id
  dom : ∀ p i, own p = some i → i ∈ ms.map Mb.id ∧ 0 ≤ p ∧ p < (count : Int)

/-- The owner after a round with the decision `cur`: a partition that moves is only given up. -/
def nextOwn (own cur : Int → Option Nat) (p : Int) : Option Nat :=
  if own p = none ∨ own p = cur p then cur p else none

theorem reports_nodup {ms : List Mb} (h : (ms.map Mb.id).Nodup) (topic : Bytes) :
    ((ms.map fun m => m.report topic).map Input.id).Nodup := by
  simpa [List.map_map, Function.comp_def] using h

theorem mb_eq {ms : List Mb} (hn : (ms.map Mb.id).Nodup) {x y : Mb} (hx : x ∈ ms) (hy : y ∈ ms)
    (h : x.id = y.id) : x = y := List.inj_on_of_nodup_map hn hx hy h

theorem ownerOf_reports {ms : List Mb} {count : Nat} {own : Int → Option Nat} {rd : Nat → List TP}
    (M : Mid ms count own rd) (topic : Bytes) (p : Int) :
    ownerOf (ms.map fun m => m.report topic) topic p = own p := by
  cases h : own p with
  | none =>
    rw [ownerOf_none]
    intro x hx
    obtain ⟨m, hm, rfl⟩ := List.mem_map.1 hx
    rw [ownedOf_report, M.has m hm, h]; simp
  | some i =>
    obtain ⟨hi, _⟩ := M.dom p i h
    obtain ⟨m, hm, rfl⟩ := List.mem_map.1 hi
    rw [ownerOf_eq (x := m.report topic) (List.mem_map.2 ⟨m, hm, rfl⟩)
      (by rw [ownedOf_report, M.has m hm, h])]
    · rfl
    · intro y hy hp
      obtain ⟨m', hm', rfl⟩ := List.mem_map.1 hy
      rw [ownedOf_report, M.has m' hm', h] at hp
      rw [mb_eq M.ids hm hm' (Option.some.inj hp)]

theorem round_mid {ms : List Mb} {count : Nat} {own : Int → Option Nat} {rd : Nat → List TP}
    (M : Mid ms count own rd) (o : Sched) (topic : Bytes) :
    ∃ cur pr, Holders (ms.map fun m => m.report topic) count topic cur ∧
      Prepares o (ms.map fun m => m.report topic) count topic pr ∧
      (∀ i, ((round o (ms.map fun m => m.report topic) count topic).instr i).prepare = pr i) ∧
      ∀ m ∈ ms, ∀ m', m' = m.sync topic ((round o (ms.map fun m => m.report topic) count topic).parts m.id)
          ((round o (ms.map fun m => m.report topic) count topic).instr m.id) →
        m'.id = m.id ∧ m'.status = activeMember ∧ m'.owned.Nodup ∧
        (∀ p, p ∈ m'.owned ↔ nextOwn own cur p = some m.id) ∧
        ∃ new : List TP, (∀ tp : TP, tp ∈ new ↔ tp.topic = topic ∧ nextOwn own cur tp.part = some m.id ∧
            own tp.part ≠ some m.id) ∧
          m'.preparing = (prepareLoop [] (pr m.id)).1.filter (fun x => x ∉ new) ∧
          m'.ready = (rd m.id).filter (fun x => x ∉ new) := by
  have hn := reports_nodup M.ids topic
  have ha : ∃ x ∈ ms.map fun m => m.report topic, x.stays := by
    obtain ⟨m, hm⟩ := List.exists_mem_of_ne_nil _ M.ne
    exact ⟨m.report topic, List.mem_map.2 ⟨m, hm, rfl⟩, by
      unfold Input.stays; rw [md_report]; simp only; rw [M.act m hm]; decide⟩
  obtain ⟨⟨cur, Ho, hc⟩, P, hf, hnd⟩ := plan_spec o _ count topic hn ha
  refine ⟨cur, _, Ho, P, fun i => rfl, ?_⟩
  rintro m hm m' rfl
  have hmem : ∀ p, p ∈ (round o (ms.map fun m => m.report topic) count topic).parts m.id ↔
      nextOwn own cur p = some m.id := by
    intro p
    rw [mem_round, hc]
    constructor
    · rintro ⟨h1, h2⟩
      unfold nextOwn
      rw [if_pos]
      · exact h1
      · rcases h2 with ⟨x, hx, hxi, hxo⟩ | h2
        · obtain ⟨y, hy, rfl⟩ := List.mem_map.1 hx
          rw [ownedOf_report, M.has y hy] at hxo
          right; rw [hxo, h1]
          rw [id_report] at hxi; rw [hxi]
        · cases ho : own p with
          | none => exact .inl rfl
          | some i =>
            right
            obtain ⟨hi, _⟩ := M.dom p i ho
            obtain ⟨y, hy, rfl⟩ := List.mem_map.1 hi
            have := h2 (y.report topic) (List.mem_map.2 ⟨y, hy, rfl⟩)
              (by rw [ownedOf_report, M.has y hy, ho])
            rw [hc] at this
            rw [this]; rfl
    · intro h
      unfold nextOwn at h
      split at h
      · rename_i hcase
        refine ⟨h, ?_⟩
        rcases hcase with h0 | h0
        · right
          intro x hx hp
          obtain ⟨y, hy, rfl⟩ := List.mem_map.1 hx
          rw [ownedOf_report, M.has y hy, h0] at hp
          simp at hp
        · left
          exact ⟨m.report topic, List.mem_map.2 ⟨m, hm, rfl⟩, rfl, by
            rw [ownedOf_report, M.has m hm, h0, h]⟩
      · simp at h
  have hforget : ((round o (ms.map fun m => m.report topic) count topic).instr m.id).forget = [] := by
    have := hf (m.report topic) (List.mem_map.2 ⟨m, hm, rfl⟩)
    rw [forget_report m topic (M.act m hm)] at this
    exact this
  have hprep : ∀ i, ((round o (ms.map fun m => m.report topic) count topic).instr i).prepare =
      ((balanceTopic o (ms.map fun m => m.report topic) count topic).instr i).prepare := fun _ => rfl
  generalize hpl : round o (ms.map fun m => m.report topic) count topic = pl at *
  have hst : m.status = activeMember := M.act m hm
  have hparse : (m.parseSync [(topic, pl.parts m.id)] (pl.instr m.id)).1 =
      { m with preparing := (prepareLoop m.preparing (pl.instr m.id).prepare).1 } := by
    unfold Mb.parseSync
    rw [if_neg (by rw [hst]; rintro ⟨h, _⟩; exact absurd h (by decide)), hforget]
    rfl
  have hsync : m.sync topic (pl.parts m.id) (pl.instr m.id) =
      { m with
        owned := pl.parts m.id
        preparing := (prepareLoop m.preparing (pl.instr m.id).prepare).1.filter fun x =>
          x ∉ (((pl.parts m.id).filter fun p => p ∉ m.owned).map fun p => (⟨p, topic⟩ : TP))
        ready := m.ready.filter fun x =>
          x ∉ (((pl.parts m.id).filter fun p => p ∉ m.owned).map fun p => (⟨p, topic⟩ : TP)) } := by
    unfold Mb.sync
    simp only
    rw [hparse, partitionsAssigned_eq]
  rw [hsync]
  refine ⟨rfl, hst, ?_, hmem,
    ((pl.parts m.id).filter fun p => p ∉ m.owned).map fun p => (⟨p, topic⟩ : TP), ?_, ?_, ?_⟩
  · have : pl.parts m.id = (round o (ms.map fun m => m.report topic) count topic).parts m.id := by rw [hpl]
    rw [this]
    unfold round adjustCooperative
    exact (hnd m.id).filter _
  · intro tp
    simp only [List.mem_map, List.mem_filter, decide_eq_true_eq, hmem, M.has m hm]
    constructor
    · rintro ⟨p, ⟨h1, h2⟩, rfl⟩
      exact ⟨rfl, h1, h2⟩
    · rintro ⟨h1, h2, h3⟩
      exact ⟨tp.part, ⟨h2, h3⟩, by cases tp; simp at h1; simp [h1]⟩
  · simp only
    rw [M.prep m hm, hprep]
  · simp only
    rw [M.rdy m hm]

/-! ### Settled groups -/

/-- A complete assignment to active members with nothing in motion. -/
structure Settled (ms : List Mb) (count : Nat) : Prop where
  ids : (ms.map Mb.id).Nodup
  ne : ms ≠ []
  act : ∀ m ∈ ms, m.status = activeMember ∧ m.preparing = [] ∧ m.ready = []
  nodup : ∀ m ∈ ms, m.owned.Nodup
  range : ∀ m ∈ ms, ∀ p ∈ m.owned, 0 ≤ p ∧ p < (count : Int)
  cover : ∀ p : Int, 0 ≤ p → p < count → ∃ m ∈ ms, p ∈ m.owned
  disj : ∀ m ∈ ms, ∀ m' ∈ ms, ∀ p, p ∈ m.owned → p ∈ m'.owned → m = m'

/-- Any two members' partition counts differ by at most one. -/
def Balanced (ms : List Mb) : Prop := ∀ m ∈ ms, ∀ m' ∈ ms, m.owned.length ≤ m'.owned.length + 1

/-- The owner of a partition in a list of members. -/
def holder (ms : List Mb) (p : Int) : Option Nat := (ms.find? fun m => decide (p ∈ m.owned)).map Mb.id

theorem holder_iff {ms : List Mb} {count : Nat} (S : Settled ms count) {m : Mb} (hm : m ∈ ms) (p : Int) :
    p ∈ m.owned ↔ holder ms p = some m.id := by
  unfold holder
  constructor
  · intro hp
    cases h : ms.find? fun m => decide (p ∈ m.owned) with
    | none => have := List.find?_eq_none.1 h m hm; simp [hp] at this
    | some m' =>
      have h1 := List.mem_of_find?_eq_some h
      have h2 := List.find?_some h
      simp only [decide_eq_true_eq] at h2
      rw [S.disj m hm m' h1 p hp h2]; rfl
  · intro h
    obtain ⟨m', h1, h2⟩ := Option.map_eq_some_iff.1 h
    have h3 := List.mem_of_find?_eq_some h1
    have h4 := List.find?_some h1
    simp only [decide_eq_true_eq] at h4
    rw [← mb_eq S.ids h3 hm h2]; exact h4

theorem mid_of_settled {ms : List Mb} {count : Nat} (S : Settled ms count) :
    Mid ms count (holder ms) (fun _ => []) where
  ids := S.ids
  ne := S.ne
  act := fun m hm => (S.act m hm).1
  prep := fun m hm => (S.act m hm).2.1
  rdy := fun m hm => (S.act m hm).2.2
  nodup := S.nodup
  has := fun m hm p => holder_iff S hm p
  dom := by
    intro p i h
    unfold holder at h
    obtain ⟨m, h1, h2⟩ := Option.map_eq_some_iff.1 h
    have h3 := List.mem_of_find?_eq_some h1
    have h4 := List.find?_some h1
    simp only [decide_eq_true_eq] at h4
    exact ⟨List.mem_map.2 ⟨m, h3, h2⟩, S.range m h3 p h4⟩

theorem holder_some {ms : List Mb} {count : Nat} (S : Settled ms count) {p : Int} (h1 : 0 ≤ p) (h2 : p < count) :
    ∃ m ∈ ms, holder ms p = some m.id := by
  obtain ⟨m, hm, hp⟩ := S.cover p h1 h2
  exact ⟨m, hm, (holder_iff S hm p).1 hp⟩

theorem settled_of_mid {ms : List Mb} {count : Nat} {own : Int → Option Nat}
    (M : Mid ms count own fun _ => []) (ht : ∀ p : Int, 0 ≤ p → p < count → own p ≠ none) : Settled ms count where
  ids := M.ids
  ne := M.ne
  act := fun m hm => ⟨M.act m hm, M.prep m hm, M.rdy m hm⟩
  nodup := M.nodup
  range := fun m hm p hp => (M.dom p m.id ((M.has m hm p).1 hp)).2
  cover := by
    intro p h1 h2
    cases h : own p with
    | none => exact absurd h (ht p h1 h2)
    | some i =>
      obtain ⟨hi, _⟩ := M.dom p i h
      obtain ⟨m, hm, rfl⟩ := List.mem_map.1 hi
      exact ⟨m, hm, (M.has m hm p).2 h⟩
  disj := by
    intro m hm m' hm' p h1 h2
    rw [M.has m hm] at h1
    rw [M.has m' hm', h1] at h2
    exact mb_eq M.ids hm hm' (Option.some.inj h2)

theorem sum_owned {ms : List Mb} {count : Nat} (S : Settled ms count) :
    (ms.map fun m => m.owned.length).sum = count := by
  have hp : (ms.flatMap Mb.owned).Perm ((List.range count).map Int.ofNat) := by
    refine (List.perm_ext_iff_of_nodup ?_ ?_).2 ?_
    · rw [List.nodup_flatMap]
      refine ⟨S.nodup, ?_⟩
      have hnd : ms.Nodup := List.Nodup.of_map _ S.ids
      refine List.Pairwise.imp_of_mem ?_ hnd
      intro a b ha hb hne p h1 h2
      exact hne (S.disj a ha b hb p h1 h2)
    · refine List.Nodup.map ?_ List.nodup_range
      intro a b h; exact Int.ofNat.inj h
    · intro p
      simp only [List.mem_flatMap, List.mem_map, List.mem_range]
      constructor
      · rintro ⟨m, hm, hp⟩
        have := S.range m hm p hp
        exact ⟨p.toNat, by omega, by simp only [Int.ofNat_eq_natCast]; omega⟩
      · rintro ⟨n, hn, rfl⟩
        obtain ⟨m, hm, hp⟩ := S.cover (Int.ofNat n) (by simp) (by simp only [Int.ofNat_eq_natCast]; omega)
        exact ⟨m, hm, hp⟩
  have := hp.length_eq
  rw [List.length_flatMap, List.length_map, List.length_range] at this
  exact this

theorem settled_quiet {ms : List Mb} {count : Nat} (S : Settled ms count) (topic : Bytes) :
    Quiet (ms.map fun m => m.report topic) count topic where
  owned := by
    intro p hp
    rw [ownerOf_reports (mid_of_settled S)]
    obtain ⟨m, _, h⟩ := holder_some S hp.1 hp.2
    rw [h]; simp
  still := by
    intro x hx
    obtain ⟨m, hm, rfl⟩ := List.mem_map.1 hx
    rw [moving_report m topic (S.act m hm).1, (S.act m hm).2.1, (S.act m hm).2.2]; rfl

theorem settled_weights {ms : List Mb} {count : Nat} (S : Settled ms count) (o : Sched) (topic : Bytes) :
    let g := newGroupState o (ms.map fun m => m.report topic) count topic
    (∀ m ∈ ms, (g.mem m.id).pending = m.owned.length ∧ (g.mem m.id).donatable.length = m.owned.length) ∧
    g.active.Perm (ms.map Mb.id) ∧ Sorted (activeLess g.mem) g.active ∧ g.count = count := by
  intro g
  have T := start o (ms.map fun m => m.report topic) count topic (reports_nodup S.ids topic)
  have Q := settled_quiet S topic
  have hr : g.inReceivership = [] := by
    apply List.eq_nil_iff_forall_not_mem.2
    intro p hp
    obtain ⟨x, hx, tp, ht, _⟩ := (T.recv p).1 hp
    rw [Q.still x hx] at ht; simp at ht
  refine ⟨?_, ?_, T.sorted, T.cnt⟩
  · intro m hm
    have hmd := T.md (m.report topic) (List.mem_map.2 ⟨m, hm, rfl⟩)
    rw [id_report, md_report] at hmd
    have hdong : (g.mem m.id).donating = [] := by
      apply List.eq_nil_iff_forall_not_mem.2
      intro p hp
      have := (T.dong p m.id).1 hp
      rw [show (newGroupState o (ms.map fun m => m.report topic) count topic).inReceivership = [] from hr] at this
      simp at this
    have hdon : (g.mem m.id).donatable.Perm m.owned := by
      refine (List.perm_ext_iff_of_nodup (T.nodup m.id).2.1 (S.nodup m hm)).2 ?_
      intro p
      rw [T.don, T.asg, T.owner, ownerOf_reports (mid_of_settled S), holder_iff S hm,
        show (newGroupState o (ms.map fun m => m.report topic) count topic).inReceivership = [] from hr]
      simp
    have hl := hdon.length_eq
    refine ⟨?_, hl⟩
    unfold M.pending
    rw [hdong, hl, hmd]
    simp [(S.act m hm).2.1, (S.act m hm).2.2]
  · refine (List.perm_ext_iff_of_nodup (nodup_of_sorted T.sorted) S.ids).2 ?_
    intro i
    rw [T.active]
    constructor
    · rintro ⟨x, hx, rfl, _⟩
      obtain ⟨m, hm, rfl⟩ := List.mem_map.1 hx
      exact List.mem_map.2 ⟨m, hm, rfl⟩
    · intro h
      obtain ⟨m, hm, rfl⟩ := List.mem_map.1 h
      refine ⟨m.report topic, List.mem_map.2 ⟨m, hm, rfl⟩, rfl, ?_⟩
      rw [md_report]; simp only; rw [(S.act m hm).1]; decide

theorem head_le {mem : Nat → M} {l : List Nat} (hs : Sorted (activeLess mem) l) {r i : Nat}
    (hr : l.head? = some r) (hi : i ∈ l) : (mem r).pending ≤ (mem i).pending := by
  cases l with
  | nil => simp at hr
  | cons a l =>
    simp only [List.head?_cons, Option.some.injEq] at hr
    subst hr
    rcases List.mem_cons.1 hi with rfl | hi
    · exact Nat.le_refl _
    · have := (List.pairwise_cons.1 hs).1 i hi
      rw [activeLess_iff] at this; omega

theorem le_last {mem : Nat → M} {l : List Nat} (hs : Sorted (activeLess mem) l) {d i : Nat}
    (hd : l.getLast? = some d) (hi : i ∈ l) : (mem i).pending ≤ (mem d).pending := by
  obtain ⟨l', rfl⟩ := List.getLast?_eq_some_iff.1 hd
  rcases List.mem_append.1 hi with hi | hi
  · have := (List.pairwise_append.1 hs).2.2 i hi d (by simp)
    rw [activeLess_iff] at this; omega
  · simp at hi; subst hi; exact Nat.le_refl _

theorem imbalance_gap {ms : List Mb} {count : Nat} (S : Settled ms count) (o : Sched) (topic : Bytes) {d r : Mb}
    (hd : d ∈ ms) (hr : r ∈ ms)
    (h : isImbalanced (newGroupState o (ms.map fun m => m.report topic) count topic) = some (d.id, r.id)) :
    r.owned.length + 2 ≤ d.owned.length := by
  obtain ⟨w, hp, hs, hc⟩ := settled_weights S o topic
  generalize newGroupState o (ms.map fun m => m.report topic) count topic = g at *
  obtain ⟨b1, b2, b3, b4, b5⟩ := isImbalanced_some h
  rw [(w d hd).1, (w r hr).1, hc] at b5
  have hlen : g.active.length = ms.length := by rw [hp.length_eq]; simp
  rw [hlen] at b5 b1
  have hsum := sum_owned S
  have hle : ∀ m ∈ ms, m.owned.length ≤ d.owned.length := by
    intro m hm
    have := le_last hs b2 (hp.mem_iff.2 (List.mem_map.2 ⟨m, hm, rfl⟩))
    rw [(w m hm).1, (w d hd).1] at this; exact this
  have hge : ∀ m ∈ ms, r.owned.length ≤ m.owned.length := by
    intro m hm
    have := head_le hs b3 (hp.mem_iff.2 (List.mem_map.2 ⟨m, hm, rfl⟩))
    rw [(w m hm).1, (w r hr).1] at this; exact this
  by_contra hcon
  rcases b5 with b5 | b5
  · have h1 := sum_lt (f := fun m : Mb => m.owned.length) (l := ms) (t := count / ms.length)
      (fun m hm => by have := hle m hm; omega) ⟨r, hr, b5⟩
    have h2 := Nat.mul_div_le count ms.length
    rw [hsum] at h1; omega
  · have h1 := le_sum (f := fun m : Mb => m.owned.length) (l := ms) (t := count / ms.length + 1)
      (fun m hm => by have := hge m hm; omega)
    have h2 := Nat.lt_mul_div_succ count (show 0 < ms.length by omega)
    rw [hsum] at h1
    omega

theorem balanced_of_none {ms : List Mb} {count : Nat} (S : Settled ms count) (o : Sched) (topic : Bytes)
    (h : isImbalanced (newGroupState o (ms.map fun m => m.report topic) count topic) = none) : Balanced ms := by
  obtain ⟨w, hp, hs, hc⟩ := settled_weights S o topic
  generalize newGroupState o (ms.map fun m => m.report topic) count topic = g at *
  have hlen : g.active.length = ms.length := by rw [hp.length_eq]; simp
  intro x hx y hy
  by_contra hcon
  have hxa := hp.mem_iff.2 (List.mem_map.2 ⟨x, hx, rfl⟩)
  have hya := hp.mem_iff.2 (List.mem_map.2 ⟨y, hy, rfl⟩)
  have hne : g.active ≠ [] := by intro e; rw [e] at hxa; simp at hxa
  obtain ⟨d, hd⟩ : ∃ d, g.active.getLast? = some d := by
    cases hl : g.active.getLast? with
    | none => exact absurd (List.getLast?_eq_none_iff.1 hl) hne
    | some d => exact ⟨d, rfl⟩
  obtain ⟨r, hr⟩ : ∃ r, g.active.head? = some r := by
    obtain ⟨a, l, hl⟩ := List.exists_cons_of_ne_nil hne
    exact ⟨a, by rw [hl]; rfl⟩
  have h2 : ¬ g.active.length < 2 := by
    intro hlt
    have h1 : ms.length = 1 := by
      have := List.length_pos_iff.2 S.ne
      omega
    obtain ⟨a, ha⟩ := List.length_eq_one_iff.1 h1
    rw [ha] at hx hy
    simp at hx hy
    subst hx; subst hy
    omega
  unfold isImbalanced at h
  rw [if_neg h2] at h
  simp only [hd, hr] at h
  split at h
  · simp at h
  · rename_i hcnd
    apply hcnd
    obtain ⟨md, hmd, hdid⟩ := List.mem_map.1 (hp.mem_iff.1 (List.mem_of_getLast? hd))
    have hra : r ∈ g.active := List.mem_of_mem_head? hr
    obtain ⟨mr, hmr, hrid⟩ := List.mem_map.1 (hp.mem_iff.1 hra)
    have h3 := le_last hs hd hxa
    have h4 := head_le hs hr hya
    rw [← hdid] at h3 ⊢
    rw [← hrid] at h4 ⊢
    rw [(w x hx).1, (w md hmd).1] at h3
    rw [(w y hy).1, (w mr hmr).1] at h4
    rw [(w md hmd).1, (w mr hmr).1, (w md hmd).2]
    refine ⟨by omega, ?_⟩
    omega

theorem not_imbalanced {ms : List Mb} {count : Nat} (S : Settled ms count) (o : Sched) (topic : Bytes)
    (hb : Balanced ms) :
    isImbalanced (newGroupState o (ms.map fun m => m.report topic) count topic) = none := by
  cases h : isImbalanced (newGroupState o (ms.map fun m => m.report topic) count topic) with
  | none => rfl
  | some e =>
    obtain ⟨_, hp, _, _⟩ := settled_weights S o topic
    obtain ⟨b1, b2, b3, b4, b5⟩ := isImbalanced_some (d := e.1) (r := e.2) h
    obtain ⟨md, hmd, hdid⟩ := List.mem_map.1 (hp.mem_iff.1 (List.mem_of_getLast? b2))
    obtain ⟨mr, hmr, hrid⟩ := List.mem_map.1 (hp.mem_iff.1 (List.mem_of_mem_head? b3))
    have := imbalance_gap S o topic hmd hmr (by rw [hdid, hrid]; exact h)
    have := hb md hmd mr hmr
    omega

/-! ### A cycle -/

/-- The members after a step that keeps their ids. -/
theorem mid_map {ms : List Mb} {count : Nat} {own own' : Int → Option Nat} {rd rd' : Nat → List TP}
    (M : Mid ms count own rd) (f : Mb → Mb)
    (h : ∀ m ∈ ms, (f m).id = m.id ∧ (f m).status = activeMember ∧ (f m).preparing = [] ∧
      (f m).ready = rd' m.id ∧ (f m).owned.Nodup ∧ ∀ p, p ∈ (f m).owned ↔ own' p = some m.id)
    (hdom : ∀ p i, own' p = some i → i ∈ ms.map Mb.id ∧ 0 ≤ p ∧ p < (count : Int)) :
    Mid (ms.map f) count own' rd' := by
  have hid : (ms.map f).map Mb.id = ms.map Mb.id := by
    rw [List.map_map]
    apply List.map_congr_left
    intro m hm
    exact (h m hm).1
  refine { ids := by rw [hid]; exact M.ids, ne := ?_, act := ?_, prep := ?_, rdy := ?_, nodup := ?_, has := ?_,
           dom := by rw [hid]; exact hdom }
  · intro e; rw [List.map_eq_nil_iff] at e; exact M.ne e
  all_goals
    intro m' hm'
    obtain ⟨m, hm, rfl⟩ := List.mem_map.1 hm'
    obtain ⟨h1, h2, h3, h4, h5, h6⟩ := h m hm
  · exact h2
  · exact h3
  · rw [h4, h1]
  · exact h5
  · intro p; rw [h6, h1]

/-- Total on the partitions of the topic. -/
def Total (own : Int → Option Nat) (count : Nat) : Prop := ∀ p : Int, 0 ≤ p → p < count → own p ≠ none

theorem total_of_settled {ms : List Mb} {count : Nat} (S : Settled ms count) : Total (holder ms) count := by
  intro p h1 h2
  obtain ⟨m, _, h⟩ := holder_some S h1 h2
  rw [h]; simp

theorem cur_of_still {ms : List Mb} {count : Nat} {own cur : Int → Option Nat} {rd : Nat → List TP} {topic : Bytes}
    (M : Mid ms count own rd) (Ho : Holders (ms.map fun m => m.report topic) count topic cur) {p : Int}
    (ht : 0 ≤ p → p < (count : Int) → own p ≠ none) (hr : ∀ m ∈ ms, (⟨p, topic⟩ : TP) ∉ m.ready) :
    cur p = own p := by
  cases h : own p with
  | none =>
    refine Ho.alien p ?_ (by rw [ownerOf_reports M]; exact h)
    intro hp; exact ht hp.1 hp.2 h
  | some d =>
    rcases Ho.kept p d (by rw [ownerOf_reports M]; exact h) with h1 | ⟨x, hx, h1, h2⟩
    · exact h1
    · obtain ⟨m, hm, rfl⟩ := List.mem_map.1 hx
      rw [readyTPs_report m topic (M.act m hm)] at h2
      exact absurd h2 (hr m hm)

theorem nextOwn_self {own cur : Int → Option Nat} {p : Int} (h : cur p = own p) : nextOwn own cur p = own p := by
  unfold nextOwn; rw [if_pos (.inr h.symm), h]

theorem filter_new {l new : List TP} (h : ∀ tp ∈ l, tp ∉ new) : l.filter (fun x => decide (x ∉ new)) = l := by
  rw [List.filter_eq_self]
  intro tp ht
  simpa using h tp ht

/-- A round in a settled group changes nothing but the preparations it asks for. -/
theorem round_settled {ms : List Mb} {count : Nat} {own : Int → Option Nat}
    (M : Mid ms count own fun _ => []) (ht : Total own count) (o : Sched) (topic : Bytes) :
    ∃ pr, Prepares o (ms.map fun m => m.report topic) count topic pr ∧
      (∀ i, ((round o (ms.map fun m => m.report topic) count topic).instr i).prepare = pr i) ∧
      ∃ f, roundAll o count topic ms = ms.map f ∧ ∀ m ∈ ms, (f m).id = m.id ∧ (f m).status = activeMember ∧
        (f m).preparing = (prepareLoop [] (pr m.id)).1 ∧ (f m).ready = [] ∧ (f m).owned.Nodup ∧
        ∀ p, p ∈ (f m).owned ↔ own p = some m.id := by
  obtain ⟨cur, pr, Ho, P, hpr, H⟩ := round_mid M o topic
  have hcur : ∀ p, cur p = own p := fun p =>
    cur_of_still M Ho (ht p) (fun m hm => by rw [M.rdy m hm]; simp)
  refine ⟨pr, P, hpr, _, rfl, ?_⟩
  intro m hm
  obtain ⟨h1, h2, h3, h4, new, h5, h6, h7⟩ := H m hm _ rfl
  have hnew : ∀ tp, tp ∉ new := by
    intro tp htp
    rw [h5, nextOwn_self (hcur _)] at htp
    exact htp.2.2 htp.2.1
  refine ⟨h1, h2, ?_, ?_, h3, ?_⟩
  · rw [h6]; exact filter_new fun tp _ => hnew tp
  · rw [h7]; rfl
  · intro p; rw [h4, nextOwn_self (hcur p)]

/-- What a cycle does: nothing in a balanced group, otherwise it moves one partition. -/
inductive Cycled (ms : List Mb) (own : Int → Option Nat) (f : Mb → Mb) : Prop where
  | same (hb : Balanced ms) (h : ∀ m ∈ ms, ∀ p, p ∈ (f m).owned ↔ own p = some m.id)
  | moved (d r : Mb) (hd : d ∈ ms) (hr : r ∈ ms) (p : Int) (ho : own p = some d.id) (hne : d.id ≠ r.id)
      (hgap : r.owned.length + 2 ≤ d.owned.length)
      (h : ∀ m ∈ ms, ∀ q, q ∈ (f m).owned ↔ setH own p (some r.id) q = some m.id)

theorem cycle_spec {ms : List Mb} {count : Nat} (S : Settled ms count) (o : Sched × Sched × Sched)
    (topic : Bytes) :
    Settled (cycle o count topic ms) count ∧ ∃ f, cycle o count topic ms = ms.map f ∧
      (∀ m ∈ ms, (f m).id = m.id) ∧ (∀ m ∈ ms, (f m).owned.Nodup) ∧ Cycled ms (holder ms) f := by
  have M := mid_of_settled S
  have ht := total_of_settled S
  generalize holder ms = own at M ht
  obtain ⟨pr, P, _, f1, e1, H1⟩ := round_settled M ht o.1 topic
  have hpa : ∀ f : Mb → Mb, prepareAll (ms.map f) =
      ms.map fun m => (f m).preparing.foldl Mb.partitionPrepared (f m) := by
    intro f; unfold prepareAll; rw [List.map_map]; rfl
  cases P with
  | none hnone hq =>
    have hb : Balanced ms := balanced_of_none S o.1 topic (hq (settled_quiet S topic)).2
    have M1 : Mid (ms.map f1) count own fun _ => [] := by
      refine mid_map M f1 ?_ M.dom
      intro m hm
      obtain ⟨h1, h2, h3, h4, h5, h6⟩ := H1 m hm
      exact ⟨h1, h2, by rw [h3, hnone]; rfl, h4, h5, h6⟩
    have e1' : prepareAll (ms.map f1) = ms.map f1 := by
      rw [hpa]
      apply List.map_congr_left
      intro m hm
      rw [M1.prep (f1 m) (List.mem_map.2 ⟨m, hm, rfl⟩)]; rfl
    have Bd : ∀ ms' : List Mb, ∀ f : Mb → Mb, ms' = ms.map f → (∀ m ∈ ms, (f m).id = m.id) →
        Mid ms' count own (fun _ => []) → ∀ o', ∃ g : Mb → Mb, roundAll o' count topic ms' = ms.map g ∧
          (∀ m ∈ ms, (g m).id = m.id) ∧ Mid (ms.map g) count own fun _ => [] := by
      rintro _ f rfl hf M' o'
      obtain ⟨pr', P', _, f', e', H'⟩ := round_settled M' ht o' topic
      have hm' : ∀ m ∈ ms, f m ∈ ms.map f := fun m hm => List.mem_map.2 ⟨m, hm, rfl⟩
      have hz : ∀ i, pr' i = [] := by
        have S' := settled_of_mid M' ht
        have hlen : ∀ m ∈ ms, (f m).owned.length = m.owned.length := by
          intro m hm
          refine ((List.perm_ext_iff_of_nodup (M'.nodup _ (hm' m hm)) (M.nodup m hm)).2 ?_).length_eq
          intro p
          rw [M'.has _ (hm' m hm), M.has m hm, hf m hm]
        have hb' : Balanced (ms.map f) := by
          intro a ha b hb''
          obtain ⟨a', ha', rfl⟩ := List.mem_map.1 ha
          obtain ⟨b', hb3, rfl⟩ := List.mem_map.1 hb''
          rw [hlen a' ha', hlen b' hb3]; exact hb a' ha' b' hb3
        cases P' with
        | none h _ => exact h
        | one q mm dd hmm hdd p h1 h2 hne ho hs hw =>
          exfalso
          obtain ⟨m1, hm1, rfl⟩ := List.mem_map.1 hmm
          obtain ⟨d1, hd1, rfl⟩ := List.mem_map.1 hdd
          rcases hw with hw | ⟨_, _, hw⟩
          · exact hw (by unfold Input.stays; rw [md_report]; simp only; rw [M'.act d1 hd1]; decide)
          · have := not_imbalanced S' o' topic hb'
            rw [this] at hw; simp at hw
      refine ⟨fun m => f' (f m), by rw [e', List.map_map]; rfl, ?_, ?_⟩
      · intro m hm; rw [(H' _ (hm' m hm)).1, hf m hm]
      · have M2 := mid_map (own' := own) (rd' := fun _ => []) M' f' (fun m hm => by
          obtain ⟨h1, h2, h3, h4, h5, h6⟩ := H' m hm
          exact ⟨h1, h2, by rw [h3, hz]; rfl, h4, h5, h6⟩) M'.dom
        rw [List.map_map] at M2
        exact M2
    obtain ⟨f2, e2, hf2, M2⟩ := Bd _ f1 rfl (fun m hm => (H1 m hm).1) M1 o.2.1
    obtain ⟨f3, e3, hf3, M3⟩ := Bd _ f2 rfl hf2 M2 o.2.2
    have ec : cycle o count topic ms = ms.map f3 := by
      unfold cycle; rw [e1, e1', e2, e3]
    have hm3 : ∀ m ∈ ms, f3 m ∈ ms.map f3 := fun m hm => List.mem_map.2 ⟨m, hm, rfl⟩
    refine ⟨by rw [ec]; exact settled_of_mid M3 ht, f3, ec, hf3, fun m hm => M3.nodup _ (hm3 m hm), .same hb ?_⟩
    intro m hm p
    rw [M3.has _ (hm3 m hm), hf3 m hm]
  | one q mm dd hmm hdd p h1 h2 hne ho hs hw =>
    obtain ⟨r, hr, rfl⟩ := List.mem_map.1 hmm
    obtain ⟨d, hd, rfl⟩ := List.mem_map.1 hdd
    rw [ownerOf_reports M] at ho
    simp only [id_report] at h1 h2 hne ho hw
    have hgap : r.owned.length + 2 ≤ d.owned.length := by
      rcases hw with hw | ⟨_, _, hw⟩
      · exact absurd (by unfold Input.stays; rw [md_report]; simp only; rw [M.act d hd]; decide) hw
      · exact imbalance_gap S o.1 topic hd hr hw
    have hpr : 0 ≤ p ∧ p < (count : Int) := (M.dom p d.id ho).2
    -- after the first round and the preparation
    have e1' : prepareAll (roundAll o.1 count topic ms) =
        ms.map fun m => (f1 m).preparing.foldl Mb.partitionPrepared (f1 m) := by rw [e1, hpa]
    have M1 : Mid (ms.map fun m => (f1 m).preparing.foldl Mb.partitionPrepared (f1 m)) count own
        (fun i => if i = r.id then [⟨p, topic⟩] else []) := by
      refine mid_map M _ ?_ M.dom
      intro m hm
      obtain ⟨g1, g2, g3, g4, g5, g6⟩ := H1 m hm
      by_cases e : m.id = r.id
      · have hp' : (f1 m).preparing = [⟨p, topic⟩] := by rw [g3, e, h1]; simp [prepareLoop, insTP]
        rw [hp']
        simp only [List.foldl_cons, List.foldl_nil, Mb.partitionPrepared, hp', g4, e, if_true]
        refine ⟨by rw [g1, e], g2, by simp [delTP], by simp [insTP], g5, ?_⟩
        rw [← e]; exact g6
      · have hp' : (f1 m).preparing = [] := by rw [g3, h2 _ e]; rfl
        rw [hp']
        simp only [List.foldl_nil, e, if_false]
        exact ⟨g1, g2, hp', g4, g5, g6⟩
    have hid1 : ∀ m ∈ ms, ((f1 m).preparing.foldl Mb.partitionPrepared (f1 m)).id = m.id := by
      intro m hm
      have : ∀ (l : List TP) (x : Mb), (l.foldl Mb.partitionPrepared x).id = x.id := by
        intro l
        induction l with
        | nil => intro x; rfl
        | cons a l ih => intro x; rw [List.foldl_cons, ih]; rfl
      rw [this]; exact (H1 m hm).1
    rw [← e1'] at M1
    -- second round: the owner gives it up
    generalize hms1 : prepareAll (roundAll o.1 count topic ms) = ms1 at M1 e1'
    have hr1 : ∃ r1 ∈ ms1, r1.id = r.id ∧ r1.ready = [⟨p, topic⟩] := by
      have hin : (f1 r).preparing.foldl Mb.partitionPrepared (f1 r) ∈ ms1 := by
        rw [e1']; exact List.mem_map.2 ⟨r, hr, rfl⟩
      exact ⟨_, hin, hid1 r hr, by rw [M1.rdy _ hin, hid1 r hr, if_pos rfl]⟩
    have hids1 : ms1.map Mb.id = ms.map Mb.id := by
      rw [e1', List.map_map]
      exact List.map_congr_left fun m hm => hid1 m hm
    have hrd : ∀ x ms' own', Mid ms' count own' (fun i => if i = r.id then [⟨p, topic⟩] else []) → x ∈ ms' →
        ∀ q, (⟨q, topic⟩ : TP) ∈ x.ready ↔ x.id = r.id ∧ q = p := by
      intro x ms' own' M' hx q
      rw [M'.rdy x hx]
      by_cases e : x.id = r.id <;> simp [e]
    obtain ⟨cur2, pr2, Ho2, P2, _, H2⟩ := round_mid M1 o.2.1 topic
    have hcur2 : ∀ q, cur2 q = setH own p (some r.id) q := by
      intro q
      by_cases e : q = p
      · subst e
        simp only [setH, if_true]
        obtain ⟨r1, hr1, hr1i, hr1r⟩ := hr1
        obtain ⟨x, hx, hx1, hx2⟩ := Ho2.delivered q d.id (by rw [ownerOf_reports M1]; exact ho)
          ⟨r1.report topic, List.mem_map.2 ⟨r1, hr1, rfl⟩, by
            rw [readyTPs_report r1 topic (M1.act r1 hr1), hr1r]; simp⟩
        obtain ⟨y, hy, rfl⟩ := List.mem_map.1 hx
        rw [readyTPs_report y topic (M1.act y hy)] at hx2
        rw [hx1, id_report, ((hrd y ms1 own M1 hy q).1 hx2).1]
      · simp only [setH, e, if_false]
        refine cur_of_still M1 Ho2 (ht q) ?_
        intro m hm hq
        exact e ((hrd m ms1 own M1 hm q).1 hq).2
    have hown2 : ∀ q, nextOwn own cur2 q = setH own p none q := by
      intro q
      by_cases e : q = p
      · subst e
        unfold nextOwn
        rw [hcur2, if_neg]
        · simp [setH]
        · simp only [setH, if_true, ho, not_or]
          exact ⟨by simp, fun h => hne (Option.some.inj h)⟩
      · have : cur2 q = own q := by rw [hcur2]; simp [setH, e]
        rw [nextOwn_self this]; simp [setH, e]
    have hz2 : ∀ i, pr2 i = [] := by
      cases P2 with
      | none h _ => exact h
      | one q' => 
        exfalso
        obtain ⟨r1, hr1, hr1i, hr1r⟩ := hr1
        have := q'.still (r1.report topic) (List.mem_map.2 ⟨r1, hr1, rfl⟩)
        rw [moving_report r1 topic (M1.act r1 hr1), hr1r] at this
        simp at this
    have M2 : Mid (roundAll o.2.1 count topic ms1) count (setH own p none)
        (fun i => if i = r.id then [⟨p, topic⟩] else []) := by
      refine mid_map M1 _ ?_ ?_
      · intro m hm
        obtain ⟨g1, g2, g3, g4, new, g5, g6, g7⟩ := H2 m hm _ rfl
        have hnew : ∀ tp, tp ∉ new := by
          intro tp htp
          rw [g5, hown2] at htp
          obtain ⟨_, t1, t2⟩ := htp
          unfold setH at t1
          split at t1
          · simp at t1
          · exact t2 t1
        refine ⟨g1, g2, ?_, ?_, g3, ?_⟩
        · rw [g6, hz2]; rfl
        · rw [g7]; exact filter_new fun tp _ => hnew tp
        · intro q; rw [g4, hown2]
      · intro q i hq
        unfold setH at hq
        split at hq
        · simp at hq
        · exact M1.dom q i hq
    obtain ⟨f2, e2', hids2⟩ : ∃ f2 : Mb → Mb, roundAll o.2.1 count topic ms1 = ms1.map f2 ∧
        ∀ m ∈ ms1, (f2 m).id = m.id := ⟨_, rfl, fun m hm => (H2 m hm _ rfl).1⟩
    generalize hms2 : roundAll o.2.1 count topic ms1 = ms2 at M2 e2'
    have hr2 : ∃ r2 ∈ ms2, r2.id = r.id ∧ r2.ready = [⟨p, topic⟩] := by
      obtain ⟨r1, hr1, hr1i, _⟩ := hr1
      have hin : f2 r1 ∈ ms2 := by rw [e2']; exact List.mem_map.2 ⟨r1, hr1, rfl⟩
      refine ⟨_, hin, (hids2 r1 hr1).trans hr1i, ?_⟩
      rw [M2.rdy _ hin, (hids2 r1 hr1).trans hr1i, if_pos rfl]
    -- third round: the new owner gets it
    obtain ⟨cur3, pr3, Ho3, P3, _, H3⟩ := round_mid M2 o.2.2 topic
    have hcur3 : ∀ q, cur3 q = setH own p (some r.id) q := by
      intro q
      by_cases e : q = p
      · subst e
        simp only [setH, if_true]
        obtain ⟨r2, hr2, hr2i, hr2r⟩ := hr2
        have hst2 : ∀ y ∈ ms2, (y.report topic).stays := by
          intro y hy
          unfold Input.stays; rw [md_report]; simp only; rw [M2.act y hy]; decide
        obtain ⟨x, hx, hx1, _, hx2⟩ := Ho3.free q hpr (by rw [ownerOf_reports M2]; simp [setH])
        obtain ⟨y, hy, rfl⟩ := List.mem_map.1 hx
        have := hx2 ⟨r2.report topic, List.mem_map.2 ⟨r2, hr2, rfl⟩, hst2 r2 hr2, .inl (by
          rw [md_report]; simp only; rw [hr2r]; simp)⟩
        rw [hx1, id_report]
        rcases this with h | h
        · rw [md_report] at h
          rw [((hrd y ms2 _ M2 hy q).1 h).1]
        · rw [md_report] at h
          simp only at h
          rw [M2.prep y hy] at h; simp at h
      · have hh := cur_of_still M2 Ho3 (p := q) (by
            intro a b; simp only [setH, e, if_false]; exact ht q a b) (by
            intro m hm hq
            exact e ((hrd m ms2 _ M2 hm q).1 hq).2)
        rw [hh]; simp [setH, e]
    have hown3 : ∀ q, nextOwn (setH own p none) cur3 q = setH own p (some r.id) q := by
      intro q
      unfold nextOwn
      rw [if_pos]
      · exact hcur3 q
      · by_cases e : q = p
        · left; simp [setH, e]
        · right; rw [hcur3]; simp [setH, e]
    have hz3 : ∀ i, pr3 i = [] := by
      cases P3 with
      | none h _ => exact h
      | one q' =>
        exfalso
        obtain ⟨r2, hr2, hr2i, hr2r⟩ := hr2
        have := q'.still (r2.report topic) (List.mem_map.2 ⟨r2, hr2, rfl⟩)
        rw [moving_report r2 topic (M2.act r2 hr2), hr2r] at this
        simp at this
    have M3 : Mid (roundAll o.2.2 count topic ms2) count (setH own p (some r.id)) (fun _ => []) := by
      refine mid_map M2 _ ?_ ?_
      · intro m hm
        obtain ⟨g1, g2, g3, g4, new, g5, g6, g7⟩ := H3 m hm _ rfl
        refine ⟨g1, g2, ?_, ?_, g3, ?_⟩
        · rw [g6, hz3]; rfl
        · rw [g7]
          by_cases e : m.id = r.id
          · simp only [e, if_true]
            have : (⟨p, topic⟩ : TP) ∈ new := by
              rw [g5, hown3, e]; simp [setH]
            simp [this]
          · simp [e]
        · intro q; rw [g4, hown3]
      · intro q i hq
        unfold setH at hq
        split at hq
        · rename_i e
          subst e
          have hii := Option.some.inj hq
          subst hii
          refine ⟨?_, hpr⟩
          obtain ⟨r2, hr2, hr2i, _⟩ := hr2
          exact List.mem_map.2 ⟨r2, hr2, hr2i⟩
        · rename_i e
          exact M2.dom q i (by simp [setH, e, hq])
    have ht3 : Total (setH own p (some r.id)) count := by
      intro q a b
      unfold setH
      split
      · simp
      · exact ht q a b
    have ec : cycle o count topic ms = roundAll o.2.2 count topic ms2 := by
      unfold cycle; rw [hms1, hms2]
    obtain ⟨f3, e3', hids3⟩ : ∃ f3 : Mb → Mb, roundAll o.2.2 count topic ms2 = ms2.map f3 ∧
        ∀ m ∈ ms2, (f3 m).id = m.id := ⟨_, rfl, fun m hm => (H3 m hm _ rfl).1⟩
    have hin : ∀ m ∈ ms, f2 ((f1 m).preparing.foldl Mb.partitionPrepared (f1 m)) ∈ ms2 ∧
        (f2 ((f1 m).preparing.foldl Mb.partitionPrepared (f1 m))).id = m.id := by
      intro m hm
      have hm1 : (f1 m).preparing.foldl Mb.partitionPrepared (f1 m) ∈ ms1 := by
        rw [e1']; exact List.mem_map.2 ⟨m, hm, rfl⟩
      refine ⟨by rw [e2']; exact List.mem_map.2 ⟨_, hm1, rfl⟩, ?_⟩
      rw [hids2 _ hm1, hid1 m hm]
    refine ⟨by rw [ec]; exact settled_of_mid M3 ht3,
      fun m => f3 (f2 ((f1 m).preparing.foldl Mb.partitionPrepared (f1 m))), by
      rw [ec, e3', e2', List.map_map, e1', List.map_map]; rfl, ?_, ?_, ?_⟩
    · intro m hm
      rw [hids3 _ (hin m hm).1, (hin m hm).2]
    · intro m hm
      exact M3.nodup _ (by rw [e3']; exact List.mem_map.2 ⟨_, (hin m hm).1, rfl⟩)
    · refine .moved d r hd hr p ho hne hgap ?_
      intro m hm q
      rw [M3.has _ (by rw [e3']; exact List.mem_map.2 ⟨_, (hin m hm).1, rfl⟩), hids3 _ (hin m hm).1, (hin m hm).2]

/-! ### Convergence -/

/-- What strictly decreases: the sum of the squares of the numbers of partitions. -/
def sumsq (ms : List Mb) : Nat := (ms.map fun m => m.owned.length * m.owned.length).sum

theorem sq_move {a b : Nat} (h : b + 2 ≤ a) : (a - 1) * (a - 1) + (b + 1) * (b + 1) < a * a + b * b := by
  obtain ⟨k, rfl⟩ : ∃ k, a = b + 2 + k := ⟨a - (b + 2), by omega⟩
  have : b + 2 + k - 1 = b + 1 + k := by omega
  rw [this]
  simp only [Nat.add_mul, Nat.mul_add]
  have := Nat.mul_comm k b
  omega

theorem nodup_of_ids {ms : List Mb} (h : (ms.map Mb.id).Nodup) : ms.Nodup := List.Nodup.of_map _ h

/-- The members of the group after `n` cycles. -/
def cycles (os : Nat → Sched × Sched × Sched) (count : Nat) (topic : Bytes) (ms : List Mb) : Nat → List Mb
  | 0 => ms
  | n + 1 => cycle (os n) count topic (cycles os count topic ms n)

theorem cycle_progress {ms : List Mb} {count : Nat} (S : Settled ms count) (o : Sched × Sched × Sched)
    (topic : Bytes) :
    Settled (cycle o count topic ms) count ∧
      (Balanced ms → Balanced (cycle o count topic ms) ∧ ∀ p, holder (cycle o count topic ms) p = holder ms p) ∧
      (¬ Balanced ms → sumsq (cycle o count topic ms) < sumsq ms) ∧
      (cycle o count topic ms).map Mb.id = ms.map Mb.id := by
  obtain ⟨S', f, e, hid, hnd, C⟩ := cycle_spec S o topic
  have M := mid_of_settled S
  have hids : (cycle o count topic ms).map Mb.id = ms.map Mb.id := by
    rw [e, List.map_map]; exact List.map_congr_left fun m hm => hid m hm
  have hin : ∀ m ∈ ms, f m ∈ cycle o count topic ms := fun m hm => by
    rw [e]; exact List.mem_map.2 ⟨m, hm, rfl⟩
  cases C with
  | same hb h =>
    have hlen : ∀ m ∈ ms, (f m).owned.length = m.owned.length := by
      intro m hm
      refine ((List.perm_ext_iff_of_nodup (hnd m hm) (S.nodup m hm)).2 ?_).length_eq
      intro p
      rw [h m hm, M.has m hm]
    refine ⟨S', fun _ => ⟨?_, ?_⟩, fun h => absurd hb h, hids⟩
    · intro a ha b hb'
      rw [e] at ha hb'
      obtain ⟨a', ha', rfl⟩ := List.mem_map.1 ha
      obtain ⟨b', hb3, rfl⟩ := List.mem_map.1 hb'
      rw [hlen a' ha', hlen b' hb3]; exact hb a' ha' b' hb3
    · intro p
      cases hp : holder ms p with
      | none =>
        cases hp' : holder (cycle o count topic ms) p with
        | none => rfl
        | some i =>
          exfalso
          obtain ⟨hi, _⟩ := (mid_of_settled S').dom p i hp'
          rw [hids] at hi
          obtain ⟨m, hm, rfl⟩ := List.mem_map.1 hi
          have := (holder_iff S' (hin m hm) p).2 (by rw [hp', hid m hm])
          rw [h m hm, hp] at this
          simp at this
      | some i =>
        obtain ⟨hi, _⟩ := M.dom p i hp
        obtain ⟨m, hm, rfl⟩ := List.mem_map.1 hi
        have := (holder_iff S' (hin m hm) p).1 ((h m hm p).2 hp)
        rw [this, hid m hm]
  | moved d r hd hr p ho hne hgap h =>
    have hnb : ¬ Balanced ms := by
      intro hb; have := hb d hd r hr; omega
    refine ⟨S', fun h => absurd h hnb, fun _ => ?_, hids⟩
    have hdr : d ≠ r := fun e => hne (by rw [e])
    have hr' : (f r).owned.length = r.owned.length + 1 := by
      have : (f r).owned.Perm (p :: r.owned) := by
        refine (List.perm_ext_iff_of_nodup (hnd r hr) (List.nodup_cons.2 ⟨?_, S.nodup r hr⟩)).2 ?_
        · rw [M.has r hr, ho]; intro h; exact hne (Option.some.inj h)
        · intro q
          rw [h r hr, List.mem_cons, M.has r hr]
          unfold setH
          by_cases e : q = p <;> simp [e]
      rw [this.length_eq]; simp
    have hd' : (f d).owned.length + 1 = d.owned.length := by
      have : (p :: (f d).owned).Perm d.owned := by
        refine (List.perm_ext_iff_of_nodup (List.nodup_cons.2 ⟨?_, hnd d hd⟩) (S.nodup d hd)).2 ?_
        · rw [h d hd]; simp [setH]; exact fun h => hne h.symm
        · intro q
          rw [List.mem_cons, h d hd, M.has d hd]
          unfold setH
          by_cases e : q = p
          · simp [e, ho]
          · simp [e]
      rw [← this.length_eq]; simp
    have ho' : ∀ m ∈ ms, m ≠ d → m ≠ r → (f m).owned.length = m.owned.length := by
      intro m hm h1 h2
      refine ((List.perm_ext_iff_of_nodup (hnd m hm) (S.nodup m hm)).2 ?_).length_eq
      intro q
      rw [h m hm, M.has m hm]
      unfold setH
      by_cases e : q = p
      · subst e
        simp only [if_true, ho]
        constructor
        · intro h'; exact absurd (mb_eq S.ids hr hm (Option.some.inj h')).symm h2
        · intro h'; exact absurd (mb_eq S.ids hd hm (Option.some.inj h')).symm h1
      · simp [e]
    have hn := nodup_of_ids S.ids
    let a0 : Mb → Nat := fun m => m.owned.length * m.owned.length
    let a1 : Mb → Nat := fun m => if m = d then (d.owned.length - 1) * (d.owned.length - 1) else a0 m
    let a2 : Mb → Nat := fun m => if m = r then (r.owned.length + 1) * (r.owned.length + 1) else a1 m
    have s1 := sum_upd (f := a0) (h := a1) hn hd (fun x _ hx => by simp [a1, hx])
    have s2 := sum_upd (f := a1) (h := a2) hn hr (fun x _ hx => by simp [a2, hx])
    have s3 : sumsq (cycle o count topic ms) = (ms.map a2).sum := by
      unfold sumsq
      rw [e, List.map_map]
      congr 1
      apply List.map_congr_left
      intro m hm
      simp only [Function.comp, a2, a1, a0]
      by_cases h2 : m = r
      · rw [h2, if_pos rfl, hr']
      · rw [if_neg h2]
        by_cases h1 : m = d
        · rw [h1, if_pos rfl]
          have : (f d).owned.length = d.owned.length - 1 := by omega
          rw [this]
        · rw [if_neg h1, ho' m hm h1 h2]
    have e1 : a1 d = (d.owned.length - 1) * (d.owned.length - 1) := by simp [a1]
    have e2 : a2 r = (r.owned.length + 1) * (r.owned.length + 1) := by simp [a2]
    have e3 : a1 r = r.owned.length * r.owned.length := by simp [a1, a0, Ne.symm hdr]
    have e4 : a0 d = d.owned.length * d.owned.length := rfl
    have e5 : sumsq ms = (ms.map a0).sum := rfl
    have := sq_move hgap
    omega

theorem cycles_converge {ms : List Mb} {count : Nat} (S : Settled ms count) (os : Nat → Sched × Sched × Sched)
    (topic : Bytes) :
    ∃ n, n ≤ sumsq ms ∧ ∀ k, n ≤ k → Settled (cycles os count topic ms k) count ∧
      Balanced (cycles os count topic ms k) ∧
      ∀ p, holder (cycles os count topic ms k) p = holder (cycles os count topic ms n) p := by
  have hS : ∀ k, Settled (cycles os count topic ms k) count := by
    intro k
    induction k with
    | zero => exact S
    | succ k ih => exact (cycle_progress ih _ _).1
  have hex : ∃ n, n ≤ sumsq ms ∧ Balanced (cycles os count topic ms n) := by
    by_contra hcon
    have hnb : ∀ n, n ≤ sumsq ms → ¬ Balanced (cycles os count topic ms n) := fun n hn hb => hcon ⟨n, hn, hb⟩
    have : ∀ n, n ≤ sumsq ms + 1 → sumsq (cycles os count topic ms n) + n ≤ sumsq ms := by
      intro n
      induction n with
      | zero => intro _; simp [cycles]
      | succ n ih =>
        intro hn
        have h1 := ih (by omega)
        have h2 := (cycle_progress (hS n) (os n) topic).2.2.1 (hnb n (by omega))
        simp only [cycles]; omega
    have := this (sumsq ms + 1) (Nat.le_refl _)
    omega
  obtain ⟨n, hn, hb⟩ := hex
  refine ⟨n, hn, ?_⟩
  intro k hk
  obtain ⟨j, rfl⟩ := Nat.le.dest hk
  clear hk
  induction j with
  | zero => exact ⟨hS n, hb, fun _ => rfl⟩
  | succ j ih =>
    obtain ⟨h1, h2, h3⟩ := ih
    obtain ⟨h4, h5⟩ := (cycle_progress h1 (os (n + j)) topic).2.1 h2
    exact ⟨hS _, h4, fun p => (h5 p).trans (h3 p)⟩

/-- In a balanced settled group a round asks nobody to prepare anything. -/
theorem settled_no_prepare {ms : List Mb} {count : Nat} (S : Settled ms count) (hb : Balanced ms) (o : Sched)
    (topic : Bytes) (i : Nat) : ((round o (ms.map fun m => m.report topic) count topic).instr i).prepare = [] := by
  obtain ⟨pr, P, hpr, _⟩ := round_settled (mid_of_settled S) (total_of_settled S) o topic
  rw [hpr]
  cases P with
  | none h _ => exact h i
  | one q mm dd hmm hdd p h1 h2 hne ho hs hw =>
    exfalso
    obtain ⟨d1, hd1, rfl⟩ := List.mem_map.1 hdd
    rcases hw with hw | ⟨_, _, hw⟩
    · exact hw (by unfold Input.stays; rw [md_report]; simp only; rw [(S.act d1 hd1).1]; decide)
    · rw [not_imbalanced S o topic hb] at hw; simp at hw

/-- A group of active members with nothing in motion is settled after one round, however many of the partitions
were without an owner. -/
theorem round_settles {ms : List Mb} {count : Nat} {own : Int → Option Nat}
    (M : Mid ms count own fun _ => []) (o : Sched) (topic : Bytes) (hfree : ∃ p : Int, 0 ≤ p ∧ p < count ∧ own p = none) :
    Settled (roundAll o count topic ms) count ∧
      ∀ m ∈ ms, ∀ p, p ∈ m.owned → ∃ m' ∈ roundAll o count topic ms, m'.id = m.id ∧ p ∈ m'.owned := by
  obtain ⟨cur, pr, Ho, P, hpr, H⟩ := round_mid M o topic
  have hz : ∀ i, pr i = [] := by
    cases P with
    | none h _ => exact h
    | one q =>
      exfalso
      obtain ⟨p, h1, h2, h3⟩ := hfree
      exact q.owned p ⟨h1, h2⟩ (by rw [ownerOf_reports M]; exact h3)
  have hkept : ∀ p d, own p = some d → cur p = some d := by
    intro p d h
    rcases Ho.kept p d (by rw [ownerOf_reports M]; exact h) with h1 | ⟨x, hx, h1, h2⟩
    · exact h1
    · obtain ⟨m, hm, rfl⟩ := List.mem_map.1 hx
      rw [readyTPs_report m topic (M.act m hm), M.rdy m hm] at h2
      simp at h2
  have hnext : ∀ p, nextOwn own cur p = cur p := by
    intro p
    unfold nextOwn
    rw [if_pos]
    cases h : own p with
    | none => left; rfl
    | some d => right; rw [hkept p d h]
  have hids : ∀ p i, cur p = some i → i ∈ ms.map Mb.id ∧ 0 ≤ p ∧ p < (count : Int) := by
    intro p i hi
    cases h : own p with
    | some d =>
      rw [hkept p d h] at hi
      cases hi
      exact M.dom p _ h
    | none =>
      by_cases hr : 0 ≤ p ∧ p < (count : Int)
      · obtain ⟨x, hx, hx1, _⟩ := Ho.free p hr (by rw [ownerOf_reports M]; exact h)
        obtain ⟨m, hm, rfl⟩ := List.mem_map.1 hx
        rw [hx1] at hi
        cases hi
        exact ⟨List.mem_map.2 ⟨m, hm, rfl⟩, hr⟩
      · rw [Ho.alien p hr (by rw [ownerOf_reports M]; exact h)] at hi; simp at hi
  obtain ⟨f, ef, hf⟩ : ∃ f : Mb → Mb, roundAll o count topic ms = ms.map f ∧ ∀ m ∈ ms,
      (f m).id = m.id ∧ (f m).status = activeMember ∧ (f m).preparing = [] ∧
      (f m).ready = [] ∧ (f m).owned.Nodup ∧ ∀ p, p ∈ (f m).owned ↔ cur p = some m.id := by
    refine ⟨_, rfl, ?_⟩
    intro m hm
    obtain ⟨g1, g2, g3, g4, new, g5, g6, g7⟩ := H m hm _ rfl
    refine ⟨g1, g2, ?_, ?_, g3, ?_⟩
    · rw [g6, hz]; rfl
    · rw [g7]; rfl
    · intro q; rw [g4, hnext]
  rw [ef]
  refine ⟨settled_of_mid (mid_map M f (rd' := fun _ => []) hf hids) ?_, ?_⟩
  · intro p a b hn
    cases h : own p with
    | some d => rw [hkept p d h] at hn; simp at hn
    | none =>
      obtain ⟨x, _, hx1, _⟩ := Ho.free p ⟨a, b⟩ (by rw [ownerOf_reports M]; exact h)
      rw [hx1] at hn; simp at hn
  · intro m hm p hp
    refine ⟨f m, List.mem_map.2 ⟨m, hm, rfl⟩, (hf m hm).1, ?_⟩
    rw [(hf m hm).2.2.2.2.2, hkept p m.id ((M.has m hm p).1 hp)]

end Verif.Rebalance

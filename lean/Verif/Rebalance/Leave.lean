import Verif.Rebalance.Converge
/-
Rounds of a group from which members leave gracefully.
-/
set_option linter.unusedSectionVars false
set_option linter.unusedSimpArgs false
namespace Verif.Rebalance

open Verif.BTree

/-- A group with the members that have gone. -/
structure Grp where
  members : List Mb
  left : List Mb

/-- All members take part in a round and take up the plan (`roundAll`). A member that is defunct after that has closed its channel; `leave` waits for that and
closes the client (`streams/source_consumer.go:387-391`). Simplification: the member is then gone before the next round. -/
def Grp.round (o : Sched) (count : Nat) (topic : Bytes) (g : Grp) : Grp :=
  { members := (roundAll o count topic g.members).filter fun m => decide (m.status ≠ defunct)
    left := g.left ++ (roundAll o count topic g.members).filter fun m => decide (m.status = defunct) }

/-- Every member finishes the preparations it has begun (`streams/source_consumer.go:147-158`). -/
def Grp.prepare (g : Grp) : Grp := { g with members := prepareAll g.members }

/-- Three rounds, with the preparations that were requested in the first one carried out before the second (`streams/incr_rebalancer.go:148-176`,
`streams/source_consumer.go:139-173`). -/
def Grp.cycle (o : Sched × Sched × Sched) (count : Nat) (topic : Bytes) (g : Grp) : Grp :=
  (((g.round o.1 count topic).prepare).round o.2.1 count topic).round o.2.2 count topic

/-- The group after some cycles. See `Grp.cycle` (`streams/incr_rebalancer.go:148-176`). -/
def Grp.cycles (os : Nat → Sched × Sched × Sched) (count : Nat) (topic : Bytes) (g : Grp) : Nat → Grp
  | 0 => g
  | n + 1 => (Grp.cycles os count topic g n).cycle (os n) count topic

/-- A group of active and leaving members: `own` says who owns what, `rd` which partitions the active members have ready. Nothing is said about what leaving
members are preparing. -/
structure MidL (ms : List Mb) (count : Nat) (own : Int → Option Nat) (rd : Nat → List TP) : Prop where
  ids : (ms.map Mb.id).Nodup
  stay : ∃ m ∈ ms, m.status = activeMember
  st : ∀ m ∈ ms, m.status = activeMember ∨ m.status = inactiveMember
  prep : ∀ m ∈ ms, m.status = activeMember → m.preparing = []
  rdy : ∀ m ∈ ms, m.status = activeMember → m.ready = rd m.id
  nodup : ∀ m ∈ ms, m.owned.Nodup
  has : ∀ m ∈ ms, ∀ p, p ∈ m.owned ↔ own p = some m.id
  dom : ∀ p i, own p = some i → i ∈ ms.map Mb.id ∧ 0 ≤ p ∧ p < (count : Int)

theorem ownerOf_reportsL {ms : List Mb} {count : Nat} {own : Int → Option Nat} {rd : Nat → List TP}
    (M : MidL ms count own rd) (topic : Bytes) (p : Int) :
    ownerOf (ms.map fun m => m.report topic) topic p = own p := by
  cases h : own p with
  | none =>
    rw [ownerOf_none]
    intro x hx
    obtain ⟨m, hm, rfl⟩ := List.mem_map.1 hx
    rw [ownedOf_report, M.has m hm, h]; simp
  | some i =>
    obtain ⟨hi, _⟩ := M.dom p i h
    obtain ⟨m, hm, rfl⟩ := List.mem_map.1 hi
    rw [ownerOf_eq (x := m.report topic) (List.mem_map.2 ⟨m, hm, rfl⟩)
      (by rw [ownedOf_report, M.has m hm, h])]
    · rfl
    · intro y hy hp
      obtain ⟨m', hm', rfl⟩ := List.mem_map.1 hy
      rw [ownedOf_report, M.has m' hm', h] at hp
      rw [mb_eq M.ids hm hm' (Option.some.inj hp)]

theorem inactive_ne_active : inactiveMember ≠ activeMember := by decide

theorem moving_leaving (m : Mb) (topic : Bytes) (h : m.status = inactiveMember) : (m.report topic).moving = [] := by
  simp [Input.moving, Mb.report, h, inactive_ne_active]

theorem readyTPs_leaving (m : Mb) (topic : Bytes) (h : m.status = inactiveMember) : (m.report topic).readyTPs = [] := by
  simp [Input.readyTPs, Mb.report, h, inactive_ne_active]

theorem stays_report (m : Mb) (topic : Bytes) (h : m.status = activeMember) : (m.report topic).stays := by
  unfold Input.stays; rw [md_report]; simp only; rw [h]; decide

theorem not_stays_report (m : Mb) (topic : Bytes) (h : m.status = inactiveMember) : ¬ (m.report topic).stays := by
  unfold Input.stays; rw [md_report]; simp only; rw [h]; simp

/-- What a round does to the members. -/
theorem round_leave {ms : List Mb} {count : Nat} {own : Int → Option Nat} {rd : Nat → List TP}
    (M : MidL ms count own rd) (o : Sched) (topic : Bytes) :
    ∃ cur pr, Holders (ms.map fun m => m.report topic) count topic cur ∧
      Prepares o (ms.map fun m => m.report topic) count topic pr ∧
      ∀ m ∈ ms, ∀ m', m' = m.sync topic ((round o (ms.map fun m => m.report topic) count topic).parts m.id)
          ((round o (ms.map fun m => m.report topic) count topic).instr m.id) →
        m'.id = m.id ∧ m'.owned.Nodup ∧
        (∀ p, p ∈ m'.owned ↔ nextOwn own cur p = some m.id) ∧
        (m.status = activeMember → m'.status = activeMember ∧ m'.closes = m.closes ∧
          ∃ new : List TP, (∀ tp : TP, tp ∈ new ↔ tp.topic = topic ∧ nextOwn own cur tp.part = some m.id ∧
              own tp.part ≠ some m.id) ∧
            m'.preparing = (prepareLoop [] (pr m.id)).1.filter (fun x => x ∉ new) ∧
            m'.ready = (rd m.id).filter (fun x => x ∉ new)) ∧
        (m.status = inactiveMember → (m'.owned = [] → m'.status = defunct ∧ m'.closes = m.closes + 1) ∧
          (m'.owned ≠ [] → m'.status = inactiveMember ∧ m'.closes = m.closes)) := by
  have hn := reports_nodup M.ids topic
  have ha : ∃ x ∈ ms.map fun m => m.report topic, x.stays := by
    obtain ⟨m, hm, hs⟩ := M.stay
    exact ⟨m.report topic, List.mem_map.2 ⟨m, hm, rfl⟩, stays_report m topic hs⟩
  obtain ⟨⟨cur, Ho, hc⟩, P, hf, hnd⟩ := plan_spec o _ count topic hn ha
  refine ⟨cur, _, Ho, P, ?_⟩
  rintro m hm m' rfl
  have hmem : ∀ p, p ∈ (round o (ms.map fun m => m.report topic) count topic).parts m.id ↔
      nextOwn own cur p = some m.id := by
    intro p
    rw [mem_round, hc]
    constructor
    · rintro ⟨h1, h2⟩
      unfold nextOwn
      rw [if_pos]
      · exact h1
      · rcases h2 with ⟨x, hx, hxi, hxo⟩ | h2
        · obtain ⟨y, hy, rfl⟩ := List.mem_map.1 hx
          rw [ownedOf_report, M.has y hy] at hxo
          right; rw [hxo, h1]
          rw [id_report] at hxi; rw [hxi]
        · cases ho : own p with
          | none => exact .inl rfl
          | some i =>
            right
            obtain ⟨hi, _⟩ := M.dom p i ho
            obtain ⟨y, hy, rfl⟩ := List.mem_map.1 hi
            have := h2 (y.report topic) (List.mem_map.2 ⟨y, hy, rfl⟩)
              (by rw [ownedOf_report, M.has y hy, ho])
            rw [hc] at this
            rw [this]; rfl
    · intro h
      unfold nextOwn at h
      split at h
      · rename_i hcase
        refine ⟨h, ?_⟩
        rcases hcase with h0 | h0
        · right
          intro x hx hp
          obtain ⟨y, hy, rfl⟩ := List.mem_map.1 hx
          rw [ownedOf_report, M.has y hy, h0] at hp
          simp at hp
        · left
          exact ⟨m.report topic, List.mem_map.2 ⟨m, hm, rfl⟩, rfl, by
            rw [ownedOf_report, M.has m hm, h0, h]⟩
      · simp at h
  have hforget : m.status = activeMember → ((round o (ms.map fun m => m.report topic) count topic).instr m.id).forget = [] := by
    intro hs
    have := hf (m.report topic) (List.mem_map.2 ⟨m, hm, rfl⟩)
    rw [forget_report m topic hs] at this
    exact this
  have hprep : ∀ i, ((round o (ms.map fun m => m.report topic) count topic).instr i).prepare =
      ((balanceTopic o (ms.map fun m => m.report topic) count topic).instr i).prepare := fun _ => rfl
  have hpnd : ((round o (ms.map fun m => m.report topic) count topic).parts m.id).Nodup := by
    unfold round adjustCooperative
    exact (hnd m.id).filter _
  generalize hpl : round o (ms.map fun m => m.report topic) count topic = pl at *
  have hsync : m.sync topic (pl.parts m.id) (pl.instr m.id) =
      { (m.parseSync [(topic, pl.parts m.id)] (pl.instr m.id)).1 with
        owned := pl.parts m.id
        preparing := (m.parseSync [(topic, pl.parts m.id)] (pl.instr m.id)).1.preparing.filter fun x =>
          x ∉ (((pl.parts m.id).filter fun p => p ∉ m.owned).map fun p => (⟨p, topic⟩ : TP))
        ready := (m.parseSync [(topic, pl.parts m.id)] (pl.instr m.id)).1.ready.filter fun x =>
          x ∉ (((pl.parts m.id).filter fun p => p ∉ m.owned).map fun p => (⟨p, topic⟩ : TP)) } := by
    unfold Mb.sync
    simp only
    rw [partitionsAssigned_eq]
  have hid : (m.parseSync [(topic, pl.parts m.id)] (pl.instr m.id)).1.id = m.id := by
    unfold Mb.parseSync; split <;> rfl
  rw [hsync]
  refine ⟨hid, hpnd, hmem, ?_, ?_⟩
  · intro hst
    have hparse : (m.parseSync [(topic, pl.parts m.id)] (pl.instr m.id)).1 =
        { m with preparing := (prepareLoop m.preparing (pl.instr m.id).prepare).1 } := by
      unfold Mb.parseSync
      rw [if_neg (by rw [hst]; rintro ⟨h, _⟩; exact absurd h (by decide)), hforget hst]
      rfl
    rw [hparse]
    refine ⟨hst, rfl, ((pl.parts m.id).filter fun p => p ∉ m.owned).map fun p => (⟨p, topic⟩ : TP), ?_, ?_, ?_⟩
    · intro tp
      simp only [List.mem_map, List.mem_filter, decide_eq_true_eq, hmem, M.has m hm]
      constructor
      · rintro ⟨p, ⟨h1, h2⟩, rfl⟩
        exact ⟨rfl, h1, h2⟩
      · rintro ⟨h1, h2, h3⟩
        exact ⟨tp.part, ⟨h2, h3⟩, by cases tp; simp at h1; simp [h1]⟩
    · simp only
      rw [M.prep m hm hst, hprep]
    · simp only
      rw [M.rdy m hm hst]
  · intro hst
    constructor
    · intro he
      have he' : pl.parts m.id = [] := he
      have : m.parseSync [(topic, pl.parts m.id)] (pl.instr m.id) = ({ m with status := defunct, closes := m.closes + 1 }, ⟨[], []⟩) := by
        unfold Mb.parseSync
        rw [if_pos ⟨hst, by simp [he']⟩]
      rw [this]
      exact ⟨rfl, rfl⟩
    · intro he
      have he' : pl.parts m.id ≠ [] := he
      unfold Mb.parseSync
      rw [if_neg (by rintro ⟨_, h⟩; simp at h; exact he' h)]
      exact ⟨hst, rfl⟩

/-- The members that remain after a step. -/
theorem midL_next {ms : List Mb} {count : Nat} {own own' : Int → Option Nat} {rd rd' : Nat → List TP}
    (M : MidL ms count own rd) (f : Mb → Mb)
    (h : ∀ m ∈ ms, (f m).id = m.id ∧ (f m).owned.Nodup ∧ (∀ p, p ∈ (f m).owned ↔ own' p = some m.id) ∧
      (m.status = activeMember → (f m).status = activeMember ∧ (f m).preparing = [] ∧ (f m).ready = rd' m.id) ∧
      (m.status = inactiveMember → ((f m).owned = [] → (f m).status = defunct) ∧ ((f m).owned ≠ [] → (f m).status = inactiveMember)))
    (hdom : ∀ p i, own' p = some i → i ∈ ms.map Mb.id ∧ 0 ≤ p ∧ p < (count : Int)) :
    MidL ((ms.map f).filter fun m => decide (m.status ≠ defunct)) count own' rd' := by
  have hmem : ∀ x ∈ (ms.map f).filter (fun m => decide (m.status ≠ defunct)), ∃ m ∈ ms, x = f m ∧ x.status = m.status := by
    intro x hx
    obtain ⟨h1, h2⟩ := List.mem_filter.1 hx
    obtain ⟨m, hm, rfl⟩ := List.mem_map.1 h1
    refine ⟨m, hm, rfl, ?_⟩
    obtain ⟨_, _, _, ha, hi⟩ := h m hm
    rcases M.st m hm with hs | hs
    · rw [hs]; exact (ha hs).1
    · rw [hs]
      by_cases he : (f m).owned = []
      · exact absurd ((hi hs).1 he) (by simpa using h2)
      · exact (hi hs).2 he
  refine { ids := ?_, stay := ?_, st := ?_, prep := ?_, rdy := ?_, nodup := ?_, has := ?_, dom := ?_ }
  · have hid : (ms.map f).map Mb.id = ms.map Mb.id := by
      rw [List.map_map]
      apply List.map_congr_left
      intro m hm
      exact (h m hm).1
    have : ((ms.map f).map Mb.id).Nodup := by rw [hid]; exact M.ids
    exact this.sublist (List.Sublist.map _ List.filter_sublist)
  · obtain ⟨m, hm, hs⟩ := M.stay
    have := ((h m hm).2.2.2.1 hs).1
    exact ⟨f m, List.mem_filter.2 ⟨List.mem_map.2 ⟨m, hm, rfl⟩, by rw [this]; decide⟩, this⟩
  · intro x hx
    obtain ⟨m, hm, rfl, e⟩ := hmem x hx
    rw [e]; exact M.st m hm
  · intro x hx hs
    obtain ⟨m, hm, rfl, e⟩ := hmem x hx
    exact ((h m hm).2.2.2.1 (by rw [← e]; exact hs)).2.1
  · intro x hx hs
    obtain ⟨m, hm, rfl, e⟩ := hmem x hx
    rw [((h m hm).2.2.2.1 (by rw [← e]; exact hs)).2.2, (h m hm).1]
  · intro x hx
    obtain ⟨m, hm, rfl, e⟩ := hmem x hx
    exact (h m hm).2.1
  · intro x hx p
    obtain ⟨m, hm, rfl, e⟩ := hmem x hx
    rw [(h m hm).2.2.1, (h m hm).1]
  · intro p i hp
    obtain ⟨hi, hr⟩ := hdom p i hp
    refine ⟨?_, hr⟩
    obtain ⟨m, hm, rfl⟩ := List.mem_map.1 hi
    have hpo : p ∈ (f m).owned := ((h m hm).2.2.1 p).2 hp
    have hne : (f m).owned ≠ [] := by intro e; rw [e] at hpo; simp at hpo
    have hnd : (f m).status ≠ defunct := by
      rcases M.st m hm with hs | hs
      · rw [((h m hm).2.2.2.1 hs).1]; decide
      · rw [((h m hm).2.2.2.2 hs).2 hne]; decide
    exact List.mem_map.2 ⟨f m, List.mem_filter.2 ⟨List.mem_map.2 ⟨m, hm, rfl⟩, by simpa using hnd⟩, (h m hm).1⟩

theorem cur_of_stillL {ms : List Mb} {count : Nat} {own cur : Int → Option Nat} {rd : Nat → List TP} {topic : Bytes}
    (M : MidL ms count own rd) (Ho : Holders (ms.map fun m => m.report topic) count topic cur) {p : Int}
    (ht : 0 ≤ p → p < (count : Int) → own p ≠ none)
    (hr : ∀ m ∈ ms, m.status = activeMember → (⟨p, topic⟩ : TP) ∈ m.ready → own p = some m.id) :
    cur p = own p := by
  cases h : own p with
  | none =>
    refine Ho.alien p ?_ (by rw [ownerOf_reportsL M]; exact h)
    intro hp; exact ht hp.1 hp.2 h
  | some d =>
    rcases Ho.kept p d (by rw [ownerOf_reportsL M]; exact h) with h1 | ⟨x, hx, h1, h2⟩
    · exact h1
    · obtain ⟨m, hm, rfl⟩ := List.mem_map.1 hx
      rcases M.st m hm with hs | hs
      · rw [readyTPs_report m topic hs] at h2
        rw [h1, id_report, ← hr m hm hs h2, h]
      · rw [readyTPs_leaving m topic hs] at h2; simp at h2

/-- Nobody joins, the others keep their status, and who leaves has closed its channel once and has no partitions. -/
structure Rel (g g' : Grp) : Prop where
  keep : ∀ m ∈ g.members, (∃ m' ∈ g'.members, m'.id = m.id ∧ m'.status = m.status ∧ m'.closes = m.closes) ∨
    (m.status = inactiveMember ∧ ∃ m' ∈ g'.left, m'.id = m.id ∧ m'.status = defunct ∧ m'.closes = m.closes + 1 ∧ m'.owned = [])
  from' : ∀ m' ∈ g'.members, ∃ m ∈ g.members, m'.id = m.id ∧ m'.status = m.status
  left : ∀ m ∈ g.left, m ∈ g'.left

theorem Rel.refl (g : Grp) : Rel g g :=
  ⟨fun m hm => .inl ⟨m, hm, rfl, rfl, rfl⟩, fun m hm => ⟨m, hm, rfl, rfl⟩, fun _ h => h⟩

theorem Rel.trans {a b c : Grp} (h1 : Rel a b) (h2 : Rel b c) : Rel a c := by
  refine ⟨?_, ?_, fun m hm => h2.left m (h1.left m hm)⟩
  · intro m hm
    rcases h1.keep m hm with ⟨m', hm', e1, e2, e3⟩ | ⟨hs, m', hm', e⟩
    · rcases h2.keep m' hm' with ⟨m2, hm2, f1, f2, f3⟩ | ⟨hs, m2, hm2, f1, f2, f3, f4⟩
      · exact .inl ⟨m2, hm2, f1.trans e1, f2.trans e2, f3.trans e3⟩
      · exact .inr ⟨by rw [← e2]; exact hs, m2, hm2, f1.trans e1, f2, by rw [f3, e3], f4⟩
    · exact .inr ⟨hs, m', h2.left m' hm', e⟩
  · intro m hm
    obtain ⟨m1, hm1, e1, e2⟩ := h2.from' m hm
    obtain ⟨m2, hm2, f1, f2⟩ := h1.from' m1 hm1
    exact ⟨m2, hm2, e1.trans f1, e2.trans f2⟩

theorem rel_round {g : Grp} {count : Nat} {own : Int → Option Nat} {rd : Nat → List TP}
    (M : MidL g.members count own rd) (o : Sched) (topic : Bytes) : Rel g (g.round o count topic) := by
  obtain ⟨cur, pr, Ho, P, H⟩ := round_leave M o topic
  have hmem : ∀ x ∈ roundAll o count topic g.members, ∃ m ∈ g.members, x.id = m.id ∧ (x.status ≠ defunct → x.status = m.status) := by
    intro x hx
    obtain ⟨m, hm, rfl⟩ := List.mem_map.1 hx
    obtain ⟨h1, h2, h3, h4, h5⟩ := H m hm _ rfl
    refine ⟨m, hm, h1, fun hd => ?_⟩
    rcases M.st m hm with hs | hs
    · rw [hs]; exact (h4 hs).1
    · rw [hs]
      by_contra hc
      by_cases he : (m.sync topic ((round o (g.members.map fun m => m.report topic) count topic).parts m.id)
          ((round o (g.members.map fun m => m.report topic) count topic).instr m.id)).owned = []
      · exact hd ((h5 hs).1 he).1
      · exact hc ((h5 hs).2 he).1
  refine ⟨?_, ?_, fun m hm => List.mem_append.2 (.inl hm)⟩
  · intro m hm
    obtain ⟨h1, h2, h3, h4, h5⟩ := H m hm _ rfl
    generalize hm' : m.sync topic ((round o (g.members.map fun m => m.report topic) count topic).parts m.id)
          ((round o (g.members.map fun m => m.report topic) count topic).instr m.id) = m' at *
    have hin : m' ∈ roundAll o count topic g.members := List.mem_map.2 ⟨m, hm, hm'⟩
    rcases M.st m hm with hs | hs
    · left
      obtain ⟨k1, k2, _⟩ := h4 hs
      exact ⟨m', List.mem_filter.2 ⟨hin, by rw [k1]; decide⟩, h1, by rw [k1, hs], k2⟩
    · by_cases he : m'.owned = []
      · right
        obtain ⟨k1, k2⟩ := (h5 hs).1 he
        exact ⟨hs, m', List.mem_append.2 (.inr (List.mem_filter.2 ⟨hin, by rw [k1]; decide⟩)), h1, k1, k2, he⟩
      · left
        obtain ⟨k1, k2⟩ := (h5 hs).2 he
        exact ⟨m', List.mem_filter.2 ⟨hin, by rw [k1]; decide⟩, h1, by rw [k1, hs], k2⟩
  · intro x hx
    obtain ⟨hx, hd⟩ := List.mem_filter.1 hx
    obtain ⟨m, hm, e1, e2⟩ := hmem x hx
    exact ⟨m, hm, e1, e2 (by simpa using hd)⟩

theorem prepared_keeps (l : List TP) (x : Mb) : (l.foldl Mb.partitionPrepared x).id = x.id ∧ (l.foldl Mb.partitionPrepared x).status = x.status ∧
    (l.foldl Mb.partitionPrepared x).owned = x.owned ∧ (l.foldl Mb.partitionPrepared x).closes = x.closes := by
  induction l generalizing x with
  | nil => exact ⟨rfl, rfl, rfl, rfl⟩
  | cons a l ih =>
    rw [List.foldl_cons]
    obtain ⟨h1, h2, h3, h4⟩ := ih (x.partitionPrepared a)
    exact ⟨h1, h2, h3, h4⟩

theorem rel_prepare (g : Grp) : Rel g g.prepare := by
  refine ⟨?_, ?_, fun _ h => h⟩
  · intro m hm
    obtain ⟨h1, h2, h3, h4⟩ := prepared_keeps m.preparing m
    exact .inl ⟨_, List.mem_map.2 ⟨m, hm, rfl⟩, h1, h2, h4⟩
  · intro x hx
    obtain ⟨m, hm, rfl⟩ := List.mem_map.1 hx
    obtain ⟨h1, h2, h3, h4⟩ := prepared_keeps m.preparing m
    exact ⟨m, hm, h1, h2⟩

/-- Finishing the preparations does not matter to who is still there. -/
theorem prepareAll_filter (ms : List Mb) (f : Mb → Mb) :
    prepareAll ((ms.map f).filter fun m => decide (m.status ≠ defunct)) =
      (ms.map fun m => (f m).preparing.foldl Mb.partitionPrepared (f m)).filter fun m => decide (m.status ≠ defunct) := by
  unfold prepareAll
  induction ms with
  | nil => rfl
  | cons a l ih =>
    have hs := (prepared_keeps (f a).preparing (f a)).2.1
    simp only [List.map_cons, List.filter_cons, hs]
    split
    · rw [List.map_cons, ih]
    · exact ih

/-- A round in which nothing that is ready belongs to somebody else: only preparations are asked for. -/
theorem round_still {ms : List Mb} {count : Nat} {own : Int → Option Nat} {rd : Nat → List TP}
    (M : MidL ms count own rd) (ht : Total own count) (o : Sched) (topic : Bytes)
    (hr : ∀ m ∈ ms, m.status = activeMember → ∀ q, (⟨q, topic⟩ : TP) ∈ m.ready → own q = some m.id) :
    ∃ pr, Prepares o (ms.map fun m => m.report topic) count topic pr ∧
      ∃ f, roundAll o count topic ms = ms.map f ∧ ∀ m ∈ ms, (f m).id = m.id ∧ (f m).owned.Nodup ∧ (∀ p, p ∈ (f m).owned ↔ own p = some m.id) ∧
        (m.status = activeMember → (f m).status = activeMember ∧ (f m).preparing = (prepareLoop [] (pr m.id)).1 ∧ (f m).ready = rd m.id) ∧
        (m.status = inactiveMember → ((f m).owned = [] → (f m).status = defunct) ∧ ((f m).owned ≠ [] → (f m).status = inactiveMember)) := by
  obtain ⟨cur, pr, Ho, P, H⟩ := round_leave M o topic
  have hcur : ∀ p, cur p = own p := fun p => cur_of_stillL M Ho (ht p) (fun m hm hs h => hr m hm hs p h)
  refine ⟨pr, P, _, rfl, ?_⟩
  intro m hm
  obtain ⟨h1, h2, h3, h4, h5⟩ := H m hm _ rfl
  refine ⟨h1, h2, fun p => by rw [h3, nextOwn_self (hcur p)], ?_, fun hs => ⟨fun he => ((h5 hs).1 he).1, fun he => ((h5 hs).2 he).1⟩⟩
  intro hs
  obtain ⟨k1, k2, new, k3, k4, k5⟩ := h4 hs
  have hnew : ∀ tp, tp ∉ new := by
    intro tp htp
    rw [k3, nextOwn_self (hcur _)] at htp
    exact htp.2.2 htp.2.1
  exact ⟨k1, by rw [k4]; exact filter_new fun tp _ => hnew tp, by rw [k5]; exact filter_new fun tp _ => hnew tp⟩

/-- In a group in which nothing is in motion the sort values of the active members are their numbers of partitions. -/
theorem calm_weights {ms : List Mb} {count : Nat} {own : Int → Option Nat} (M : MidL ms count own fun _ => []) (o : Sched) (topic : Bytes) :
    let g := newGroupState o (ms.map fun m => m.report topic) count topic
    let A := ms.filter fun m => decide (m.status = activeMember)
    (∀ m ∈ A, (g.mem m.id).pending = m.owned.length ∧ (g.mem m.id).donatable.length = m.owned.length) ∧
    g.active.Perm (A.map Mb.id) ∧ Sorted (activeLess g.mem) g.active := by
  intro g A
  have T := start o (ms.map fun m => m.report topic) count topic (reports_nodup M.ids topic)
  have hst : ∀ x ∈ ms.map fun m => m.report topic, x.moving = [] := by
    intro x hx
    obtain ⟨m, hm, rfl⟩ := List.mem_map.1 hx
    rcases M.st m hm with hs | hs
    · rw [moving_report m topic hs, M.prep m hm hs, M.rdy m hm hs]; rfl
    · exact moving_leaving m topic hs
  have hr : g.inReceivership = [] := by
    apply List.eq_nil_iff_forall_not_mem.2
    intro p hp
    obtain ⟨x, hx, tp, ht, _⟩ := (T.recv p).1 hp
    rw [hst x hx] at ht; simp at ht
  have hA : ∀ m ∈ A, m ∈ ms ∧ m.status = activeMember := by
    intro m hm
    obtain ⟨h1, h2⟩ := List.mem_filter.1 hm
    exact ⟨h1, by simpa using h2⟩
  refine ⟨?_, ?_, T.sorted⟩
  · intro m hmA
    obtain ⟨hm, hs⟩ := hA m hmA
    have hmd := T.md (m.report topic) (List.mem_map.2 ⟨m, hm, rfl⟩)
    rw [id_report, md_report] at hmd
    have hdong : (g.mem m.id).donating = [] := by
      apply List.eq_nil_iff_forall_not_mem.2
      intro p hp
      have := (T.dong p m.id).1 hp
      rw [show (newGroupState o (ms.map fun m => m.report topic) count topic).inReceivership = [] from hr] at this
      simp at this
    have hdon : (g.mem m.id).donatable.Perm m.owned := by
      refine (List.perm_ext_iff_of_nodup (T.nodup m.id).2.1 (M.nodup m hm)).2 ?_
      intro p
      rw [T.don, T.asg, T.owner, ownerOf_reportsL M, M.has m hm,
        show (newGroupState o (ms.map fun m => m.report topic) count topic).inReceivership = [] from hr]
      simp
    have hl := hdon.length_eq
    refine ⟨?_, hl⟩
    unfold Verif.Rebalance.M.pending
    rw [hdong, hl, hmd]
    simp [M.prep m hm hs, M.rdy m hm hs]
  · refine (List.perm_ext_iff_of_nodup (nodup_of_sorted T.sorted) (M.ids.sublist (List.Sublist.map _ List.filter_sublist))).2 ?_
    intro i
    rw [T.active]
    constructor
    · rintro ⟨x, hx, rfl, hne⟩
      obtain ⟨m, hm, rfl⟩ := List.mem_map.1 hx
      rw [md_report] at hne
      refine List.mem_map.2 ⟨m, List.mem_filter.2 ⟨hm, ?_⟩, rfl⟩
      rcases M.st m hm with hs | hs
      · simpa using hs
      · exact absurd hs hne
    · intro h
      obtain ⟨m, hmA, rfl⟩ := List.mem_map.1 h
      obtain ⟨hm, hs⟩ := hA m hmA
      refine ⟨m.report topic, List.mem_map.2 ⟨m, hm, rfl⟩, rfl, ?_⟩
      rw [md_report]; simp only; rw [hs]; decide

theorem balanced_of_not_imbalanced {A : List Mb} {g : GS}
    (w : ∀ m ∈ A, (g.mem m.id).pending = m.owned.length ∧ (g.mem m.id).donatable.length = m.owned.length)
    (hp : g.active.Perm (A.map Mb.id)) (hs : Sorted (activeLess g.mem) g.active) (h : isImbalanced g = none) : Balanced A := by
  have hlen : g.active.length = A.length := by rw [hp.length_eq]; simp
  intro x hx y hy
  by_contra hcon
  have hxa := hp.mem_iff.2 (List.mem_map.2 ⟨x, hx, rfl⟩)
  have hya := hp.mem_iff.2 (List.mem_map.2 ⟨y, hy, rfl⟩)
  have hne : g.active ≠ [] := by intro e; rw [e] at hxa; simp at hxa
  obtain ⟨d, hd⟩ : ∃ d, g.active.getLast? = some d := by
    cases hl : g.active.getLast? with
    | none => exact absurd (List.getLast?_eq_none_iff.1 hl) hne
    | some d => exact ⟨d, rfl⟩
  obtain ⟨r, hr⟩ : ∃ r, g.active.head? = some r := by
    obtain ⟨a, l, hl⟩ := List.exists_cons_of_ne_nil hne
    exact ⟨a, by rw [hl]; rfl⟩
  have h2 : ¬ g.active.length < 2 := by
    intro hlt
    have h1 : A.length = 1 := by
      have := List.length_pos_iff.2 (List.ne_nil_of_mem hx)
      omega
    obtain ⟨a, ha⟩ := List.length_eq_one_iff.1 h1
    rw [ha] at hx hy
    simp at hx hy
    subst hx; subst hy
    omega
  unfold isImbalanced at h
  rw [if_neg h2] at h
  simp only [hd, hr] at h
  split at h
  · simp at h
  · rename_i hcnd
    apply hcnd
    obtain ⟨md, hmd, hdid⟩ := List.mem_map.1 (hp.mem_iff.1 (List.mem_of_getLast? hd))
    have hra : r ∈ g.active := List.mem_of_mem_head? hr
    obtain ⟨mr, hmr, hrid⟩ := List.mem_map.1 (hp.mem_iff.1 hra)
    have h3 := le_last hs hd hxa
    have h4 := head_le hs hr hya
    rw [← hdid] at h3 ⊢
    rw [← hrid] at h4 ⊢
    rw [(w x hx).1, (w md hmd).1] at h3
    rw [(w y hy).1, (w mr hmr).1] at h4
    rw [(w md hmd).1, (w mr hmr).1, (w md hmd).2]
    refine ⟨by omega, ?_⟩
    omega

/-- A calm group without leaving members is settled. -/
theorem settled_of_calm {ms : List Mb} {count : Nat} {own : Int → Option Nat} (M : MidL ms count own fun _ => []) (ht : Total own count)
    (ha : ∀ m ∈ ms, m.status = activeMember) : Settled ms count := by
  refine settled_of_mid (own := own) ?_ ht
  exact { ids := M.ids, ne := by obtain ⟨m, hm, _⟩ := M.stay; exact List.ne_nil_of_mem hm, act := ha,
          prep := fun m hm => M.prep m hm (ha m hm), rdy := fun m hm => M.rdy m hm (ha m hm), nodup := M.nodup, has := M.has, dom := M.dom }

theorem calm_quiet {ms : List Mb} {count : Nat} {own : Int → Option Nat} (M : MidL ms count own fun _ => []) (ht : Total own count)
    (topic : Bytes) : Quiet (ms.map fun m => m.report topic) count topic where
  owned := fun p hp => by rw [ownerOf_reportsL M]; exact ht p hp.1 hp.2
  still := by
    intro x hx
    obtain ⟨m, hm, rfl⟩ := List.mem_map.1 hx
    rcases M.st m hm with hs | hs
    · rw [moving_report m topic hs, M.prep m hm hs, M.rdy m hm hs]; rfl
    · exact moving_leaving m topic hs

/-- A round after which nothing is asked for. -/
theorem round_nothing {g : Grp} {count : Nat} {own : Int → Option Nat} (M : MidL g.members count own fun _ => []) (ht : Total own count)
    (ha : ∀ m ∈ g.members, m.status = activeMember) (hb : Balanced g.members) (o : Sched) (topic : Bytes) :
    MidL (g.round o count topic).members count own (fun _ => []) ∧ (∀ m ∈ (g.round o count topic).members, m.status = activeMember) ∧
      Balanced (g.round o count topic).members := by
  obtain ⟨pr, P, f, e, H⟩ := round_still M ht o topic (fun m hm hs q h => by rw [M.rdy m hm hs] at h; simp at h)
  have S := settled_of_calm M ht ha
  have hz : ∀ i, pr i = [] := by
    cases P with
    | none h _ => exact h
    | one q mm dd hmm hdd p h1 h2 hne ho hs hw =>
      exfalso
      obtain ⟨d1, hd1, rfl⟩ := List.mem_map.1 hdd
      rcases hw with hw | ⟨_, _, hw⟩
      · exact hw (stays_report d1 topic (ha d1 hd1))
      · rw [not_imbalanced S o topic hb] at hw; simp at hw
  have hM : MidL (g.round o count topic).members count own (fun _ => []) := by
    unfold Grp.round
    dsimp only
    rw [e]
    refine midL_next M f (fun m hm => ?_) M.dom
    obtain ⟨h1, h2, h3, h4, h5⟩ := H m hm
    exact ⟨h1, h2, h3, fun hs => ⟨(h4 hs).1, by rw [(h4 hs).2.1, hz]; rfl, (h4 hs).2.2⟩, h5⟩
  have hfrom : ∀ x ∈ (g.round o count topic).members, ∃ m ∈ g.members, x = f m := by
    intro x hx
    have := (List.mem_filter.1 hx).1
    rw [e] at this
    obtain ⟨m, hm, rfl⟩ := List.mem_map.1 this
    exact ⟨m, hm, rfl⟩
  refine ⟨hM, ?_, ?_⟩
  · intro x hx
    obtain ⟨m, hm, rfl⟩ := hfrom x hx
    exact ((H m hm).2.2.2.1 (ha m hm)).1
  · have hlen : ∀ m ∈ g.members, (f m).owned.length = m.owned.length := by
      intro m hm
      refine ((List.perm_ext_iff_of_nodup (H m hm).2.1 (M.nodup m hm)).2 ?_).length_eq
      intro p
      rw [(H m hm).2.2.1, M.has m hm]
    intro x hx y hy
    obtain ⟨m, hm, rfl⟩ := hfrom x hx
    obtain ⟨m', hm', rfl⟩ := hfrom y hy
    rw [hlen m hm, hlen m' hm']
    exact hb m hm m' hm'

/-- A cycle in a calm group: if a leaving member owns a partition, one such partition goes to an active member; otherwise the leaving members go. -/
theorem cycle_leave {g : Grp} {count : Nat} {own : Int → Option Nat} (M : MidL g.members count own fun _ => []) (ht : Total own count)
    (o : Sched × Sched × Sched) (topic : Bytes) :
    ∃ own', MidL (g.cycle o count topic).members count own' (fun _ => []) ∧ Total own' count ∧ Rel g (g.cycle o count topic) ∧
      ((∃ d ∈ g.members, d.status = inactiveMember ∧ ∃ p, own p = some d.id ∧ ∃ r ∈ g.members, r.status = activeMember ∧
          own' = setH own p (some r.id)) ∨
       ((∀ m ∈ g.members, m.status = inactiveMember → m.owned = []) ∧ ∀ m ∈ (g.cycle o count topic).members, m.status = activeMember)) := by
  obtain ⟨pr, P, f1, e1, H1⟩ := round_still M ht o.1 topic (fun m hm hs q h => by rw [M.rdy m hm hs] at h; simp at h)
  have hQ := calm_quiet M ht topic
  have hgone : (∀ x ∈ g.members.map fun m => m.report topic, ¬ x.stays → ∀ p, ownerOf (g.members.map fun m => m.report topic) topic p ≠ some x.id) →
      (∀ m ∈ g.members, m.status = inactiveMember → m.owned = []) ∧ ∀ m ∈ (g.round o.1 count topic).members, m.status = activeMember := by
    intro h
    have h0 : ∀ m ∈ g.members, m.status = inactiveMember → ∀ p, own p ≠ some m.id := by
      intro m hm hs p hp
      exact h (m.report topic) (List.mem_map.2 ⟨m, hm, rfl⟩) (not_stays_report m topic hs) p (by rw [ownerOf_reportsL M]; exact hp)
    refine ⟨fun m hm hs => ?_, fun x hx => ?_⟩
    · apply List.eq_nil_iff_forall_not_mem.2
      intro p hp
      exact h0 m hm hs p ((M.has m hm p).1 hp)
    · obtain ⟨hx, hd⟩ := List.mem_filter.1 hx
      rw [e1] at hx
      obtain ⟨m, hm, rfl⟩ := List.mem_map.1 hx
      obtain ⟨h1, h2, h3, h4, h5⟩ := H1 m hm
      rcases M.st m hm with hs | hs
      · exact (h4 hs).1
      · have : (f1 m).owned = [] := by
          apply List.eq_nil_iff_forall_not_mem.2
          intro p hp
          exact h0 m hm hs p ((h3 p).1 hp)
        exact absurd ((h5 hs).1 this) (by simpa using hd)
  have R1 := rel_round M o.1 topic
  have hact : ∀ {a b : Grp}, Rel a b → (∀ m ∈ a.members, m.status = activeMember) → ∀ m ∈ b.members, m.status = activeMember := by
    intro a b R h m hm
    obtain ⟨m', hm', _, e⟩ := R.from' m hm
    rw [e]; exact h m' hm'
  cases P with
  | none hnone hq =>
    obtain ⟨hl, himb⟩ := hq hQ
    obtain ⟨hempty, ha1⟩ := hgone hl
    have M1 : MidL (g.round o.1 count topic).members count own fun _ => [] := by
      unfold Grp.round
      dsimp only
      rw [e1]
      refine midL_next M f1 (fun m hm => ?_) M.dom
      obtain ⟨h1, h2, h3, h4, h5⟩ := H1 m hm
      exact ⟨h1, h2, h3, fun hs => ⟨(h4 hs).1, by rw [(h4 hs).2.1, hnone]; rfl, (h4 hs).2.2⟩, h5⟩
    have hb : Balanced (g.round o.1 count topic).members := by
      obtain ⟨w, hp, hs⟩ := calm_weights M o.1 topic
      have hbA := balanced_of_not_imbalanced w hp hs himb
      have hx : ∀ x ∈ (g.round o.1 count topic).members,
          ∃ m ∈ g.members.filter (fun m => decide (m.status = activeMember)), x.owned.length = m.owned.length := by
        intro x hx
        have hs := ha1 x hx
        have := (List.mem_filter.1 hx).1
        rw [e1] at this
        obtain ⟨m, hm, rfl⟩ := List.mem_map.1 this
        obtain ⟨h1, h2, h3, h4, h5⟩ := H1 m hm
        refine ⟨m, List.mem_filter.2 ⟨hm, ?_⟩, ?_⟩
        · rcases M.st m hm with hs' | hs'
          · simpa using hs'
          · exfalso
            by_cases he : (f1 m).owned = []
            · rw [(h5 hs').1 he] at hs; exact absurd hs (by decide)
            · rw [(h5 hs').2 he] at hs; exact absurd hs (by decide)
        · refine ((List.perm_ext_iff_of_nodup h2 (M.nodup m hm)).2 ?_).length_eq
          intro p
          rw [h3, M.has m hm]
      intro x hx1 y hy1
      obtain ⟨m, hm, e⟩ := hx x hx1
      obtain ⟨m', hm', e'⟩ := hx y hy1
      rw [e, e']; exact hbA m hm m' hm'
    have hpre : (g.round o.1 count topic).prepare = g.round o.1 count topic := by
      unfold Grp.prepare prepareAll
      have : (g.round o.1 count topic).members.map (fun m => m.preparing.foldl Mb.partitionPrepared m) = (g.round o.1 count topic).members := by
        conv_rhs => rw [← List.map_id (g.round o.1 count topic).members]
        apply List.map_congr_left
        intro m hm
        rw [M1.prep m hm (ha1 m hm)]; rfl
      rw [this]
    obtain ⟨M2, ha2, hb2⟩ := round_nothing M1 ht ha1 hb o.2.1 topic
    obtain ⟨M3, ha3, hb3⟩ := round_nothing M2 ht ha2 hb2 o.2.2 topic
    refine ⟨own, ?_, ht, ?_, .inr ⟨hempty, ?_⟩⟩
    · unfold Grp.cycle; rw [hpre]; exact M3
    · unfold Grp.cycle; rw [hpre]
      exact R1.trans ((rel_round M1 _ topic).trans (rel_round M2 _ topic))
    · unfold Grp.cycle; rw [hpre]; exact ha3
  | one q mm dd hmm hdd p h1 h2 hne ho hs hw =>
    obtain ⟨r, hr, rfl⟩ := List.mem_map.1 hmm
    obtain ⟨d, hd, rfl⟩ := List.mem_map.1 hdd
    rw [ownerOf_reportsL M] at ho
    simp only [id_report] at h1 h2 hne ho hw
    have hra : r.status = activeMember := by
      rcases M.st r hr with h | h
      · exact h
      · exact absurd hs (not_stays_report r topic h)
    have hpr : 0 ≤ p ∧ p < (count : Int) := (M.dom p d.id ho).2
    -- after the first round and the preparation
    have M1 : MidL (g.round o.1 count topic).prepare.members count own (fun i => if i = r.id then [⟨p, topic⟩] else []) := by
      unfold Grp.prepare Grp.round
      dsimp only
      rw [e1, prepareAll_filter]
      refine midL_next M _ (fun m hm => ?_) M.dom
      obtain ⟨g1, g2, g3, g4, g5⟩ := H1 m hm
      obtain ⟨k1, k2, k3, k4⟩ := prepared_keeps (f1 m).preparing (f1 m)
      refine ⟨k1.trans g1, by rw [k3]; exact g2, by rw [k3]; exact g3, ?_, by rw [k3, k2]; exact g5⟩
      intro hs
      obtain ⟨g6, g7, g8⟩ := g4 hs
      refine ⟨k2.trans g6, ?_⟩
      by_cases e : m.id = r.id
      · have hp' : (f1 m).preparing = [⟨p, topic⟩] := by rw [g7, e, h1]; simp [prepareLoop, insTP]
        rw [hp']
        simp only [List.foldl_cons, List.foldl_nil, Mb.partitionPrepared, hp', g8, e, if_true]
        exact ⟨by simp [delTP], by simp [insTP]⟩
      · have hp' : (f1 m).preparing = [] := by rw [g7, h2 _ e]; rfl
        rw [hp']
        simp only [List.foldl_nil, e, if_false]
        exact ⟨hp', g8⟩
    have R2 : Rel g (g.round o.1 count topic).prepare := R1.trans (rel_prepare _)
    have ha2 : (∀ m ∈ (g.round o.1 count topic).members, m.status = activeMember) →
        ∀ m ∈ (g.round o.1 count topic).prepare.members, m.status = activeMember := hact (rel_prepare _)
    have ec : g.cycle o count topic = ((g.round o.1 count topic).prepare.round o.2.1 count topic).round o.2.2 count topic := rfl
    generalize (g.round o.1 count topic).prepare = ga at *
    have hkeep : ∀ {b : Grp}, Rel g b → ∃ r1 ∈ b.members, r1.id = r.id ∧ r1.status = activeMember := by
      intro b R
      rcases R.keep r hr with ⟨r1, h1, h2, h3, _⟩ | ⟨h, _⟩
      · exact ⟨r1, h1, h2, h3.trans hra⟩
      · rw [hra] at h; exact absurd h.symm inactive_ne_active
    have hrd : ∀ {ms' : List Mb} {own' : Int → Option Nat}, MidL ms' count own' (fun i => if i = r.id then [⟨p, topic⟩] else []) →
        ∀ x ∈ ms', x.status = activeMember → ∀ q, (⟨q, topic⟩ : TP) ∈ x.ready ↔ x.id = r.id ∧ q = p := by
      intro ms' own' M' x hx hxs q
      rw [M'.rdy x hx hxs]
      by_cases e : x.id = r.id <;> simp [e]
    -- second round: the owner gives it up
    obtain ⟨r1, hr1, hr1i, hr1s⟩ := hkeep R2
    have hr1r : r1.ready = [⟨p, topic⟩] := by rw [M1.rdy r1 hr1 hr1s, hr1i, if_pos rfl]
    obtain ⟨cur2, pr2, Ho2, P2, H2⟩ := round_leave M1 o.2.1 topic
    have hcur2 : ∀ q, cur2 q = setH own p (some r.id) q := by
      intro q
      by_cases e : q = p
      · subst e
        simp only [setH, if_true]
        obtain ⟨x, hx, hx1, hx2⟩ := Ho2.delivered q d.id (by rw [ownerOf_reportsL M1]; exact ho)
          ⟨r1.report topic, List.mem_map.2 ⟨r1, hr1, rfl⟩, by
            rw [readyTPs_report r1 topic hr1s, hr1r]; simp⟩
        obtain ⟨y, hy, rfl⟩ := List.mem_map.1 hx
        rcases M1.st y hy with hys | hys
        · rw [readyTPs_report y topic hys] at hx2
          rw [hx1, id_report, ((hrd M1 y hy hys q).1 hx2).1]
        · rw [readyTPs_leaving y topic hys] at hx2; simp at hx2
      · simp only [setH, e, if_false]
        refine cur_of_stillL M1 Ho2 (ht q) ?_
        intro m hm hms hq
        exact absurd ((hrd M1 m hm hms q).1 hq).2 e
    have hown2 : ∀ q, nextOwn own cur2 q = setH own p none q := by
      intro q
      by_cases e : q = p
      · subst e
        unfold nextOwn
        rw [hcur2, if_neg]
        · simp [setH]
        · simp only [setH, if_true, ho, not_or]
          exact ⟨by simp, fun h => hne (Option.some.inj h)⟩
      · have : cur2 q = own q := by rw [hcur2]; simp [setH, e]
        rw [nextOwn_self this]; simp [setH, e]
    have hz2 : ∀ i, pr2 i = [] := by
      cases P2 with
      | none h _ => exact h
      | one q' =>
        exfalso
        have := q'.still (r1.report topic) (List.mem_map.2 ⟨r1, hr1, rfl⟩)
        rw [moving_report r1 topic hr1s, hr1r] at this
        simp at this
    have M2 : MidL (ga.round o.2.1 count topic).members count (setH own p none)
        (fun i => if i = r.id then [⟨p, topic⟩] else []) := by
      refine midL_next M1 _ ?_ ?_
      · intro m hm
        obtain ⟨g1, g2, g3, g4, g5⟩ := H2 m hm _ rfl
        refine ⟨g1, g2, fun q => by rw [g3, hown2], ?_, fun hs => ⟨fun he => ((g5 hs).1 he).1, fun he => ((g5 hs).2 he).1⟩⟩
        intro hms
        obtain ⟨k1, k2, new, k3, k4, k5⟩ := g4 hms
        have hnew : ∀ tp, tp ∉ new := by
          intro tp htp
          rw [k3, hown2] at htp
          obtain ⟨_, t1, t2⟩ := htp
          unfold setH at t1
          split at t1
          · simp at t1
          · exact t2 t1
        refine ⟨k1, ?_, ?_⟩
        · rw [k4, hz2]; rfl
        · rw [k5]; exact filter_new fun tp _ => hnew tp
      · intro q i hq
        unfold setH at hq
        split at hq
        · simp at hq
        · exact M1.dom q i hq
    have R3 := R2.trans (rel_round M1 o.2.1 topic)
    have ha3 := hact (rel_round M1 o.2.1 topic)
    generalize ga.round o.2.1 count topic = gb at *
    -- third round: the new owner gets it
    obtain ⟨r2, hr2, hr2i, hr2s⟩ := hkeep R3
    have hr2r : r2.ready = [⟨p, topic⟩] := by rw [M2.rdy r2 hr2 hr2s, hr2i, if_pos rfl]
    obtain ⟨cur3, pr3, Ho3, P3, H3⟩ := round_leave M2 o.2.2 topic
    have hcur3 : ∀ q, cur3 q = setH own p (some r.id) q := by
      intro q
      by_cases e : q = p
      · subst e
        simp only [setH, if_true]
        obtain ⟨x, hx, hx1, hx0, hx2⟩ := Ho3.free q hpr (by rw [ownerOf_reportsL M2]; simp [setH])
        obtain ⟨y, hy, rfl⟩ := List.mem_map.1 hx
        have hys : y.status = activeMember := by
          rcases M2.st y hy with h | h
          · exact h
          · exact absurd hx0 (not_stays_report y topic h)
        have := hx2 ⟨r2.report topic, List.mem_map.2 ⟨r2, hr2, rfl⟩, stays_report r2 topic hr2s, .inl (by
          rw [md_report]; simp only; rw [hr2r]; simp)⟩
        rw [hx1, id_report]
        rcases this with h | h
        · rw [md_report] at h
          rw [((hrd M2 y hy hys q).1 h).1]
        · rw [md_report] at h
          simp only at h
          rw [M2.prep y hy hys] at h; simp at h
      · have hh := cur_of_stillL M2 Ho3 (p := q) (by
            intro a b; simp only [setH, e, if_false]; exact ht q a b) (by
            intro m hm hms hq
            exact absurd ((hrd M2 m hm hms q).1 hq).2 e)
        rw [hh]; simp [setH, e]
    have hown3 : ∀ q, nextOwn (setH own p none) cur3 q = setH own p (some r.id) q := by
      intro q
      unfold nextOwn
      rw [if_pos]
      · exact hcur3 q
      · by_cases e : q = p
        · left; simp [setH, e]
        · right; rw [hcur3]; simp [setH, e]
    have hz3 : ∀ i, pr3 i = [] := by
      cases P3 with
      | none h _ => exact h
      | one q' =>
        exfalso
        have := q'.still (r2.report topic) (List.mem_map.2 ⟨r2, hr2, rfl⟩)
        rw [moving_report r2 topic hr2s, hr2r] at this
        simp at this
    have M3 : MidL (gb.round o.2.2 count topic).members count (setH own p (some r.id)) (fun _ => []) := by
      refine midL_next M2 _ ?_ ?_
      · intro m hm
        obtain ⟨g1, g2, g3, g4, g5⟩ := H3 m hm _ rfl
        refine ⟨g1, g2, fun q => by rw [g3, hown3], ?_, fun hs => ⟨fun he => ((g5 hs).1 he).1, fun he => ((g5 hs).2 he).1⟩⟩
        intro hms
        obtain ⟨k1, k2, new, k3, k4, k5⟩ := g4 hms
        refine ⟨k1, ?_, ?_⟩
        · rw [k4, hz3]; rfl
        · rw [k5]
          by_cases e : m.id = r.id
          · simp only [e, if_true]
            have : (⟨p, topic⟩ : TP) ∈ new := by
              rw [k3, hown3, e]; simp [setH, hne]
            simp [this]
          · simp [e]
      · intro q i hq
        unfold setH at hq
        split at hq
        · rename_i e
          subst e
          have hii := Option.some.inj hq
          subst hii
          exact ⟨List.mem_map.2 ⟨r2, hr2, hr2i⟩, hpr⟩
        · rename_i e
          exact M2.dom q i (by simp [setH, e, hq])
    have ht3 : Total (setH own p (some r.id)) count := by
      intro q a b
      unfold setH
      split
      · simp
      · exact ht q a b
    refine ⟨setH own p (some r.id), by rw [ec]; exact M3, ht3, by rw [ec]; exact R3.trans (rel_round M2 o.2.2 topic), ?_⟩
    rcases M.st d hd with hds | hds
    · right
      rcases hw with hw | ⟨_, hl, _⟩
      · exact absurd (stays_report d topic hds) hw
      · obtain ⟨h3, h4⟩ := hgone hl
        refine ⟨h3, ?_⟩
        rw [ec]
        exact hact (rel_round M2 o.2.2 topic) (ha3 (ha2 h4))
    · exact .inl ⟨d, hd, hds, p, ho, r, hr, hra, rfl⟩

/-! ### The end of a leave -/

/-- How many partitions belong to leaving members. -/
def held (ms : List Mb) (count : Nat) : Nat :=
  (List.range count).countP fun p : Nat => ms.any fun m => decide (m.status = inactiveMember) && decide ((p : Int) ∈ m.owned)

theorem countP_lt {l : List Nat} {f g : Nat → Bool} (h : ∀ x ∈ l, f x = true → g x = true) {a : Nat} (ha : a ∈ l) (hg : g a = true)
    (hf : f a = false) : l.countP f < l.countP g := by
  induction l with
  | nil => simp at ha
  | cons b l ih =>
    have hmono : l.countP f ≤ l.countP g := List.countP_mono_left fun x hx => h x (List.mem_cons_of_mem _ hx)
    rw [List.countP_cons, List.countP_cons]
    rcases List.mem_cons.1 ha with rfl | ha
    · rw [hg, hf]; simp; omega
    · have h1 := ih (fun x hx => h x (List.mem_cons_of_mem _ hx)) ha
      have h2 := h b (List.mem_cons_self ..)
      split <;> rename_i hb
      · rw [h2 hb]; simp; omega
      · omega

/-- The numbers of cycles needed. -/
theorem cycle_held {g : Grp} {count : Nat} {own : Int → Option Nat} (M : MidL g.members count own fun _ => []) (ht : Total own count)
    (o : Sched × Sched × Sched) (topic : Bytes) :
    ∃ own', MidL (g.cycle o count topic).members count own' (fun _ => []) ∧ Total own' count ∧ Rel g (g.cycle o count topic) ∧
      (held (g.cycle o count topic).members count < held g.members count ∨ ∀ m ∈ (g.cycle o count topic).members, m.status = activeMember) := by
  obtain ⟨own', M', ht', R, h⟩ := cycle_leave M ht o topic
  refine ⟨own', M', ht', R, ?_⟩
  rcases h with ⟨d, hd, hds, p, hp, r, hr, hrs, rfl⟩ | h
  · left
    obtain ⟨_, hp0, hp1⟩ := M.dom p d.id hp
    have hex : ∃ a : Nat, (a : Int) = p ∧ a < count := ⟨p.toNat, by omega, by omega⟩
    obtain ⟨a, rfl, ha⟩ := hex
    unfold held
    refine countP_lt ?_ (List.mem_range.2 ha) ?_ ?_
    · intro x hx h
      simp only [List.any_eq_true, Bool.and_eq_true, decide_eq_true_eq] at h ⊢
      obtain ⟨m', hm', hs', ho'⟩ := h
      obtain ⟨m, hm, e1, e2⟩ := R.from' m' hm'
      refine ⟨m, hm, e2 ▸ hs', ?_⟩
      rw [M'.has m' hm'] at ho'
      rw [M.has m hm]
      unfold setH at ho'
      split at ho'
      · exfalso
        have : r.id = m.id := (Option.some.inj ho').trans e1
        rw [mb_eq M.ids hr hm this] at hrs
        rw [e2, hrs] at hs'
        exact inactive_ne_active hs'.symm
      · rw [ho', e1]
    · simp only [List.any_eq_true, Bool.and_eq_true, decide_eq_true_eq]
      exact ⟨d, hd, hds, (M.has d hd _).2 hp⟩
    · rw [List.any_eq_false]
      intro m' hm'
      simp only [Bool.and_eq_true, decide_eq_true_eq, not_and]
      intro hs' ho'
      rw [M'.has m' hm'] at ho'
      simp only [setH, if_true] at ho'
      obtain ⟨m, hm, e1, e2⟩ := R.from' m' hm'
      rw [mb_eq M.ids hr hm ((Option.some.inj ho').trans e1)] at hrs
      rw [e2, hrs] at hs'
      exact inactive_ne_active hs'.symm
  · exact .inr h.2

theorem cycles_calm {g : Grp} {count : Nat} {own : Int → Option Nat} (M : MidL g.members count own fun _ => []) (ht : Total own count)
    (os : Nat → Sched × Sched × Sched) (topic : Bytes) (n : Nat) :
    (∃ own', MidL (g.cycles os count topic n).members count own' (fun _ => []) ∧ Total own' count) ∧ Rel g (g.cycles os count topic n) ∧
      (held (g.cycles os count topic n).members count + n ≤ held g.members count ∨
        ∀ m ∈ (g.cycles os count topic n).members, m.status = activeMember) := by
  induction n with
  | zero => exact ⟨⟨own, M, ht⟩, Rel.refl g, .inl (by simp [Grp.cycles])⟩
  | succ n ih =>
    obtain ⟨⟨own', M', ht'⟩, R, h⟩ := ih
    obtain ⟨own2, M2, ht2, R2, h2⟩ := cycle_held M' ht' (os n) topic
    refine ⟨⟨own2, M2, ht2⟩, R.trans R2, ?_⟩
    rcases h with h | h
    · rcases h2 with h2 | h2
      · left; simp only [Grp.cycles]; omega
      · exact .inr h2
    · right
      intro m hm
      obtain ⟨m', hm', _, e⟩ := R2.from' m hm
      rw [e]; exact h m' hm'

/-- After at most one cycle more than there are partitions at leaving members, these are gone. -/
theorem cycles_leave {g : Grp} {count : Nat} {own : Int → Option Nat} (M : MidL g.members count own fun _ => []) (ht : Total own count)
    (os : Nat → Sched × Sched × Sched) (topic : Bytes) {n : Nat} (hn : held g.members count < n) :
    Settled (g.cycles os count topic n).members count ∧
      (∀ m ∈ g.members, m.status = activeMember → ∃ m' ∈ (g.cycles os count topic n).members, m'.id = m.id ∧ m'.closes = m.closes) ∧
      (∀ m ∈ g.members, m.status = inactiveMember →
        ∃ m' ∈ (g.cycles os count topic n).left, m'.id = m.id ∧ m'.status = defunct ∧ m'.closes = m.closes + 1 ∧ m'.owned = []) ∧
      ∀ m' ∈ (g.cycles os count topic n).members, ∃ m ∈ g.members, m'.id = m.id ∧ m.status = activeMember := by
  obtain ⟨⟨own', M', ht'⟩, R, h⟩ := cycles_calm M ht os topic n
  have ha : ∀ m ∈ (g.cycles os count topic n).members, m.status = activeMember := by
    rcases h with h | h
    · omega
    · exact h
  refine ⟨settled_of_calm M' ht' ha, ?_, ?_, ?_⟩
  · intro m hm hs
    rcases R.keep m hm with ⟨m', h1, h2, _, h3⟩ | ⟨h1, _⟩
    · exact ⟨m', h1, h2, h3⟩
    · rw [hs] at h1; exact absurd h1.symm inactive_ne_active
  · intro m hm hs
    rcases R.keep m hm with ⟨m', h1, h2, h3, _⟩ | ⟨_, h⟩
    · rw [ha m' h1, hs] at h3; exact absurd h3.symm inactive_ne_active
    · exact h
  · intro m' hm'
    obtain ⟨m, hm, e1, e2⟩ := R.from' m' hm'
    exact ⟨m, hm, e1, by rw [← e2]; exact ha m' hm'⟩

theorem sync_active (m : Mb) (topic : Bytes) (ps : List Int) (ins : Instr) (h : m.status = activeMember) :
    (m.sync topic ps ins).status = activeMember := by
  unfold Mb.sync
  dsimp only
  rw [partitionsAssigned_eq]
  unfold Mb.parseSync
  rw [if_neg (by rw [h]; exact fun e => inactive_ne_active e.1.symm)]
  exact h

theorem roundAll_active {ms : List Mb} (ha : ∀ m ∈ ms, m.status = activeMember) (o : Sched) (count : Nat) (topic : Bytes) :
    ∀ m ∈ roundAll o count topic ms, m.status = activeMember := by
  intro x hx
  obtain ⟨m, hm, rfl⟩ := List.mem_map.1 hx
  exact sync_active m topic _ _ (ha m hm)

theorem round_members {g : Grp} (ha : ∀ m ∈ g.members, m.status = activeMember) (o : Sched) (count : Nat) (topic : Bytes) :
    (g.round o count topic).members = roundAll o count topic g.members := by
  unfold Grp.round
  dsimp only
  rw [List.filter_eq_self]
  intro x hx
  rw [roundAll_active ha o count topic x hx]; decide

/-- In a group without leaving members a cycle is that of `cycle`. -/
theorem cycle_members {g : Grp} (ha : ∀ m ∈ g.members, m.status = activeMember) (o : Sched × Sched × Sched) (count : Nat) (topic : Bytes) :
    (g.cycle o count topic).members = cycle o count topic g.members ∧ ∀ m ∈ (g.cycle o count topic).members, m.status = activeMember := by
  have e1 := round_members ha o.1 count topic
  have a1 := roundAll_active ha o.1 count topic
  have a2 : ∀ m ∈ (g.round o.1 count topic).prepare.members, m.status = activeMember := by
    intro x hx
    obtain ⟨m, hm, rfl⟩ := List.mem_map.1 hx
    rw [(prepared_keeps m.preparing m).2.1]
    exact a1 m (e1 ▸ hm)
  have e3 := round_members a2 o.2.1 count topic
  have a3 : ∀ m ∈ ((g.round o.1 count topic).prepare.round o.2.1 count topic).members, m.status = activeMember := by
    rw [e3]; exact roundAll_active a2 _ _ _
  have e4 := round_members a3 o.2.2 count topic
  refine ⟨?_, ?_⟩
  · unfold Grp.cycle cycle
    rw [e4, e3]
    unfold Grp.prepare
    dsimp only
    rw [e1]
  · unfold Grp.cycle
    rw [e4]; exact roundAll_active a3 _ _ _

theorem cycles_members {g : Grp} (ha : ∀ m ∈ g.members, m.status = activeMember) (os : Nat → Sched × Sched × Sched) (count : Nat) (topic : Bytes) (n : Nat) :
    (g.cycles os count topic n).members = cycles os count topic g.members n ∧ ∀ m ∈ (g.cycles os count topic n).members, m.status = activeMember := by
  induction n with
  | zero => exact ⟨rfl, ha⟩
  | succ n ih =>
    obtain ⟨e, h⟩ := cycle_members ih.2 (os n) count topic
    exact ⟨by simp only [Grp.cycles, cycles]; rw [e, ih.1], h⟩

theorem cycles_add (g : Grp) (os : Nat → Sched × Sched × Sched) (count : Nat) (topic : Bytes) (a n : Nat) :
    g.cycles os count topic (a + n) = (g.cycles os count topic a).cycles (fun k => os (a + k)) count topic n := by
  induction n with
  | zero => rfl
  | succ n ih => rw [← Nat.add_assoc]; simp only [Grp.cycles]; rw [ih]

/-- At last the others share the partitions evenly and nothing moves any more. -/
theorem cycles_even {g : Grp} {count : Nat} {own : Int → Option Nat} (M : MidL g.members count own fun _ => []) (ht : Total own count)
    (os : Nat → Sched × Sched × Sched) (topic : Bytes) :
    ∃ n, ∀ k, n ≤ k → Settled (g.cycles os count topic k).members count ∧ Balanced (g.cycles os count topic k).members ∧
      ∀ p, holder (g.cycles os count topic k).members p = holder (g.cycles os count topic n).members p := by
  have S := (cycles_leave M ht os topic (Nat.lt_succ_self (held g.members count))).1
  obtain ⟨n, _, h⟩ := cycles_converge S (fun k => os (held g.members count + 1 + k)) topic
  have e : ∀ j, (g.cycles os count topic (held g.members count + 1 + j)).members =
      cycles (fun k => os (held g.members count + 1 + k)) count topic (g.cycles os count topic (held g.members count + 1)).members j := by
    intro j
    rw [cycles_add]
    exact (cycles_members (fun m hm => (S.act m hm).1) _ count topic j).1
  refine ⟨held g.members count + 1 + n, fun k hk => ?_⟩
  obtain ⟨j, rfl⟩ := Nat.le.dest hk
  rw [Nat.add_assoc, e, e]
  exact h (n + j) (Nat.le_add_right _ _)

/-! ### A ready entry that is never taken away -/

/-- A round in a group in which members have partitions ready that they own already: nothing moves. -/
theorem stale_round {g : Grp} {count : Nat} {own : Int → Option Nat} {rd : Nat → List TP} (M : MidL g.members count own rd) (ht : Total own count)
    (o : Sched) (topic : Bytes) (hr : ∀ m ∈ g.members, m.status = activeMember → ∀ q, (⟨q, topic⟩ : TP) ∈ m.ready → own q = some m.id)
    (hx : ∃ m ∈ g.members, m.status = activeMember ∧ m.ready ≠ []) :
    MidL (g.round o count topic).members count own rd ∧
      (∀ m ∈ g.members, m.status = activeMember ∨ m.owned ≠ [] → ∃ m' ∈ (g.round o count topic).members,
        m'.id = m.id ∧ m'.status = m.status ∧ m'.closes = m.closes ∧ (m.status = activeMember → m'.ready = m.ready) ∧ ∀ p, p ∈ m'.owned ↔ p ∈ m.owned) := by
  obtain ⟨pr, P, f, e, H⟩ := round_still M ht o topic hr
  have R := rel_round M o topic
  have hz : ∀ i, pr i = [] := by
    cases P with
    | none h _ => exact h
    | one q =>
      exfalso
      obtain ⟨m, hm, hs, hne⟩ := hx
      have := q.still (m.report topic) (List.mem_map.2 ⟨m, hm, rfl⟩)
      rw [moving_report m topic hs] at this
      exact hne (List.append_eq_nil_iff.1 this).2
  have hM : MidL (g.round o count topic).members count own rd := by
    unfold Grp.round
    dsimp only
    rw [e]
    refine midL_next M f (fun m hm => ?_) M.dom
    obtain ⟨h1, h2, h3, h4, h5⟩ := H m hm
    exact ⟨h1, h2, h3, fun hs => ⟨(h4 hs).1, by rw [(h4 hs).2.1, hz]; rfl, (h4 hs).2.2⟩, h5⟩
  refine ⟨hM, ?_⟩
  obtain ⟨cur, pr', Ho, _, H'⟩ := round_leave M o topic
  have hcur : ∀ p, cur p = own p := fun p => cur_of_stillL M Ho (ht p) (fun m hm hs h => hr m hm hs p h)
  intro m hm hs
  obtain ⟨h1, h2, h3, h4, h5⟩ := H' m hm _ rfl
  generalize hm' : m.sync topic ((round o (g.members.map fun m => m.report topic) count topic).parts m.id)
        ((round o (g.members.map fun m => m.report topic) count topic).instr m.id) = m' at *
  have hin : m' ∈ roundAll o count topic g.members := List.mem_map.2 ⟨m, hm, hm'⟩
  have hk : m'.status = m.status ∧ m'.closes = m.closes ∧ m'.status ≠ defunct := by
    rcases M.st m hm with h | h
    · rw [(h4 h).1, h]; exact ⟨rfl, (h4 h).2.1, by decide⟩
    · have hne : m'.owned ≠ [] := by
        rcases hs with hs | hs
        · rw [h] at hs; exact absurd hs inactive_ne_active
        · obtain ⟨p, hp⟩ := List.exists_mem_of_ne_nil _ hs
          exact List.ne_nil_of_mem ((h3 p).2 (by rw [nextOwn_self (hcur p)]; exact (M.has m hm p).1 hp))
      obtain ⟨k1, k2⟩ := (h5 h).2 hne
      rw [k1, h]; exact ⟨rfl, k2, by decide⟩
  have hmem : m' ∈ (g.round o count topic).members := List.mem_filter.2 ⟨hin, by simpa using hk.2.2⟩
  refine ⟨m', hmem, h1, hk.1, hk.2.1, ?_, ?_⟩
  · intro ha; rw [hM.rdy m' hmem (hk.1.trans ha), M.rdy m hm ha, h1]
  · intro p; rw [hM.has m' hmem, M.has m hm, h1]

/-- Members have partitions ready that they own already, at least one does. -/
structure Stale (g : Grp) (count : Nat) (topic : Bytes) (own : Int → Option Nat) (rd : Nat → List TP) : Prop where
  mid : MidL g.members count own rd
  total : Total own count
  mine : ∀ m ∈ g.members, m.status = activeMember → ∀ q, (⟨q, topic⟩ : TP) ∈ m.ready → own q = some m.id
  one : ∃ m ∈ g.members, m.status = activeMember ∧ m.ready ≠ []

/-- Whoever is active or owns something is still there and has the same partitions. -/
def Stays (g g' : Grp) : Prop :=
  ∀ m ∈ g.members, m.status = activeMember ∨ m.owned ≠ [] → ∃ m' ∈ g'.members,
    m'.id = m.id ∧ m'.status = m.status ∧ m'.closes = m.closes ∧ ∀ p, p ∈ m'.owned ↔ p ∈ m.owned

theorem Stays.trans {a b c : Grp} (h1 : Stays a b) (h2 : Stays b c) : Stays a c := by
  intro m hm h
  obtain ⟨m1, hm1, e1, e2, e3, e4⟩ := h1 m hm h
  obtain ⟨m2, hm2, f1, f2, f3, f4⟩ := h2 m1 hm1 (by
    rcases h with h | h
    · exact .inl (e2.trans h)
    · obtain ⟨p, hp⟩ := List.exists_mem_of_ne_nil _ h
      exact .inr (List.ne_nil_of_mem ((e4 p).2 hp)))
  exact ⟨m2, hm2, f1.trans e1, f2.trans e2, f3.trans e3, fun p => (f4 p).trans (e4 p)⟩

theorem Stale.round {g : Grp} {count : Nat} {topic : Bytes} {own : Int → Option Nat} {rd : Nat → List TP} (S : Stale g count topic own rd) (o : Sched) :
    Stale (g.round o count topic) count topic own rd ∧ Stays g (g.round o count topic) := by
  obtain ⟨M, K⟩ := stale_round S.mid S.total o topic S.mine S.one
  refine ⟨⟨M, S.total, ?_, ?_⟩, ?_⟩
  · intro m' hm' hs q hq
    obtain ⟨m, hm, e1, e2⟩ := (rel_round S.mid o topic).from' m' hm'
    rw [e1]
    refine S.mine m hm (e2 ▸ hs) q ?_
    rw [M.rdy m' hm' hs, e1] at hq
    rw [S.mid.rdy m hm (e2 ▸ hs)]; exact hq
  · obtain ⟨m, hm, hs, hne⟩ := S.one
    obtain ⟨m', hm', _, e2, _, e4, _⟩ := K m hm (.inl hs)
    exact ⟨m', hm', e2.trans hs, by rw [e4 hs]; exact hne⟩
  · intro m hm h
    obtain ⟨m', h1, h2, h3, h4, _, h5⟩ := K m hm h
    exact ⟨m', h1, h2, h3, h4, h5⟩

theorem Stale.prepare {g : Grp} {count : Nat} {topic : Bytes} {own : Int → Option Nat} {rd : Nat → List TP} (S : Stale g count topic own rd) :
    Stale g.prepare count topic own rd ∧ Stays g g.prepare := by
  have hk := fun m : Mb => prepared_keeps m.preparing m
  have hsame : ∀ m ∈ g.members, m.status = activeMember → m.preparing.foldl Mb.partitionPrepared m = m := by
    intro m hm hs
    rw [S.mid.prep m hm hs]; rfl
  have hfrom : ∀ x ∈ g.prepare.members, ∃ m ∈ g.members, x = m.preparing.foldl Mb.partitionPrepared m := by
    intro x hx
    obtain ⟨m, hm, rfl⟩ := List.mem_map.1 hx
    exact ⟨m, hm, rfl⟩
  have hact : ∀ x ∈ g.prepare.members, x.status = activeMember → x ∈ g.members := by
    intro x hx hs
    obtain ⟨m, hm, rfl⟩ := hfrom x hx
    rw [(hk m).2.1] at hs
    rw [hsame m hm hs]; exact hm
  have hin : ∀ m ∈ g.members, m.preparing.foldl Mb.partitionPrepared m ∈ g.prepare.members := fun m hm => List.mem_map.2 ⟨m, hm, rfl⟩
  have hids : g.prepare.members.map Mb.id = g.members.map Mb.id := by
    unfold Grp.prepare prepareAll
    dsimp only
    rw [List.map_map]
    exact List.map_congr_left fun m _ => (hk m).1
  refine ⟨⟨⟨?_, ?_, ?_, ?_, ?_, ?_, ?_, ?_⟩, S.total, ?_, ?_⟩, ?_⟩
  · rw [hids]; exact S.mid.ids
  · obtain ⟨m, hm, hs⟩ := S.mid.stay
    exact ⟨_, hin m hm, by rw [(hk m).2.1]; exact hs⟩
  · intro x hx
    obtain ⟨m, hm, rfl⟩ := hfrom x hx
    rw [(hk m).2.1]; exact S.mid.st m hm
  · exact fun x hx hs => S.mid.prep x (hact x hx hs) hs
  · exact fun x hx hs => S.mid.rdy x (hact x hx hs) hs
  · intro x hx
    obtain ⟨m, hm, rfl⟩ := hfrom x hx
    rw [(hk m).2.2.1]; exact S.mid.nodup m hm
  · intro x hx
    obtain ⟨m, hm, rfl⟩ := hfrom x hx
    rw [(hk m).2.2.1, (hk m).1]; exact S.mid.has m hm
  · rw [hids]; exact S.mid.dom
  · exact fun x hx hs => S.mine x (hact x hx hs) hs
  · obtain ⟨m, hm, hs, hne⟩ := S.one
    exact ⟨m, by have := hin m hm; rwa [hsame m hm hs] at this, hs, hne⟩
  · intro m hm _
    exact ⟨_, hin m hm, (hk m).1, (hk m).2.1, (hk m).2.2.2, fun p => by rw [(hk m).2.2.1]⟩

/-- The same for any number of cycles: nothing moves, nobody leaves that owns anything. -/
theorem stale_cycles {g : Grp} {count : Nat} {topic : Bytes} {own : Int → Option Nat} {rd : Nat → List TP} (S : Stale g count topic own rd)
    (os : Nat → Sched × Sched × Sched) (n : Nat) :
    Stale (g.cycles os count topic n) count topic own rd ∧ Stays g (g.cycles os count topic n) := by
  induction n with
  | zero => exact ⟨S, fun m hm _ => ⟨m, hm, rfl, rfl, rfl, fun _ => Iff.rfl⟩⟩
  | succ n ih =>
    obtain ⟨S1, K1⟩ := ih.1.round (os n).1
    obtain ⟨S2, K2⟩ := S1.prepare
    obtain ⟨S3, K3⟩ := S2.round (os n).2.1
    obtain ⟨S4, K4⟩ := S3.round (os n).2.2
    exact ⟨S4, ih.2.trans (K1.trans (K2.trans (K3.trans K4)))⟩

/-! ### Groups from which members leave -/

/-- All partitions are assigned, some members are leaving, at least one is not, and nobody that stays prepares anything. -/
structure Leaving (ms : List Mb) (count : Nat) : Prop where
  ids : (ms.map Mb.id).Nodup
  stay : ∃ m ∈ ms, m.status = activeMember
  st : ∀ m ∈ ms, m.status = activeMember ∧ m.preparing = [] ∧ m.ready = [] ∨ m.status = inactiveMember
  nodup : ∀ m ∈ ms, m.owned.Nodup
  range : ∀ m ∈ ms, ∀ p ∈ m.owned, 0 ≤ p ∧ p < (count : Int)
  cover : ∀ p : Int, 0 ≤ p → p < count → ∃ m ∈ ms, p ∈ m.owned
  disj : ∀ m ∈ ms, ∀ m' ∈ ms, ∀ p, p ∈ m.owned → p ∈ m'.owned → m = m'

theorem holder_iffL {ms : List Mb} (ids : (ms.map Mb.id).Nodup) (disj : ∀ m ∈ ms, ∀ m' ∈ ms, ∀ p, p ∈ m.owned → p ∈ m'.owned → m = m')
    {m : Mb} (hm : m ∈ ms) (p : Int) : p ∈ m.owned ↔ holder ms p = some m.id := by
  unfold holder
  constructor
  · intro hp
    cases h : ms.find? fun m => decide (p ∈ m.owned) with
    | none => have := List.find?_eq_none.1 h m hm; simp [hp] at this
    | some m' =>
      have h1 := List.mem_of_find?_eq_some h
      have h2 := List.find?_some h
      simp only [decide_eq_true_eq] at h2
      rw [disj m hm m' h1 p hp h2]; rfl
  · intro h
    obtain ⟨m', h1, h2⟩ := Option.map_eq_some_iff.1 h
    have h3 := List.mem_of_find?_eq_some h1
    have h4 := List.find?_some h1
    simp only [decide_eq_true_eq] at h4
    rw [← mb_eq ids h3 hm h2]; exact h4

theorem midL_of_holder {ms : List Mb} {count : Nat} {rd : Nat → List TP} (ids : (ms.map Mb.id).Nodup) (stay : ∃ m ∈ ms, m.status = activeMember)
    (st : ∀ m ∈ ms, m.status = activeMember ∧ m.preparing = [] ∧ m.ready = rd m.id ∨ m.status = inactiveMember)
    (nodup : ∀ m ∈ ms, m.owned.Nodup) (range : ∀ m ∈ ms, ∀ p ∈ m.owned, 0 ≤ p ∧ p < (count : Int))
    (cover : ∀ p : Int, 0 ≤ p → p < count → ∃ m ∈ ms, p ∈ m.owned)
    (disj : ∀ m ∈ ms, ∀ m' ∈ ms, ∀ p, p ∈ m.owned → p ∈ m'.owned → m = m') :
    MidL ms count (holder ms) rd ∧ Total (holder ms) count := by
  refine ⟨⟨ids, stay, fun m hm => (st m hm).imp (·.1) id, ?_, ?_, nodup, fun m hm p => holder_iffL ids disj hm p, ?_⟩, ?_⟩
  · intro m hm hs
    rcases st m hm with h | h
    · exact h.2.1
    · rw [hs] at h; exact absurd h.symm inactive_ne_active
  · intro m hm hs
    rcases st m hm with h | h
    · exact h.2.2
    · rw [hs] at h; exact absurd h.symm inactive_ne_active
  · intro p i h
    unfold holder at h
    obtain ⟨m, h1, h2⟩ := Option.map_eq_some_iff.1 h
    have h3 := List.mem_of_find?_eq_some h1
    have h4 := List.find?_some h1
    simp only [decide_eq_true_eq] at h4
    exact ⟨List.mem_map.2 ⟨m, h3, h2⟩, range m h3 p h4⟩
  · intro p h1 h2
    obtain ⟨m, hm, hp⟩ := cover p h1 h2
    rw [(holder_iffL ids disj hm p).1 hp]; simp

theorem Leaving.mid {ms : List Mb} {count : Nat} (L : Leaving ms count) : MidL ms count (holder ms) (fun _ => []) ∧ Total (holder ms) count :=
  midL_of_holder L.ids L.stay L.st L.nodup L.range L.cover L.disj

/-- Members of a settled group that begin to leave (`GracefullyLeaveGroup`). -/
theorem leaving_of_settled {ms : List Mb} {count : Nat} (S : Settled ms count) (now : Int) (who : Mb → Bool) (h : ∃ m ∈ ms, who m = false) :
    Leaving (ms.map fun m => if who m then m.gracefullyLeave now else m) count := by
  have hst : ∀ m ∈ ms, m.gracefullyLeave now = { m with status := inactiveMember, leaveTime := now } := by
    intro m hm
    unfold Mb.gracefullyLeave
    rw [if_pos (S.act m hm).1]
  have hid : ∀ m ∈ ms, (if who m then m.gracefullyLeave now else m).id = m.id := by
    intro m hm; split
    · rw [hst m hm]
    · rfl
  have how : ∀ m ∈ ms, (if who m then m.gracefullyLeave now else m).owned = m.owned := by
    intro m hm; split
    · rw [hst m hm]
    · rfl
  have hfrom : ∀ x ∈ ms.map fun m => if who m then m.gracefullyLeave now else m,
      ∃ m ∈ ms, x = if who m then m.gracefullyLeave now else m := by
    intro x hx
    obtain ⟨m, hm, rfl⟩ := List.mem_map.1 hx
    exact ⟨m, hm, rfl⟩
  refine ⟨?_, ?_, ?_, ?_, ?_, ?_, ?_⟩
  · rw [List.map_map]
    have : ms.map (Mb.id ∘ fun m => if who m then m.gracefullyLeave now else m) = ms.map Mb.id :=
      List.map_congr_left fun m hm => hid m hm
    rw [this]; exact S.ids
  · obtain ⟨m, hm, hw⟩ := h
    exact ⟨m, List.mem_map.2 ⟨m, hm, by simp [hw]⟩, (S.act m hm).1⟩
  · intro x hx
    obtain ⟨m, hm, rfl⟩ := hfrom x hx
    split
    · right; rw [hst m hm]
    · exact .inl (S.act m hm)
  · intro x hx
    obtain ⟨m, hm, rfl⟩ := hfrom x hx
    rw [how m hm]; exact S.nodup m hm
  · intro x hx
    obtain ⟨m, hm, rfl⟩ := hfrom x hx
    rw [how m hm]; exact S.range m hm
  · intro p h1 h2
    obtain ⟨m, hm, hp⟩ := S.cover p h1 h2
    exact ⟨_, List.mem_map.2 ⟨m, hm, rfl⟩, by rw [how m hm]; exact hp⟩
  · intro x hx y hy p h1 h2
    obtain ⟨m, hm, rfl⟩ := hfrom x hx
    obtain ⟨m', hm', rfl⟩ := hfrom y hy
    rw [how m hm] at h1
    rw [how m' hm'] at h2
    rw [S.disj m hm m' hm' p h1 h2]

end Verif.Rebalance

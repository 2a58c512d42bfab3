import Verif.Rebalance.Proofs
/-
The plan of a round (`balanceTopic`, `round`) in terms of what the members reported.
-/
set_option linter.unusedSectionVars false
set_option linter.unusedSimpArgs false
namespace Verif.Rebalance

open Verif.BTree

/-- The member is not on its way out, as the code sees it (`streams/group_state.go:123`). -/
def Input.stays (x : Input) : Prop := x.md.status ≠ inactiveMember

/-- The member reports to be preparing or ready for the partition. -/
def Input.reports (x : Input) (topic : Bytes) (p : Int) : Prop :=
  (⟨p, topic⟩ : TP) ∈ x.md.ready ∨ (⟨p, topic⟩ : TP) ∈ x.md.preparing

theorem ownerOf_some {ins : List Input} {topic : Bytes} {p : Int} {i : Nat} (h : ownerOf ins topic p = some i) :
    ∃ x ∈ ins, x.id = i ∧ p ∈ x.ownedOf topic := by
  unfold ownerOf at h
  obtain ⟨x, hx, hi⟩ := Option.map_eq_some_iff.1 h
  exact ⟨x, List.mem_of_find?_eq_some hx, hi, by simpa using List.find?_some hx⟩

theorem ownerOf_none {ins : List Input} {topic : Bytes} {p : Int} :
    ownerOf ins topic p = none ↔ ∀ x ∈ ins, p ∉ x.ownedOf topic := by
  unfold ownerOf
  rw [Option.map_eq_none_iff, List.find?_eq_none]
  simp

theorem input_eq {ins : List Input} (hn : (ins.map Input.id).Nodup) {x y : Input} (hx : x ∈ ins) (hy : y ∈ ins)
    (h : x.id = y.id) : x = y := List.inj_on_of_nodup_map hn hx hy h

theorem ownerOf_eq {ins : List Input} {topic : Bytes} {p : Int} {x : Input}
    (hx : x ∈ ins) (hp : p ∈ x.ownedOf topic)
    (hu : ∀ y ∈ ins, p ∈ y.ownedOf topic → y = x) : ownerOf ins topic p = some x.id := by
  cases h : ownerOf ins topic p with
  | none => exact absurd hp (ownerOf_none.1 h x hx)
  | some i =>
    obtain ⟨y, hy, hi, hpy⟩ := ownerOf_some h
    rw [← hi, hu y hy hpy]

/-- Where the partitions go. -/
structure Holders (ins : List Input) (count : Nat) (topic : Bytes) (cur : Int → Option Nat) : Prop where
  free : ∀ p, 0 ≤ p ∧ p < (count : Int) → ownerOf ins topic p = none →
    ∃ x ∈ ins, cur p = some x.id ∧ x.stays ∧ ((∃ y ∈ ins, y.stays ∧ y.reports topic p) → x.reports topic p)
  kept : ∀ p d, ownerOf ins topic p = some d → cur p = some d ∨
    ∃ x ∈ ins, cur p = some x.id ∧ (⟨p, topic⟩ : TP) ∈ x.readyTPs
  delivered : ∀ p d, ownerOf ins topic p = some d → (∃ x ∈ ins, (⟨p, topic⟩ : TP) ∈ x.readyTPs) →
    ∃ x ∈ ins, cur p = some x.id ∧ (⟨p, topic⟩ : TP) ∈ x.readyTPs
  alien : ∀ p, ¬ (0 ≤ p ∧ p < (count : Int)) → ownerOf ins topic p = none → cur p = none

/-- Everything is owned and nothing is being moved. -/
structure Quiet (ins : List Input) (count : Nat) (topic : Bytes) : Prop where
  owned : ∀ p, 0 ≤ p ∧ p < (count : Int) → ownerOf ins topic p ≠ none
  still : ∀ x ∈ ins, x.moving = []

/-- The sort value of a member in a quiet group: its partitions plus whatever it lists in its metadata. -/
def weight (o : Sched) (ins : List Input) (count : Nat) (topic : Bytes) (i : Nat) : Nat :=
  ((newGroupState o ins count topic).mem i).pending

/-- The prepare instructions of a round. -/
inductive Prepares (o : Sched) (ins : List Input) (count : Nat) (topic : Bytes) (pr : Nat → List TP) : Prop where
  | none (h : ∀ i, pr i = [])
      (hq : Quiet ins count topic → (∀ x ∈ ins, ¬ x.stays → ∀ p, ownerOf ins topic p ≠ some x.id) ∧
        isImbalanced (newGroupState o ins count topic) = Option.none)
  | one (q : Quiet ins count topic) (m d : Input) (hm : m ∈ ins) (hd : d ∈ ins) (p : Int)
      (h1 : pr m.id = [⟨p, topic⟩]) (h2 : ∀ i, i ≠ m.id → pr i = []) (hne : d.id ≠ m.id)
      (ho : ownerOf ins topic p = some d.id) (hs : m.stays)
      (hw : ¬ d.stays ∨ (d.stays ∧ (∀ x ∈ ins, ¬ x.stays → ∀ p, ownerOf ins topic p ≠ some x.id) ∧
        isImbalanced (newGroupState o ins count topic) = some (d.id, m.id)))

theorem isImbalanced_some {g : GS} {d r : Nat} (h : isImbalanced g = some (d, r)) :
    2 ≤ g.active.length ∧ g.active.getLast? = some d ∧ g.active.head? = some r ∧
    (g.mem d).donatable.length > 1 ∧
    ((g.mem r).pending < g.count / g.active.length ∨ (g.mem d).pending > g.count / g.active.length + 1) := by
  unfold isImbalanced at h
  split at h
  · simp at h
  · rename_i hl
    simp only at h
    split at h
    · rename_i d' r' h1 h2
      split at h
      · rename_i hc
        simp only [Option.some.injEq, Prod.mk.injEq] at h
        obtain ⟨rfl, rfl⟩ := h
        exact ⟨by omega, h1, h2, hc⟩
      · simp at h
    · simp at h

theorem last_ne_head {l : List Nat} {d r : Nat} (hn : l.Nodup) (h2 : 2 ≤ l.length) (hd : l.getLast? = some d)
    (hr : l.head? = some r) : d ≠ r := by
  match l, h2 with
  | a :: b :: t, _ =>
    simp only [List.head?_cons, Option.some.injEq] at hr
    subst hr
    rw [List.getLast?_cons_cons] at hd
    have := List.mem_of_getLast? hd
    rintro rfl
    exact (List.nodup_cons.1 hn).1 this

theorem plan_spec (o : Sched) (ins : List Input) (count : Nat) (topic : Bytes)
    (hn : (ins.map Input.id).Nodup) (ha : ∃ x ∈ ins, x.stays) :
    (∃ cur, Holders ins count topic cur ∧
      (∀ p i, p ∈ (balanceTopic o ins count topic).parts i ↔ cur p = some i)) ∧
    Prepares o ins count topic (fun i => ((balanceTopic o ins count topic).instr i).prepare) ∧
    (∀ x ∈ ins, ((balanceTopic o ins count topic).instr x.id).forget = x.forget) ∧
    (∀ i, ((balanceTopic o ins count topic).parts i).Nodup) := by
  have S := start o ins count topic hn
  have hna : (newGroupState o ins count topic).active ≠ [] := by
    obtain ⟨x, hx, hs⟩ := ha
    have := (S.active x.id).2 ⟨x, hx, rfl, hs⟩
    intro e; rw [e] at this; simp at this
  have R := balance_result o S hna
  have hbt : balanceTopic o ins count topic =
      { parts := fun i => if i ∈ (balance o budget (newGroupState o ins count topic)).inactive ++
          (balance o budget (newGroupState o ins count topic)).active then
          ((balance o budget (newGroupState o ins count topic)).mem i).asg else []
        instr := fun i => ((balance o budget (newGroupState o ins count topic)).mem i).instr } := by
    unfold balanceTopic
    simp only
    rw [if_neg (by simpa using hna)]
  rw [hbt]
  simp only
  have hq : Quiet ins count topic ↔ (newGroupState o ins count topic).unassigned = [] ∧
      (newGroupState o ins count topic).inReceivership = [] := by
    constructor
    · intro q
      constructor
      · apply List.eq_nil_iff_forall_not_mem.2
        intro p hp
        rw [S.un, S.owner] at hp
        exact q.owned p hp.1 hp.2
      · apply List.eq_nil_iff_forall_not_mem.2
        intro p hp
        rw [S.recv] at hp
        obtain ⟨x, hx, tp, ht, _⟩ := hp
        rw [q.still x hx] at ht; simp at ht
    · rintro ⟨h1, h2⟩
      refine ⟨?_, ?_⟩
      · intro p hp he
        have := (S.un p).2 ⟨hp, by rw [S.owner]; exact he⟩
        rw [h1] at this; simp at this
      · intro x hx
        apply List.eq_nil_iff_forall_not_mem.2
        intro tp ht
        have := (S.recv tp.part).2 ⟨x, hx, tp, ht, rfl⟩
        rw [h2] at this; simp at this
  generalize hg0 : newGroupState o ins count topic = g0 at *
  generalize balance o budget g0 = gb at *
  have hin : ∀ i, i ∈ g0.inactive ++ g0.active ↔ i ∈ ins.map Input.id := by
    intro i
    rw [List.mem_append, S.active, S.inactive, List.mem_map]
    constructor
    · rintro (⟨x, hx, h, _⟩ | ⟨x, hx, h, _⟩) <;> exact ⟨x, hx, h⟩
    · rintro ⟨x, hx, h⟩
      by_cases e : x.md.status = inactiveMember
      · exact .inl ⟨x, hx, h, e⟩
      · exact .inr ⟨x, hx, h, e⟩
  have hprep := start_prepare S
  have hforget : ∀ x ∈ ins, (g0.mem x.id).instr.forget = x.forget := by
    intro x hx; rw [S.instr x hx]
  cases R with
  | busy cur D hb =>
    have hnq : ¬ Quiet ins count topic := by
      rw [hq]; rintro ⟨h1, h2⟩
      rcases hb with h | h
      · exact h h1
      · exact h h2
    have Ho : Holders ins count topic cur :=
      { free := by
          intro p hp he
          obtain ⟨r, hr, hact, hrep⟩ := D.unassigned p ((S.un p).2 ⟨hp, by rw [S.owner]; exact he⟩)
          obtain ⟨x, hx, rfl, hst⟩ := (S.active r).1 hact
          refine ⟨x, hx, hr, hst, ?_⟩
          rintro ⟨y, hy, hys, hyr⟩
          have := hrep ⟨y.id, (S.active _).2 ⟨y, hy, rfl, hys⟩, by
            rw [isPreparingOrReadyFor_iff, S.md y hy, S.top]; exact hyr⟩
          rw [isPreparingOrReadyFor_iff, S.md x hx, S.top] at this
          exact this
        kept := fun p d h => D.kept p d (by rw [S.owner]; exact h)
        delivered := fun p d h => D.delivered p d (by rw [S.owner]; exact h)
        alien := by
          intro p hp he
          exact D.alien p (by rw [S.un]; exact fun h => hp h.1) (by rw [S.owner]; exact he) }
    have hcur : ∀ p i, cur p = some i → i ∈ ins.map Input.id := by
      intro p i hc
      cases ho : ownerOf ins topic p with
      | some d =>
        rcases Ho.kept p d ho with h | ⟨x, hx, h, _⟩
        · rw [hc] at h
          obtain ⟨x, hx, hd, _⟩ := ownerOf_some ho
          rw [Option.some.inj h, ← hd]
          exact List.mem_map.2 ⟨x, hx, rfl⟩
        · rw [hc] at h
          rw [Option.some.inj h]
          exact List.mem_map.2 ⟨x, hx, rfl⟩
      | none =>
        by_cases hp : 0 ≤ p ∧ p < (count : Int)
        · obtain ⟨x, hx, h, _⟩ := Ho.free p hp ho
          rw [hc] at h
          rw [Option.some.inj h]
          exact List.mem_map.2 ⟨x, hx, rfl⟩
        · rw [Ho.alien p hp ho] at hc; simp at hc
    refine ⟨⟨cur, Ho, ?_⟩, ?_, ?_, fun i => by split; exact D.bal.nodup i; exact List.nodup_nil⟩
    · intro p i
      by_cases hi : i ∈ ins.map Input.id
      · rw [if_pos]
        · exact D.bal.own p i
        · rw [List.mem_append, D.bal.inact, D.bal.act, ← List.mem_append]
          exact (hin i).2 hi
      · rw [if_neg]
        · constructor
          · intro h; simp at h
          · intro h; exact absurd (hcur p i h) hi
        · rw [List.mem_append, D.bal.inact, D.bal.act, ← List.mem_append]
          exact fun h => hi ((hin i).1 h)
    · refine .none ?_ (fun q => absurd q hnq)
      intro i
      rw [D.bal.instr]; exact hprep i
    · intro x hx
      rw [D.bal.instr]; exact hforget x hx
  | quiet h1 h2 h3 =>
    have hQ : Quiet ins count topic := hq.2 ⟨h1, h2⟩
    have Ho : Holders ins count topic g0.assigned :=
      { free := fun p hp he => absurd he (hQ.owned p hp)
        kept := fun p d h => .inl (by rw [S.owner]; exact h)
        delivered := by
          rintro p d h ⟨x, hx, hr⟩
          have := readyTPs_sub_moving hr
          rw [hQ.still x hx] at this; simp at this
        alien := fun p _ h => by rw [S.owner]; exact h }
    have hown : ∀ p i, p ∈ (if i ∈ g0.inactive ++ g0.active then (g0.mem i).asg else []) ↔
        g0.assigned p = some i := by
      intro p i
      by_cases hi : i ∈ ins.map Input.id
      · rw [if_pos ((hin i).2 hi)]; exact S.asg p i
      · rw [if_neg (fun h => hi ((hin i).1 h))]
        constructor
        · intro h; simp at h
        · intro h
          rw [S.owner] at h
          obtain ⟨x, hx, hd, _⟩ := ownerOf_some h
          exact absurd (List.mem_map.2 ⟨x, hx, hd⟩) hi
    have hdon : ∀ p i, p ∈ (g0.mem i).donatable → ownerOf ins topic p = some i := by
      intro p i hp
      rw [S.don] at hp
      rw [← S.owner]; exact (S.asg p i).1 hp.1
    have hnoleaver : inactiveDonor g0 = none →
        ∀ x ∈ ins, ¬ x.stays → ∀ p, ownerOf ins topic p ≠ some x.id := by
      intro hi x hx hs p he
      unfold inactiveDonor at hi
      have hxi : x.id ∈ g0.inactive := (S.inactive _).2 ⟨x, hx, rfl, by
        unfold Input.stays at hs; simpa using hs⟩
      have := List.find?_eq_none.1 hi x.id hxi
      simp only [ne_eq, decide_not, Bool.not_eq_true', decide_eq_false_iff_not, not_not] at this
      have hp : p ∈ (g0.mem x.id).donatable := by
        rw [S.don, h2, S.asg, S.owner]; exact ⟨he, by simp⟩
      rw [List.eq_nil_of_length_eq_zero this] at hp
      simp at hp
    have main : ∀ d r, r ∈ g0.active → (g0.mem d).donatable ≠ [] → d ≠ r →
        (∀ md ∈ ins, ∀ mr ∈ ins, md.id = d → mr.id = r →
          ¬ md.stays ∨ (md.stays ∧ (∀ x ∈ ins, ¬ x.stays → ∀ p, ownerOf ins topic p ≠ some x.id) ∧
          isImbalanced g0 = some (md.id, mr.id))) →
        (∃ cur, Holders ins count topic cur ∧
          (∀ p i, p ∈ (if i ∈ (donatePartition o g0 d r).inactive ++ (donatePartition o g0 d r).active then
            ((donatePartition o g0 d r).mem i).asg else []) ↔ cur p = some i)) ∧
        Prepares o ins count topic (fun i => ((donatePartition o g0 d r).mem i).instr.prepare) ∧
        (∀ x ∈ ins, ((donatePartition o g0 d r).mem x.id).instr.forget = x.forget) ∧
        (∀ i, (if i ∈ (donatePartition o g0 d r).inactive ++ (donatePartition o g0 d r).active then
            ((donatePartition o g0 d r).mem i).asg else []).Nodup) := by
      intro d r hr hd hne hw
      obtain ⟨e1, e2, e3⟩ := donate_effect o (d := d) S.sorted hr
      obtain ⟨mr, hmr, rfl, hst⟩ := (S.active r).1 hr
      have hp := random_mem o hd
      have hpo := hdon _ _ hp
      obtain ⟨md, hmd, rfl, _⟩ := ownerOf_some hpo
      have hasg : ∀ i, ((donatePartition o g0 md.id mr.id).mem i).asg = (g0.mem i).asg := by
        intro i
        rw [e1]
        by_cases e : i = mr.id
        · subst e; simp
        · rw [updM_ne _ _ e]
      refine ⟨⟨g0.assigned, Ho, ?_⟩, ?_, ?_, fun i => by
        split
        · rw [hasg]; exact (S.nodup i).1
        · exact List.nodup_nil⟩
      · intro p i
        have hmem : i ∈ (donatePartition o g0 md.id mr.id).inactive ++ (donatePartition o g0 md.id mr.id).active ↔
            i ∈ g0.inactive ++ g0.active := by
          rw [List.mem_append, e2, e3, List.mem_append]
        rw [hasg]
        simp only [hmem]
        exact hown p i
      · refine .one hQ mr md hmr hmd _ ?_ ?_ hne hpo hst (by rw [hg0]; exact hw md hmd mr hmr rfl rfl)
        · show ((donatePartition o g0 md.id mr.id).mem mr.id).instr.prepare = _
          rw [e1]; simp [hprep, S.top]
        · intro i hi
          show ((donatePartition o g0 md.id mr.id).mem i).instr.prepare = _
          rw [e1, updM_ne _ _ hi]; exact hprep i
      · intro x hx
        rw [e1]
        by_cases e : x.id = mr.id
        · rw [e]; simp; rw [← e]; exact hforget x hx
        · rw [updM_ne _ _ e]; exact hforget x hx
    cases h3 with
    | nothing hi hb =>
      refine ⟨⟨g0.assigned, Ho, hown⟩, .none hprep (fun _ => ⟨hnoleaver hi, by rw [hg0]; exact hb⟩), hforget,
        fun i => by split; exact (S.nodup i).1; exact List.nodup_nil⟩
    | leaver d r hi hh =>
      have hdm : d ∈ g0.inactive := by
        unfold inactiveDonor at hi; exact List.mem_of_find?_eq_some hi
      have hdd : (g0.mem d).donatable ≠ [] := by
        unfold inactiveDonor at hi
        have := List.find?_some hi
        simpa using this
      have hr : r ∈ g0.active := by
        cases hg : g0.active with
        | nil => rw [hg] at hh; simp at hh
        | cons a l => rw [hg] at hh; simp at hh; subst hh; simp
      obtain ⟨xd, hxd, hxdi, hxds⟩ := (S.inactive d).1 hdm
      refine main d r hr hdd ?_ ?_
      · rintro rfl
        obtain ⟨y, hy, hyi, hys⟩ := (S.active d).1 hr
        rw [input_eq hn hy hxd (hyi.trans hxdi.symm)] at hys
        exact hys hxds
      · intro md hmd mr hmr h1 h2
        left
        rw [input_eq hn hmd hxd (h1.trans hxdi.symm)]
        unfold Input.stays; simp [hxds]
    | shift d r hi hb =>
      obtain ⟨b1, b2, b3, b4, b5⟩ := isImbalanced_some hb
      have hr : r ∈ g0.active := by
        cases hg : g0.active with
        | nil => rw [hg] at b3; simp at b3
        | cons a l => rw [hg] at b3; simp at b3; subst b3; simp
      have hda : d ∈ g0.active := List.mem_of_getLast? b2
      refine main d r hr ?_ (last_ne_head (nodup_of_sorted S.sorted) b1 b2 b3) ?_
      · intro e; rw [e] at b4; simp at b4
      · rintro md hmd mr hmr rfl rfl
        right
        obtain ⟨y, hy, hyi, hys⟩ := (S.active md.id).1 hda
        rw [input_eq hn hy hmd hyi] at hys
        exact ⟨hys, hnoleaver hi, hb⟩

/-- Without a member that stays the plan is empty. -/
theorem plan_empty (o : Sched) (ins : List Input) (count : Nat) (topic : Bytes)
    (hn : (ins.map Input.id).Nodup) (ha : ¬ ∃ x ∈ ins, x.stays) (i : Nat) :
    (balanceTopic o ins count topic).parts i = [] ∧
    ((balanceTopic o ins count topic).instr i).prepare = [] := by
  have S := start o ins count topic hn
  have hna : (newGroupState o ins count topic).active = [] := by
    apply List.eq_nil_iff_forall_not_mem.2
    intro j hj
    obtain ⟨x, hx, _, hs⟩ := (S.active j).1 hj
    exact ha ⟨x, hx, hs⟩
  unfold balanceTopic
  simp only [hna, List.length_nil, if_true]
  exact ⟨trivial, start_prepare S i⟩

theorem mem_round (o : Sched) (ins : List Input) (count : Nat) (topic : Bytes) (p : Int) (i : Nat) :
    p ∈ (round o ins count topic).parts i ↔ p ∈ (balanceTopic o ins count topic).parts i ∧
      ((∃ x ∈ ins, x.id = i ∧ p ∈ x.ownedOf topic) ∨
       ∀ x ∈ ins, p ∈ x.ownedOf topic → p ∈ (balanceTopic o ins count topic).parts x.id) := by
  unfold round adjustCooperative
  simp only [List.mem_filter, Bool.or_eq_true, List.any_eq_true, Bool.and_eq_true, decide_eq_true_eq,
    Bool.not_eq_true', List.any_eq_false, not_and, Decidable.not_not]

end Verif.Rebalance

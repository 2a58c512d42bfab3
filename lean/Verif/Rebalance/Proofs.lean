import Verif.Rebalance.Build
/-
What a balancing round decides, in terms of what the members reported.
-/
set_option linter.unusedSectionVars false
set_option linter.unusedSimpArgs false
namespace Verif.Rebalance

open Verif.BTree

/-- Update of the ghost map from partitions to their holder. -/
def setH (cur : Int → Option Nat) (p : Int) (v : Option Nat) : Int → Option Nat :=
  fun q => if q = p then v else cur q

/-- The state in the middle of `balance`, compared with the state `g0` it started from; `cur` says which
member holds which partition. -/
structure Bal (g0 gs : GS) (cur : Int → Option Nat) : Prop where
  sorted : Sorted (activeLess gs.mem) gs.active
  act : ∀ i, i ∈ gs.active ↔ i ∈ g0.active
  inact : gs.inactive = g0.inactive
  own : ∀ p i, p ∈ (gs.mem i).asg ↔ cur p = some i
  asgd : gs.assigned = g0.assigned
  top : gs.topic = g0.topic
  cnt : gs.count = g0.count
  rdy : ∀ i tp, tp ∈ (gs.mem i).md.ready → tp ∈ (g0.mem i).md.ready
  rdy' : ∀ i tp, tp ∈ (g0.mem i).md.ready → tp.part ∉ gs.inTransition → tp ∈ (gs.mem i).md.ready
  prp : ∀ i tp, tp ∈ (gs.mem i).md.preparing → tp ∈ (g0.mem i).md.preparing
  prp' : ∀ i tp, tp ∈ (g0.mem i).md.preparing → tp.part ∉ gs.inTransition → tp ∈ (gs.mem i).md.preparing
  map : ∀ e ∈ gs.ready, e ∈ g0.ready
  map' : ∀ e ∈ g0.ready, e.1.part ∉ gs.inTransition → e ∈ gs.ready
  don : ∀ p i, p ∉ gs.inTransition → (p ∈ (gs.mem i).donatable ↔ p ∈ (g0.mem i).donatable)
  dong : ∀ p i, p ∉ gs.inTransition → (p ∈ (gs.mem i).donating ↔ p ∈ (g0.mem i).donating)
  instr : ∀ i, (gs.mem i).instr = (g0.mem i).instr
  recv : ∀ p ∈ g0.inReceivership, p ∈ gs.inReceivership
  nodup : ∀ i, (gs.mem i).asg.Nodup

theorem mem_withoutPartition {tps : List TP} {p : Int} {tp : TP} :
    tp ∈ withoutPartition tps p ↔ tp ∈ tps ∧ tp.part ≠ p := by simp [withoutPartition]

theorem assign_bal {g0 gs : GS} {cur : Int → Option Nat} {p : Int} {r : Nat} (h : Bal g0 gs cur)
    (hprep : ∀ i, (g0.mem i).instr.prepare = []) (hp : cur p = none) (hr : r ∈ g0.active) :
    Bal g0 (assignToActiveMember gs p r) (setH cur p (some r)) := by
  have hr' := (h.act r).2 hr
  unfold assignToActiveMember
  simp only
  obtain ⟨hs, hm⟩ := reinsert (mem' := updM gs.mem r fun x =>
    { x with
      asg := insP p x.asg
      donatable := insP p x.donatable
      md := { x.md with
        preparing := withoutPartition x.md.preparing p
        ready := withoutPartition x.md.ready p }
      instr := { x.instr with prepare := withoutPartition x.instr.prepare p } }) h.sorted hr'
    (fun j hj => updM_ne _ _ hj)
  refine
    { sorted := hs, act := fun i => (hm i).trans (h.act i), inact := h.inact, own := ?_, asgd := h.asgd,
      top := h.top, cnt := h.cnt, rdy := ?_, rdy' := ?_, prp := ?_, prp' := ?_, map := ?_, map' := ?_,
      don := ?_, dong := ?_, instr := ?_, recv := ?_, nodup := ?_ }
  · intro q i
    by_cases e : i = r
    · subst e
      simp only [updM_same, mem_insP, h.own, setH]
      by_cases eq : q = p <;> simp [eq]
    · simp only [updM_ne _ _ e, h.own, setH]
      by_cases eq : q = p
      · subst eq; simp [hp]; exact fun h => e h.symm
      · simp [eq]
  · intro i tp
    by_cases e : i = r
    · subst e
      simp only [updM_same, mem_withoutPartition]
      exact fun h' => h.rdy _ _ h'.1
    · simp only [updM_ne _ _ e]; exact h.rdy i tp
  · intro i tp ht hn
    simp only [mem_insP, not_or] at hn
    by_cases e : i = r
    · subst e
      simp only [updM_same, mem_withoutPartition]
      exact ⟨h.rdy' _ _ ht hn.2, hn.1⟩
    · simp only [updM_ne _ _ e]; exact h.rdy' i tp ht hn.2
  · intro i tp
    by_cases e : i = r
    · subst e
      simp only [updM_same, mem_withoutPartition]
      exact fun h' => h.prp _ _ h'.1
    · simp only [updM_ne _ _ e]; exact h.prp i tp
  · intro i tp ht hn
    simp only [mem_insP, not_or] at hn
    by_cases e : i = r
    · subst e
      simp only [updM_same, mem_withoutPartition]
      exact ⟨h.prp' _ _ ht hn.2, hn.1⟩
    · simp only [updM_ne _ _ e]; exact h.prp' i tp ht hn.2
  · intro e he
    simp only [delK, List.mem_filter] at he
    exact h.map e he.1
  · intro e he hn
    simp only [mem_insP, not_or] at hn
    simp only [delK, List.mem_filter, decide_eq_true_eq]
    refine ⟨h.map' e he hn.2, ?_⟩
    intro hh
    exact hn.1 (by rw [hh])
  · intro q i hn
    simp only [mem_insP, not_or] at hn
    by_cases e : i = r
    · subst e
      simp only [updM_same, mem_insP, hn.1, false_or]
      exact h.don q i hn.2
    · simp only [updM_ne _ _ e]; exact h.don q i hn.2
  · intro q i hn
    simp only [mem_insP, not_or] at hn
    by_cases e : i = r
    · subst e
      simp only [updM_same]
      exact h.dong q i hn.2
    · simp only [updM_ne _ _ e]; exact h.dong q i hn.2
  · intro i
    by_cases e : i = r
    · subst e
      have h1 := hprep i
      rw [← h.instr i] at h1 ⊢
      simp only [updM_same]
      rw [h1]
      cases hx : (gs.mem i).instr
      rw [hx] at h1
      simp only at h1
      subst h1
      rfl
    · simp only [updM_ne _ _ e]; exact h.instr i
  · intro q hq
    simp only [mem_insP]
    exact .inr (h.recv q hq)
  · intro i
    by_cases e : i = r
    · subst e; simpa using nodup_insP (h.nodup i)
    · simpa only [updM_ne _ _ e] using h.nodup i

theorem unassign_bal {g0 gs : GS} {cur : Int → Option Nat} {p : Int} {d : Nat} (h : Bal g0 gs cur)
    (hp : cur p = some d) (hd : p ∈ (gs.mem d).donating) (hn : p ∉ (gs.mem d).donatable) :
    Bal g0 (unassignFromDonor gs p d) (setH cur p none) := by
  unfold unassignFromDonor
  have key : ∀ i, (updM gs.mem d (fun x =>
      { x with asg := delP p x.asg, donatable := delP p x.donatable, donating := insP p x.donating }) i) =
      { gs.mem i with asg := if i = d then delP p (gs.mem i).asg else (gs.mem i).asg } := by
    intro i
    by_cases e : i = d
    · subst e; simp [delP_of_not_mem hn, insP_of_mem hd]
    · simp [updM_ne _ _ e, e]
  refine { h with sorted := ?_, own := ?_, rdy := ?_, rdy' := ?_, prp := ?_, prp' := ?_,
                  don := ?_, dong := ?_, instr := ?_, nodup := ?_ }
  · refine List.Pairwise.imp ?_ h.sorted
    intro a b hab
    simp only [activeLess, key, M.pending] at hab ⊢
    exact hab
  · intro q i
    simp only [key, setH]
    by_cases e : i = d
    · subst e
      simp only [if_true, mem_delP, h.own]
      by_cases eq : q = p <;> simp [eq]
    · simp only [e, if_false, h.own]
      by_cases eq : q = p
      · subst eq; simp [hp]; exact fun h => e h.symm
      · simp [eq]
  · intro i tp; simp only [key]; exact h.rdy i tp
  · intro i tp; simp only [key]; exact h.rdy' i tp
  · intro i tp; simp only [key]; exact h.prp i tp
  · intro i tp; simp only [key]; exact h.prp' i tp
  · intro q i; simp only [key]; exact h.don q i
  · intro q i; simp only [key]; exact h.dong q i
  · intro i; simp only [key]; exact h.instr i
  · intro i
    simp only [key]
    by_cases e : i = d
    · simpa only [e, if_true] using nodup_delP (h.nodup d)
    · simpa only [e, if_false] using h.nodup i

theorem isReadyFor_iff {m : Meta} {p : Int} {t : Bytes} : m.isReadyFor p t = true ↔ (⟨p, t⟩ : TP) ∈ m.ready := by
  simp [Meta.isReadyFor, containsTP]

theorem isPreparingFor_iff {m : Meta} {p : Int} {t : Bytes} :
    m.isPreparingFor p t = true ↔ (⟨p, t⟩ : TP) ∈ m.preparing := by
  simp [Meta.isPreparingFor, containsTP]

theorem isPreparingOrReadyFor_iff {m : Meta} {p : Int} {t : Bytes} : m.isPreparingOrReadyFor p t = true ↔
    (⟨p, t⟩ : TP) ∈ m.ready ∨ (⟨p, t⟩ : TP) ∈ m.preparing := by
  simp [Meta.isPreparingOrReadyFor, isReadyFor_iff, isPreparingFor_iff]

/-- The recipient of an unassigned partition: an active member that is preparing or ready for it if there is
one. -/
def GoodRecipient (g0 : GS) (q : Int) (r : Nat) : Prop :=
  r ∈ g0.active ∧ ((∃ c ∈ g0.active, (g0.mem c).md.isPreparingOrReadyFor q g0.topic = true) →
    (g0.mem r).md.isPreparingOrReadyFor q g0.topic = true)

theorem choose_good {g0 gs : GS} {cur : Int → Option Nat} {p : Int} (h : Bal g0 gs cur)
    (hp : p ∉ gs.inTransition) (ha : g0.active ≠ []) :
    ∃ r, chooseRecipient gs p = some r ∧ GoodRecipient g0 p r := by
  have iff : ∀ c, (gs.mem c).md.isPreparingOrReadyFor p gs.topic = true ↔
      (g0.mem c).md.isPreparingOrReadyFor p g0.topic = true := by
    intro c
    rw [isPreparingOrReadyFor_iff, isPreparingOrReadyFor_iff, h.top]
    constructor
    · rintro (h1 | h1)
      · exact .inl (h.rdy c _ h1)
      · exact .inr (h.prp c _ h1)
    · rintro (h1 | h1)
      · exact .inl (h.rdy' c _ h1 hp)
      · exact .inr (h.prp' c _ h1 hp)
  unfold chooseRecipient
  cases hf : gs.active.find? fun c => (gs.mem c).md.isPreparingOrReadyFor p gs.topic with
  | some c =>
    refine ⟨c, rfl, (h.act c).1 (List.mem_of_find?_eq_some hf), fun _ => ?_⟩
    have := List.find?_some hf
    exact (iff c).1 this
  | none =>
    have hne : gs.active ≠ [] := by
      intro e
      obtain ⟨c, hc⟩ := List.exists_mem_of_ne_nil _ ha
      have := (h.act c).2 hc
      rw [e] at this; simp at this
    obtain ⟨c, l, hl⟩ := List.exists_cons_of_ne_nil hne
    refine ⟨c, by rw [hl]; rfl, (h.act c).1 (by rw [hl]; simp), ?_⟩
    rintro ⟨c', hc', hg⟩
    have := List.find?_eq_none.1 hf c' ((h.act c').2 hc')
    exact absurd ((iff c').2 hg) this

/-- After the unassigned partitions in `pre` were distributed. -/
structure Dist (g0 gs : GS) (cur : Int → Option Nat) (pre : List Int) : Prop where
  bal : Bal g0 gs cur
  tr : ∀ q, q ∈ gs.inTransition ↔ q ∈ pre
  old : ∀ q, q ∉ pre → cur q = g0.assigned q
  new : ∀ q ∈ pre, ∃ r, cur q = some r ∧ GoodRecipient g0 q r
  rc : pre ≠ [] → gs.inReceivership ≠ []

theorem start_bal {g0 : GS} {ins : List Input} {count : Nat} {topic : Bytes} (S : Start g0 ins count topic) :
    Bal g0 g0 g0.assigned :=
  { sorted := S.sorted, act := fun _ => Iff.rfl, inact := rfl, own := S.asg, asgd := rfl, top := rfl, cnt := rfl,
    rdy := fun _ _ h => h, rdy' := fun _ _ h _ => h, prp := fun _ _ h => h, prp' := fun _ _ h _ => h,
    map := fun _ h => h, map' := fun _ h _ => h, don := fun _ _ _ => Iff.rfl, dong := fun _ _ _ => Iff.rfl,
    instr := fun _ => rfl, recv := fun _ h => h, nodup := fun i => (S.nodup i).1 }

theorem start_prepare {g0 : GS} {ins : List Input} {count : Nat} {topic : Bytes} (S : Start g0 ins count topic) :
    ∀ i, (g0.mem i).instr.prepare = [] := by
  intro i
  by_cases h : i ∈ ins.map Input.id
  · obtain ⟨x, hx, rfl⟩ := List.mem_map.1 h
    rw [S.instr x hx]
  · rw [S.absent i h]; rfl

theorem distribute_spec (o : Sched) {g0 : GS} {ins : List Input} {count : Nat} {topic : Bytes}
    (S : Start g0 ins count topic) (ha : g0.active ≠ []) :
    ∃ cur, Dist g0 (distributeUnassigned o g0) cur (o.parts g0.unassigned) := by
  unfold distributeUnassigned
  refine foldl_pre (fun pre s => ∃ cur, Dist g0 s cur pre) _ _ ?_ ?_
  · exact ⟨g0.assigned, start_bal S, by simp [S.trans], fun _ _ => rfl, by simp, by simp⟩
  · rintro pre p suf s hl ⟨cur, D⟩
    have hnd : (o.parts g0.unassigned).Nodup := (o.parts_perm _).nodup_iff.2 S.unnodup
    have hpn : p ∉ pre := by
      rw [hl] at hnd
      intro hp
      exact (List.nodup_append.1 hnd).2.2 p hp p (by simp) rfl
    have hpu : p ∈ g0.unassigned := by
      rw [← (o.parts_perm g0.unassigned).mem_iff, hl]; simp
    obtain ⟨r, hr, hg⟩ := choose_good D.bal (by rw [D.tr]; exact hpn) ha
    unfold distributeOne
    rw [hr]
    have hcp : cur p = none := by rw [D.old p hpn]; exact ((S.un p).1 hpu).2
    refine ⟨setH cur p (some r), assign_bal D.bal (start_prepare S) hcp hg.1, ?_, ?_, ?_, ?_⟩
    · intro q
      simp only [assignToActiveMember, mem_insP, D.tr, List.mem_append, List.mem_singleton]
      tauto
    · intro q hq
      simp only [List.mem_append, List.mem_singleton, not_or] at hq
      simp only [setH, hq.2, if_false]
      exact D.old q hq.1
    · intro q hq
      by_cases e : q = p
      · subst e; exact ⟨r, by simp [setH], hg⟩
      · simp only [List.mem_append, List.mem_singleton, e, or_false] at hq
        obtain ⟨r', h1, h2⟩ := D.new q hq
        exact ⟨r', by simp [setH, e, h1], h2⟩
    · intro _
      exact insP_ne_nil p _

/-! ### Delivering -/

theorem fullyReady_spec (o : Sched) (gs : GS) :
    ((fullyReady o gs).map Prod.fst).Nodup ∧
    (∀ e ∈ fullyReady o gs, ∃ tp, (tp, e.2) ∈ gs.ready ∧ tp.part = e.1 ∧
      (gs.mem e.2).md.isReadyFor e.1 gs.topic = true) ∧
    (∀ tp i, (tp, i) ∈ gs.ready → (gs.mem i).md.isReadyFor tp.part gs.topic = true →
      ∃ j, (tp.part, j) ∈ fullyReady o gs) := by
  unfold fullyReady
  have H := foldl_pre (f := fun (f : List (Int × Nat)) (e : TP × Nat) =>
      if (gs.mem e.2).md.isReadyFor e.1.part gs.topic then putKV e.1.part e.2 f else f)
    (fun pre f => (f.map Prod.fst).Nodup ∧
      (∀ e ∈ f, ∃ tp, (tp, e.2) ∈ gs.ready ∧ tp.part = e.1 ∧
        (gs.mem e.2).md.isReadyFor e.1 gs.topic = true) ∧
      (∀ tp i, (tp, i) ∈ pre → (gs.mem i).md.isReadyFor tp.part gs.topic = true →
        ∃ j, (tp.part, j) ∈ f)) (o.ready gs.ready) [] ⟨by simp, by simp, by simp⟩ ?_
  · refine ⟨H.1, H.2.1, ?_⟩
    intro tp i hi hr
    exact H.2.2 tp i ((o.ready_perm _).mem_iff.2 hi) hr
  · rintro pre ⟨tp, i⟩ suf f hl ⟨h1, h2, h3⟩
    have hin : (tp, i) ∈ gs.ready := by
      rw [← (o.ready_perm gs.ready).mem_iff, hl]; simp
    simp only
    split
    · rename_i hr
      refine ⟨?_, ?_, ?_⟩
      · simp only [putKV, List.map_cons, List.nodup_cons]
        refine ⟨?_, ?_⟩
        · simp
        · exact h1.sublist (List.filter_sublist.map _)
      · rintro ⟨q, j⟩ he
        rcases mem_putKV.1 he with ⟨rfl, rfl⟩ | ⟨he, _⟩
        · exact ⟨tp, hin, rfl, hr⟩
        · exact h2 (q, j) he
      · intro tp' i' hi' hr'
        rcases List.mem_append.1 hi' with hi' | hi'
        · by_cases e : tp'.part = tp.part
          · exact ⟨i, mem_putKV.2 (.inl ⟨e, rfl⟩)⟩
          · obtain ⟨j, hj⟩ := h3 tp' i' hi' hr'
            exact ⟨j, mem_putKV.2 (.inr ⟨hj, e⟩)⟩
        · simp only [List.mem_singleton, Prod.mk.injEq] at hi'
          obtain ⟨rfl, rfl⟩ := hi'
          exact ⟨i', mem_putKV.2 (.inl ⟨rfl, rfl⟩)⟩
    · rename_i hr
      refine ⟨h1, h2, ?_⟩
      intro tp' i' hi' hr'
      rcases List.mem_append.1 hi' with hi' | hi'
      · exact h3 tp' i' hi' hr'
      · simp only [List.mem_singleton, Prod.mk.injEq] at hi'
        obtain ⟨rfl, rfl⟩ := hi'
        exact absurd hr' hr

/-- After the moves in `pre` were delivered. -/
structure Deliv (g0 gs : GS) (cur : Int → Option Nat) (pre : List (Int × Nat)) : Prop where
  bal : Bal g0 gs cur
  tr : ∀ q, q ∈ gs.inTransition ↔ q ∈ g0.unassigned ∨ (q ∈ pre.map Prod.fst ∧ g0.assigned q ≠ none)
  old : ∀ q, q ∉ gs.inTransition → cur q = g0.assigned q
  new : ∀ q ∈ g0.unassigned, ∃ r, cur q = some r ∧ GoodRecipient g0 q r
  moved : ∀ e ∈ pre, g0.assigned e.1 ≠ none → cur e.1 = some e.2
  rc : g0.unassigned ≠ [] → gs.inReceivership ≠ []

theorem mem_active_of_ready {g0 : GS} {ins : List Input} {count : Nat} {topic : Bytes}
    (S : Start g0 ins count topic) {x : Input} (hx : x ∈ ins) {tp : TP} (h : tp ∈ x.readyTPs) :
    x.id ∈ g0.active := by
  rw [S.active]
  refine ⟨x, hx, rfl, ?_⟩
  unfold Input.readyTPs at h
  unfold Input.md
  split at h
  · rename_i m hm
    rw [hm]
    split at h
    · rename_i hs; rw [hs]; decide
    · simp at h
  · simp at h

theorem deliver_spec (o : Sched) {g0 g1 : GS} {ins : List Input} {count : Nat} {topic : Bytes}
    {cur1 : Int → Option Nat} (S : Start g0 ins count topic) (D : Dist g0 g1 cur1 (o.parts g0.unassigned)) :
    ∃ cur, Deliv g0 (deliverMoves o g1) cur (o.full (fullyReady o g1)) := by
  obtain ⟨f1, f2, f3⟩ := fullyReady_spec o g1
  unfold deliverMoves
  have hU : ∀ q, q ∈ o.parts g0.unassigned ↔ q ∈ g0.unassigned := fun q => (o.parts_perm _).mem_iff
  refine foldl_pre (fun pre s => ∃ cur, Deliv g0 s cur pre) _ _ ?_ ?_
  · refine ⟨cur1, D.bal, ?_, ?_, ?_, by simp, ?_⟩
    · intro q; rw [D.tr, hU]; simp
    · intro q hq; rw [D.tr] at hq; exact D.old q hq
    · intro q hq; exact D.new q ((hU q).2 hq)
    · intro h
      apply D.rc
      intro e
      have := (o.parts_perm g0.unassigned).length_eq
      rw [e] at this
      exact h (List.eq_nil_of_length_eq_zero this.symm)
  · rintro pre ⟨p, r⟩ suf s hl ⟨cur, V⟩
    unfold deliverOne
    simp only
    rw [V.bal.asgd]
    cases hd : g0.assigned p with
    | none =>
      refine ⟨cur, { V with tr := ?_, moved := ?_ }⟩
      · intro q
        rw [V.tr]
        simp only [List.map_append, List.mem_append, List.map_cons, List.map_nil, List.mem_singleton]
        constructor
        · rintro (h | ⟨h1, h2⟩)
          · exact .inl h
          · exact .inr ⟨.inl h1, h2⟩
        · rintro (h | ⟨h1 | h1, h2⟩)
          · exact .inl h
          · exact .inr ⟨h1, h2⟩
          · subst h1; exact absurd hd h2
      · intro e he hne
        rcases List.mem_append.1 he with he | he
        · exact V.moved e he hne
        · simp only [List.mem_singleton] at he; subst he; exact absurd hd hne
    | some d =>
      simp only
      have hpr : (p, r) ∈ fullyReady o g1 := by
        rw [← (o.full_perm (fullyReady o g1)).mem_iff, hl]; simp
      obtain ⟨tp, ht1, ht2, ht3⟩ := f2 _ hpr
      simp only at ht1 ht2 ht3
      obtain ⟨x, hx, hxr, hxt⟩ := S.ready tp r (D.bal.map _ ht1)
      have hrecv : p ∈ g0.inReceivership := by
        rw [S.recv]; exact ⟨x, hx, tp, readyTPs_sub_moving hxt, ht2⟩
      have hact : r ∈ g0.active := by rw [← hxr]; exact mem_active_of_ready S hx hxt
      have hpn : p ∉ pre.map Prod.fst := by
        have hnd : ((o.full (fullyReady o g1)).map Prod.fst).Nodup :=
          ((o.full_perm _).map Prod.fst).nodup_iff.2 f1
        rw [hl, List.map_append] at hnd
        intro hp
        exact (List.nodup_append.1 hnd).2.2 p hp p (by simp) rfl
      have hpu : p ∉ g0.unassigned := by
        rw [S.un, hd]; simp
      have hptr : p ∉ s.inTransition := by
        rw [V.tr]; rintro (h | ⟨h, _⟩)
        · exact hpu h
        · exact hpn h
      have hcp : cur p = some d := by rw [V.old p hptr, hd]
      have hasg : p ∈ (g0.mem d).asg := (S.asg p d).2 hd
      have hdg : p ∈ (s.mem d).donating := by
        rw [V.bal.dong p d hptr, S.dong]; exact ⟨hasg, hrecv⟩
      have hdn : p ∉ (s.mem d).donatable := by
        rw [V.bal.don p d hptr, S.don]; exact fun h => h.2 hrecv
      have B1 := unassign_bal V.bal hcp hdg hdn
      have B2 := assign_bal (p := p) (r := r) B1 (start_prepare S) (by simp [setH]) hact
      refine ⟨setH (setH cur p none) p (some r), B2, ?_, ?_, ?_, ?_, ?_⟩
      · intro q
        simp only [assignToActiveMember, unassignFromDonor, mem_insP, V.tr, List.map_append, List.mem_append,
          List.map_cons, List.map_nil, List.mem_singleton]
        constructor
        · rintro (rfl | h | ⟨h1, h2⟩)
          · exact .inr ⟨.inr rfl, by simp [hd]⟩
          · exact .inl h
          · exact .inr ⟨.inl h1, h2⟩
        · rintro (h | ⟨h1 | h1, h2⟩)
          · exact .inr (.inl h)
          · exact .inr (.inr ⟨h1, h2⟩)
          · exact .inl h1
      · intro q hq
        simp only [assignToActiveMember, unassignFromDonor, mem_insP, not_or] at hq
        simp only [setH, hq.1, if_false]
        exact V.old q hq.2
      · intro q hq
        have e : q ≠ p := by rintro rfl; exact hpu hq
        simp only [setH, e, if_false]
        exact V.new q hq
      · intro e he hne
        rcases List.mem_append.1 he with he | he
        · have e' : e.1 ≠ p := by
            intro e'
            exact hpn (by rw [← e']; exact List.mem_map.2 ⟨e, he, rfl⟩)
          simp only [setH, e', if_false]
          exact V.moved e he hne
        · simp only [List.mem_singleton] at he; subst he; simp [setH]
      · intro _; exact insP_ne_nil p _

/-- The decisions of distributing and delivering. -/
structure Decided (g0 gs : GS) (ins : List Input) (topic : Bytes) (cur : Int → Option Nat) : Prop where
  bal : Bal g0 gs cur
  unassigned : ∀ q ∈ g0.unassigned, ∃ r, cur q = some r ∧ GoodRecipient g0 q r
  kept : ∀ q d, g0.assigned q = some d → cur q = some d ∨
    ∃ x ∈ ins, cur q = some x.id ∧ (⟨q, topic⟩ : TP) ∈ x.readyTPs
  delivered : ∀ q d, g0.assigned q = some d → (∃ x ∈ ins, (⟨q, topic⟩ : TP) ∈ x.readyTPs) →
    ∃ x ∈ ins, cur q = some x.id ∧ (⟨q, topic⟩ : TP) ∈ x.readyTPs
  alien : ∀ q, q ∉ g0.unassigned → g0.assigned q = none → cur q = none
  rc : g0.unassigned ≠ [] → gs.inReceivership ≠ []

theorem mem_readyTPs {x : Input} {tp tp' : TP} (h : tp' ∈ x.readyTPs) (hm : tp ∈ x.md.ready) :
    tp ∈ x.readyTPs := by
  unfold Input.readyTPs at h ⊢
  unfold Input.md at hm
  cases hu : x.user with
  | absent => simp [hu] at h
  | bad m => simp [hu] at h
  | ok m =>
    simp only [hu] at h hm ⊢
    by_cases hs : m.status = activeMember
    · simpa [hs] using hm
    · simp [hs] at h

theorem mem_md_of_readyTPs {x : Input} {tp : TP} (h : tp ∈ x.readyTPs) : tp ∈ x.md.ready := by
  unfold Input.readyTPs at h
  unfold Input.md
  cases hu : x.user with
  | absent => simp [hu] at h
  | bad m => simp [hu] at h
  | ok m =>
    simp only [hu] at h ⊢
    by_cases hs : m.status = activeMember
    · simpa [hs] using h
    · simp [hs] at h

theorem decided (o : Sched) {g0 : GS} {ins : List Input} {count : Nat} {topic : Bytes}
    (S : Start g0 ins count topic) (ha : g0.active ≠ []) :
    ∃ cur, Decided g0 (deliverMoves o (distributeUnassigned o g0)) ins topic cur := by
  obtain ⟨cur1, D⟩ := distribute_spec o S ha
  obtain ⟨cur, V⟩ := deliver_spec o S D
  obtain ⟨f1, f2, f3⟩ := fullyReady_spec o (distributeUnassigned o g0)
  generalize hg1 : distributeUnassigned o g0 = g1 at *
  have hfull : ∀ e, e ∈ o.full (fullyReady o g1) ↔ e ∈ fullyReady o g1 := fun e => (o.full_perm _).mem_iff
  have hx : ∀ e ∈ fullyReady o g1, ∃ x ∈ ins, x.id = e.2 ∧ (⟨e.1, topic⟩ : TP) ∈ x.readyTPs := by
    intro e he
    obtain ⟨tp, ht1, ht2, ht3⟩ := f2 e he
    obtain ⟨x, hx, hxr, hxt⟩ := S.ready tp e.2 (D.bal.map _ ht1)
    refine ⟨x, hx, hxr, mem_readyTPs hxt ?_⟩
    rw [isReadyFor_iff, D.bal.top, S.top] at ht3
    rw [← S.md x hx, hxr]
    exact D.bal.rdy _ _ ht3
  refine ⟨cur, V.bal, V.new, ?_, ?_, ?_, V.rc⟩
  · intro q d hd
    by_cases hq : q ∈ (deliverMoves o g1).inTransition
    · rw [V.tr] at hq
      rcases hq with hq | ⟨hq, _⟩
      · rw [S.un, hd] at hq; simp at hq
      · obtain ⟨e, he, rfl⟩ := List.mem_map.1 hq
        right
        obtain ⟨x, hx1, hx2, hx3⟩ := hx e ((hfull e).1 he)
        exact ⟨x, hx1, by rw [V.moved e he (by simp [hd]), hx2], hx3⟩
    · left; rw [V.old q hq, hd]
  · rintro q d hd ⟨x, hx1, hx2⟩
    obtain ⟨i, hi⟩ := S.readyall x hx1 _ hx2
    have hqu : q ∉ g1.inTransition := by
      rw [D.tr, (o.parts_perm _).mem_iff, S.un, hd]; simp
    have h1 := D.bal.map' _ hi hqu
    obtain ⟨y, hy, hyi, hyt⟩ := S.ready _ _ hi
    have h2 : (g1.mem i).md.isReadyFor q g1.topic = true := by
      rw [isReadyFor_iff, D.bal.top, S.top]
      apply D.bal.rdy' _ _ _ hqu
      rw [← hyi, S.md y hy]
      exact mem_md_of_readyTPs hyt
    obtain ⟨j, hj⟩ := f3 _ _ h1 h2
    obtain ⟨z, hz1, hz2, hz3⟩ := hx _ hj
    exact ⟨z, hz1, by rw [V.moved _ ((hfull _).2 hj) (by simp [hd]), hz2], hz3⟩
  · intro q h1 h2
    have hq : q ∉ (deliverMoves o g1).inTransition := by
      rw [V.tr]; rintro (h | ⟨_, h⟩)
      · exact h1 h
      · exact h h2
    rw [V.old q hq, h2]

/-! ### Scheduling -/

theorem scheduleMoves_zero (o : Sched) (gs : GS) : scheduleMoves o 0 gs = gs := by
  unfold scheduleMoves
  split
  · rfl
  · simp [scheduleInactive, scheduleActive]

/-- The moves requested with a budget of one. -/
inductive Scheduled (o : Sched) (g : GS) : GS → Prop where
  | nothing (h1 : inactiveDonor g = none) (h2 : isImbalanced g = none) : Scheduled o g g
  | leaver (d r : Nat) (h1 : inactiveDonor g = some d) (h2 : g.active.head? = some r) :
      Scheduled o g (donatePartition o g d r)
  | shift (d r : Nat) (h1 : inactiveDonor g = none) (h2 : isImbalanced g = some (d, r)) :
      Scheduled o g (donatePartition o g d r)

theorem scheduleMoves_one (o : Sched) (g : GS) (ha : g.active ≠ []) : Scheduled o g (scheduleMoves o 1 g) := by
  obtain ⟨r, l, hl⟩ := List.exists_cons_of_ne_nil ha
  have hh : g.active.head? = some r := by rw [hl]; rfl
  have hlen : g.active.length ≠ 0 := by rw [hl]; simp
  unfold scheduleMoves
  rw [if_neg hlen]
  cases hd : inactiveDonor g with
  | some d =>
    simp only [scheduleInactive, hd, hh, scheduleActive]
    exact .leaver d r hd hh
  | none =>
    simp only [scheduleInactive, hd, hh]
    simp only [scheduleActive]
    cases hi : isImbalanced g with
    | none => exact .nothing hd hi
    | some e => exact .shift e.1 e.2 hd hi

theorem donate_effect (o : Sched) {g : GS} {d r : Nat} (hs : Sorted (activeLess g.mem) g.active)
    (hr : r ∈ g.active) :
    (donatePartition o g d r).mem = updM g.mem r (fun x =>
      { x with instr := { x.instr with prepare := x.instr.prepare ++ [⟨randomPartition o (g.mem d), g.topic⟩] } }) ∧
    (donatePartition o g d r).inactive = g.inactive ∧
    ∀ i, i ∈ (donatePartition o g d r).active ↔ i ∈ g.active := by
  refine ⟨rfl, rfl, ?_⟩
  intro i
  unfold donatePartition instructToPrepare
  simp only
  have hdel := delete_old (less := activeLess g.mem) d g.active
  by_cases hd : d ∈ g.active
  · have hget : get (activeLess g.mem) d g.active = some d := by
      rw [get_eq_some_iff (activeLess_ord _) trivial (fun _ _ => trivial) hs]
      exact ⟨hd, (activeLess_eqv _).2 rfl⟩
    rw [hget] at hdel
    rw [hdel]
    simp only
    obtain ⟨h1, h2⟩ := reinsert (mem' := g.mem) hs hd (fun _ _ => rfl)
    have h3 := (reinsert (mem' := updM g.mem r fun x =>
      { x with instr := { x.instr with prepare := x.instr.prepare ++ [⟨randomPartition o (g.mem d), g.topic⟩] } })
      h1 ((h2 r).2 hr) (fun j hj => updM_ne _ _ hj)).2 i
    rw [h3, h2]
  · have hget : get (activeLess g.mem) d g.active = none := by
      rw [get_eq_none_iff (activeLess_ord _) trivial (fun _ _ => trivial) hs]
      intro y hy he
      rw [activeLess_eqv] at he
      exact hd (he ▸ hy)
    rw [hget] at hdel
    rw [hdel]
    simp only
    have hmd : ∀ i, i ∈ (delete (activeLess g.mem) d g.active).1 ↔ i ∈ g.active := by
      intro i
      rw [mem_delete (activeLess_ord _) trivial (fun _ _ => trivial) hs, activeLess_eqv]
      constructor
      · exact fun h => h.1
      · intro h; exact ⟨h, by rintro rfl; exact hd h⟩
    have h3 := (reinsert (mem' := updM g.mem r fun x =>
      { x with instr := { x.instr with prepare := x.instr.prepare ++ [⟨randomPartition o (g.mem d), g.topic⟩] } })
      (sorted_delete (less := activeLess g.mem) d hs) ((hmd r).2 hr) (fun j hj => updM_ne _ _ hj)).2 i
    rw [h3, hmd]

theorem random_mem (o : Sched) {m : M} (h : m.donatable ≠ []) : randomPartition o m ∈ m.donatable := by
  unfold randomPartition
  have hl : 0 < m.donatable.length := List.length_pos_iff.2 h
  rw [List.getElem?_eq_getElem (Nat.mod_lt _ hl)]
  exact List.getElem_mem _

/-- The result of a balancing round. -/
inductive Result (o : Sched) (g0 : GS) (ins : List Input) (topic : Bytes) : GS → Prop where
  | busy (g cur) (h : Decided g0 g ins topic cur) (hb : g0.unassigned ≠ [] ∨ g0.inReceivership ≠ []) :
      Result o g0 ins topic g
  | quiet (g) (h1 : g0.unassigned = []) (h2 : g0.inReceivership = []) (h3 : Scheduled o g0 g) :
      Result o g0 ins topic g

theorem ready_nil {g0 : GS} {ins : List Input} {count : Nat} {topic : Bytes}
    (S : Start g0 ins count topic) (h : g0.inReceivership = []) : g0.ready = [] := by
  apply List.eq_nil_iff_forall_not_mem.2
  rintro ⟨tp, i⟩ he
  obtain ⟨x, hx, _, ht⟩ := S.ready tp i he
  have : tp.part ∈ g0.inReceivership := (S.recv _).2 ⟨x, hx, tp, readyTPs_sub_moving ht, rfl⟩
  rw [h] at this; simp at this

theorem balance_result (o : Sched) {g0 : GS} {ins : List Input} {count : Nat} {topic : Bytes}
    (S : Start g0 ins count topic) (ha : g0.active ≠ []) : Result o g0 ins topic (balance o budget g0) := by
  unfold balance budget
  simp only
  by_cases h : g0.unassigned = [] ∧ g0.inReceivership = []
  · obtain ⟨h1, h2⟩ := h
    have hr := ready_nil S h2
    have e1 : distributeUnassigned o g0 = g0 := by
      unfold distributeUnassigned
      have := (o.parts_perm g0.unassigned)
      rw [h1] at this ⊢
      rw [this.eq_nil]; rfl
    have e2 : deliverMoves o g0 = g0 := by
      have h3 : fullyReady o g0 = [] := by
        unfold fullyReady
        have := o.ready_perm g0.ready
        rw [hr] at this ⊢
        rw [this.eq_nil]; rfl
      unfold deliverMoves
      have := o.full_perm (fullyReady o g0)
      rw [h3] at this ⊢
      rw [this.eq_nil]; rfl
    rw [e1, e2, h2, S.trans]
    exact .quiet _ h1 h2 (scheduleMoves_one o g0 ha)
  · obtain ⟨cur, D⟩ := decided o S ha
    generalize deliverMoves o (distributeUnassigned o g0) = g at D
    have hb : g0.unassigned ≠ [] ∨ g0.inReceivership ≠ [] := by
      by_contra hc
      simp only [not_or, ne_eq, not_not] at hc
      exact h hc
    have hne : g.inReceivership ≠ [] := by
      rcases hb with hb | hb
      · exact D.rc hb
      · obtain ⟨q, hq⟩ := List.exists_mem_of_ne_nil _ hb
        intro e
        have := D.bal.recv q hq
        rw [e] at this; simp at this
    have hlen : 1 - g.inReceivership.length - g.inTransition.length = 0 := by
      have := List.length_pos_iff.2 hne
      omega
    rw [hlen, scheduleMoves_zero]
    exact .busy g cur D hb

end Verif.Rebalance

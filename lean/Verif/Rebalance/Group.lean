import Verif.Rebalance.Converge
/-
Leaving a group, taking up instructions, and ownership over whole histories of a group.
-/
set_option linter.unusedSectionVars false
set_option linter.unusedSimpArgs false
namespace Verif.Rebalance

/-! ### Calls on a member -/

/-- The calls on an `incrementalRebalancer` that change it. -/
inductive Op where
  | leave (now : Int)
  | sync (parsed : List (Bytes × List Int)) (ins : Instr)
  | prepared (tp : TP)
  | failed (tp : TP)
  | assigned (tps : List TP)

/-- Carries out a call (`streams/incr_rebalancer.go:295-426`). -/
def Mb.op (m : Mb) : Op → Mb
  | .leave now => m.gracefullyLeave now
  | .sync parsed ins => (m.parseSync parsed ins).1
  | .prepared tp => m.partitionPrepared tp
  | .failed tp => (m.partitionPreparationFailed tp).1
  | .assigned tps => (m.partitionsAssigned tps).1

/-- An assignment without any partition. -/
def Op.isEmptySync : Op → Prop
  | .sync parsed _ => ∀ e ∈ parsed, e.2 = []
  | _ => False

def Op.isLeave : Op → Prop
  | .leave _ => True
  | _ => False

/-- The member's life: active, then having announced to leave, then gone. -/
structure Life (ops : List Op) (m : Mb) : Prop where
  status : m.status = activeMember ∨ m.status = inactiveMember ∨ m.status = defunct
  closes : m.closes = if m.status = defunct then 1 else 0
  left : m.status ≠ activeMember ↔ ∃ op ∈ ops, op.isLeave
  done : m.status = defunct ↔ ∃ a op b, ops = a ++ op :: b ∧ (∃ l ∈ a, l.isLeave) ∧ op.isEmptySync

theorem partitionsAssigned_status (m : Mb) (tps : List TP) :
    (m.partitionsAssigned tps).1.status = m.status ∧ (m.partitionsAssigned tps).1.closes = m.closes := by
  rw [partitionsAssigned_eq]; exact ⟨rfl, rfl⟩

theorem snoc_split {α : Type} {ops : List α} {o : α} {P : α → Prop} {Q : α → Prop} :
    (∃ a op b, ops ++ [o] = a ++ op :: b ∧ (∃ l ∈ a, P l) ∧ Q op) ↔
    (∃ a op b, ops = a ++ op :: b ∧ (∃ l ∈ a, P l) ∧ Q op) ∨ ((∃ l ∈ ops, P l) ∧ Q o) := by
  constructor
  · rintro ⟨a, op, b, h, hP, hQ⟩
    rcases List.eq_nil_or_concat b with rfl | ⟨b', x, rfl⟩
    · obtain ⟨rfl, h2⟩ := List.append_inj' h rfl
      cases h2
      exact .inr ⟨hP, hQ⟩
    · left
      have : ops ++ [o] = (a ++ op :: b') ++ [x] := by rw [h]; simp
      obtain ⟨rfl, _⟩ := List.append_inj' this rfl
      exact ⟨a, op, b', rfl, hP, hQ⟩
  · rintro (⟨a, op, b, rfl, hP, hQ⟩ | ⟨hP, hQ⟩)
    · exact ⟨a, op, b ++ [o], by simp, hP, hQ⟩
    · exact ⟨ops, o, [], rfl, hP, hQ⟩

theorem life_step {ops : List Op} {m : Mb} (L : Life ops m) (o : Op) : Life (ops ++ [o]) (m.op o) := by
  have e1 : activeMember ≠ inactiveMember := by decide
  have e2 : activeMember ≠ defunct := by decide
  have e3 : inactiveMember ≠ defunct := by decide
  have same : ∀ m' : Mb, m'.status = m.status → m'.closes = m.closes → ¬ o.isLeave →
      (o.isEmptySync → m.status ≠ inactiveMember) → Life (ops ++ [o]) m' := by
    intro m' h1 h2 h3 h4
    refine ⟨by rw [h1]; exact L.status, by rw [h1, h2]; exact L.closes, ?_, ?_⟩
    · rw [h1, L.left]; simp [h3]
    · rw [h1, snoc_split, L.done]
      constructor
      · exact .inl
      · rintro (h | ⟨hl, he⟩)
        · exact h
        · rw [← L.done]
          rcases L.status with h | h | h
          · exact absurd h (L.left.2 hl)
          · exact absurd h (h4 he)
          · exact h
  cases o with
  | prepared tp => exact same _ rfl rfl (by simp [Op.isLeave]) (by simp [Op.isEmptySync])
  | failed tp => exact same _ rfl rfl (by simp [Op.isLeave]) (by simp [Op.isEmptySync])
  | assigned tps =>
    have := partitionsAssigned_status m tps
    exact same _ this.1 this.2 (by simp [Op.isLeave]) (by simp [Op.isEmptySync])
  | leave now =>
    simp only [Mb.op, Mb.gracefullyLeave]
    split
    · rename_i h
      refine ⟨by simp, ?_, ?_, ?_⟩
      · have := L.closes
        rw [h, if_neg e2] at this
        simp only [this]; rw [if_neg e3]
      · simp only [ne_eq, Ne.symm e1, not_false_eq_true, true_iff]
        exact ⟨.leave now, by simp, trivial⟩
      · simp only [e3, false_iff]
        rw [snoc_split]
        rintro (h' | ⟨_, h'⟩)
        · exact e2 (h.symm.trans (L.done.2 h'))
        · exact h'
    · rename_i h
      refine ⟨L.status, L.closes, ?_, ?_⟩
      · constructor
        · intro _; exact ⟨.leave now, by simp, trivial⟩
        · intro _; exact h
      · rw [snoc_split, L.done]
        simp [Op.isEmptySync]
  | sync parsed ins =>
    simp only [Mb.op, Mb.parseSync]
    split
    · rename_i h
      have he : (Op.sync parsed ins).isEmptySync := by
        intro e he
        have := List.all_eq_true.1 h.2 e he
        simpa using this
      have hl : ∃ op ∈ ops, op.isLeave := L.left.1 (by rw [h.1]; exact Ne.symm e1)
      refine ⟨by simp, ?_, ?_, ?_⟩
      · have := L.closes
        rw [h.1, if_neg e3] at this
        simp [this]
      · obtain ⟨op, h1, h2⟩ := hl
        simp only [ne_eq, Ne.symm e2, not_false_eq_true, true_iff]
        exact ⟨op, by simp [h1], h2⟩
      · simp only [true_iff]
        exact snoc_split.2 (.inr ⟨hl, he⟩)
    · rename_i h
      refine same _ rfl rfl (by simp [Op.isLeave]) ?_
      intro he hi
      apply h
      refine ⟨hi, List.all_eq_true.2 ?_⟩
      intro e hh
      simp [he e hh]

theorem life (id : Nat) (ops : List Op) : Life ops (ops.foldl Mb.op (Mb.new id)) := by
  have key : ∀ (ops pre : List Op) (m : Mb), Life pre m → Life (pre ++ ops) (ops.foldl Mb.op m) := by
    intro ops
    induction ops with
    | nil => intro pre m h; simpa using h
    | cons o ops ih =>
      intro pre m h
      have := ih (pre ++ [o]) (m.op o) (life_step h o)
      simpa using this
  have := key ops [] (Mb.new id) ⟨by simp [Mb.new], (if_neg (show ¬ activeMember = defunct by decide)).symm, by simp [Mb.new], by
    simp [Mb.new]; decide⟩
  simpa using this

/-! ### Instructions -/

theorem prepareLoop_spec (pr ps : List TP) :
    (∀ tp, tp ∈ (prepareLoop pr ps).1 ↔ tp ∈ pr ∨ tp ∈ ps) ∧
    (∀ tp, tp ∈ (prepareLoop pr ps).2 ↔ tp ∈ ps ∧ tp ∉ pr) ∧ (prepareLoop pr ps).2.Nodup := by
  induction ps generalizing pr with
  | nil => simp [prepareLoop]
  | cons a ps ih =>
    unfold prepareLoop
    split
    · rename_i h
      obtain ⟨h1, h2, h3⟩ := ih pr
      refine ⟨?_, ?_, h3⟩
      · intro tp; rw [h1, List.mem_cons]
        constructor
        · tauto
        · rintro (h' | rfl | h') <;> tauto
      · intro tp; rw [h2, List.mem_cons]
        constructor
        · tauto
        · rintro ⟨rfl | h', h''⟩ <;> tauto
    · rename_i h
      obtain ⟨h1, h2, h3⟩ := ih (insTP a pr)
      refine ⟨?_, ?_, ?_⟩
      · intro tp; simp only; rw [h1, mem_insTP, List.mem_cons]; tauto
      · intro tp; simp only; rw [List.mem_cons, h2, mem_insTP, List.mem_cons]
        by_cases e : tp = a
        · subst e; tauto
        · tauto
      · simp only; rw [List.nodup_cons]
        refine ⟨?_, h3⟩
        rw [h2, mem_insTP]; tauto

theorem forgetLoop_sets (pr rd fs : List TP) (k : Nat) :
    (∀ tp, tp ∈ (forgetLoop pr rd k fs).1.1 ↔ tp ∈ pr ∧ tp ∉ fs) ∧
    (∀ tp, tp ∈ (forgetLoop pr rd k fs).1.2 ↔ tp ∈ rd ∧ tp ∉ fs) := by
  induction fs generalizing pr rd k with
  | nil => simp [forgetLoop]
  | cons a fs ih =>
    obtain ⟨h1, h2⟩ := ih (delTP a pr) (delTP a rd) (k + 1)
    simp only [forgetLoop]
    exact ⟨fun tp => by rw [h1, mem_delTP, List.mem_cons]; tauto,
      fun tp => by rw [h2, mem_delTP, List.mem_cons]; tauto⟩

theorem forgetLoop_iters (pr rd fs : List TP) (k : Nat) :
    (∀ j, j ∈ (forgetLoop pr rd k fs).2 ↔
      ∃ i tp, j = k + i ∧ fs[i]? = some tp ∧ (tp ∈ pr ∨ tp ∈ rd) ∧ tp ∉ fs.take i) ∧
    (forgetLoop pr rd k fs).2.Nodup := by
  induction fs generalizing pr rd k with
  | nil => simp [forgetLoop]
  | cons a fs ih =>
    obtain ⟨h1, h2⟩ := ih (delTP a pr) (delTP a rd) (k + 1)
    have hs : ∀ j, (∃ i tp, j = k + i ∧ (a :: fs)[i]? = some tp ∧ (tp ∈ pr ∨ tp ∈ rd) ∧ tp ∉ (a :: fs).take i) ↔
        (j = k ∧ (a ∈ pr ∨ a ∈ rd)) ∨
        ∃ i tp, j = k + 1 + i ∧ fs[i]? = some tp ∧ (tp ∈ delTP a pr ∨ tp ∈ delTP a rd) ∧ tp ∉ fs.take i := by
      intro j
      constructor
      · rintro ⟨i, tp, rfl, h, hm, hn⟩
        cases i with
        | zero => simp at h; subst h; exact .inl ⟨rfl, hm⟩
        | succ i =>
          right
          simp at h hn
          exact ⟨i, tp, by omega, h, by simp only [mem_delTP]; tauto, hn.2⟩
      · rintro (⟨rfl, hm⟩ | ⟨i, tp, rfl, h, hm, hn⟩)
        · exact ⟨0, a, rfl, rfl, hm, by simp⟩
        · refine ⟨i + 1, tp, by omega, by simpa using h, ?_, ?_⟩
          · simp only [mem_delTP] at hm; tauto
          · simp only [mem_delTP] at hm
            rw [List.take_succ_cons, List.mem_cons]; tauto
    simp only [forgetLoop]
    refine ⟨?_, ?_⟩
    · intro j
      rw [hs]
      split
      · rename_i hm
        rw [List.mem_cons, h1]
        exact or_congr (by simp [hm]) Iff.rfl
      · rename_i hm
        rw [h1]
        simp [hm]
    · split
      · rw [List.nodup_cons]
        refine ⟨?_, h2⟩
        rw [h1]
        rintro ⟨i, tp, h, _⟩
        omega
      · exact h2

/-! ### Ownership -/

/-- What holds of ownership at any time. -/
structure Own (g : Group) : Prop where
  ids : (g.members.map Mb.id).Nodup
  owned : ∀ m ∈ g.members, ∀ m' ∈ g.members, ∀ p, p ∈ m.owned → p ∈ m'.owned → m = m'
  pends : ∀ i j ps qs is js, g.pend i = some (ps, is) → g.pend j = some (qs, js) → ∀ p, p ∈ ps → p ∈ qs → i = j
  mixed : ∀ i ps is, g.pend i = some (ps, is) → ∀ m ∈ g.members, ∀ p, p ∈ ps → p ∈ m.owned → m.id = i
  known : ∀ i, g.pend i ≠ none → i ∈ g.members.map Mb.id

theorem sync_id (m : Mb) (topic : Bytes) (ps : List Int) (ins : Instr) :
    (m.sync topic ps ins).id = m.id ∧ (m.sync topic ps ins).owned = ps := by
  unfold Mb.sync
  simp only [and_true]
  rw [partitionsAssigned_eq]
  simp only
  unfold Mb.parseSync
  split <;> rfl

/-- A plan gives a partition to one member. -/
theorem plan_unique (o : Sched) (ins : List Input) (count : Nat) (topic : Bytes) (hn : (ins.map Input.id).Nodup)
    {p : Int} {i j : Nat} (h1 : p ∈ (balanceTopic o ins count topic).parts i)
    (h2 : p ∈ (balanceTopic o ins count topic).parts j) : i = j := by
  by_cases ha : ∃ x ∈ ins, x.stays
  · obtain ⟨⟨cur, _, hc⟩, _⟩ := plan_spec o ins count topic hn ha
    rw [hc] at h1 h2
    rw [h1] at h2
    exact Option.some.inj h2
  · rw [(plan_empty o ins count topic hn ha i).1] at h1
    simp at h1

theorem own_step {count : Nat} {topic : Bytes} {g g' : Group} (O : Own g) (h : GStep count topic g g') : Own g' := by
  cases h with
  | join id h hp =>
    refine ⟨?_, ?_, O.pends, ?_, ?_⟩
    · simp only [List.map_append, List.map_cons, List.map_nil]
      rw [List.nodup_append]
      refine ⟨O.ids, by simp, ?_⟩
      intro a ha b hb
      simp [Mb.new] at hb
      subst hb
      exact fun e => h (e ▸ ha)
    · intro m hm m' hm' p hp1 hp2
      simp only [List.mem_append, List.mem_singleton] at hm hm'
      rcases hm with hm | rfl <;> rcases hm' with hm' | rfl
      · exact O.owned m hm m' hm' p hp1 hp2
      · simp [Mb.new] at hp2
      · simp [Mb.new] at hp1
      · rfl
    · intro i ps is hi m hm p hp1 hp2
      simp only [List.mem_append, List.mem_singleton] at hm
      rcases hm with hm | rfl
      · exact O.mixed i ps is hi m hm p hp1 hp2
      · simp [Mb.new] at hp2
    · intro i hi
      simp only [List.map_append, List.mem_append]
      exact .inl (O.known i hi)
  | gone id =>
    have hsub : ∀ m, m ∈ g.members.filter (fun m => decide (m.id ≠ id)) → m ∈ g.members :=
      fun m hm => (List.mem_filter.1 hm).1
    have hpd : ∀ i x, (if i = id then none else g.pend i) = some x → g.pend i = some x := by
      intro i x h; split at h
      · simp at h
      · exact h
    refine ⟨?_, ?_, ?_, ?_, ?_⟩
    · exact List.Nodup.sublist (List.Sublist.map _ List.filter_sublist) O.ids
    · intro m hm m' hm' p h1 h2
      exact O.owned m (hsub m hm) m' (hsub m' hm') p h1 h2
    · intro i j ps qs is js h1 h2 p hp hq
      exact O.pends i j ps qs is js (hpd _ _ h1) (hpd _ _ h2) p hp hq
    · intro i ps is h1 m hm p hp hq
      exact O.mixed i ps is (hpd _ _ h1) m (hsub m hm) p hp hq
    · intro i hi
      simp only at hi
      by_cases e : i = id
      · simp [e] at hi
      · rw [if_neg e] at hi
        obtain ⟨m, hm, hmi⟩ := List.mem_map.1 (O.known i hi)
        exact List.mem_map.2 ⟨m, List.mem_filter.2 ⟨hm, by simpa using fun h => e (hmi ▸ h)⟩, hmi⟩
  | change f h =>
    have hids : (g.members.map f).map Mb.id = g.members.map Mb.id := by
      rw [List.map_map]; exact List.map_congr_left fun m _ => (h m).1
    refine ⟨by rw [hids]; exact O.ids, ?_, O.pends, ?_, by rw [hids]; exact O.known⟩
    · intro m hm m' hm' p h1 h2
      obtain ⟨a, ha, rfl⟩ := List.mem_map.1 hm
      obtain ⟨b, hb, rfl⟩ := List.mem_map.1 hm'
      rw [(h a).2] at h1; rw [(h b).2] at h2
      rw [O.owned a ha b hb p h1 h2]
    · intro i ps is hi m hm p h1 h2
      obtain ⟨a, ha, rfl⟩ := List.mem_map.1 hm
      rw [(h a).2] at h2
      rw [(h a).1]
      exact O.mixed i ps is hi a ha p h1 h2
  | round o h =>
    have hn : ((g.reports topic).map Input.id).Nodup := reports_nodup O.ids topic
    have hpd : ∀ i ps is, (g.startRound o count topic).pend i = some (ps, is) →
        ps = (round o (g.reports topic) count topic).parts i := by
      intro i ps is h
      unfold Group.startRound at h
      simp only at h
      split at h
      · simp at h; exact h.1.symm
      · simp at h
    refine ⟨O.ids, O.owned, ?_, ?_, ?_⟩
    · intro i j ps qs is js h1 h2 p hp hq
      rw [hpd _ _ _ h1] at hp; rw [hpd _ _ _ h2] at hq
      exact plan_unique o _ count topic hn ((mem_round _ _ _ _ _ _).1 hp).1 ((mem_round _ _ _ _ _ _).1 hq).1
    · intro i ps is h1 m hm p hp hq
      rw [hpd _ _ _ h1] at hp
      obtain ⟨hp1, hp2⟩ := (mem_round _ _ _ _ _ _).1 hp
      rcases hp2 with ⟨x, hx, hxi, hxo⟩ | hall
      · obtain ⟨a, ha, rfl⟩ := List.mem_map.1 hx
        rw [ownedOf_report] at hxo
        rw [O.owned m hm a ha p hq hxo, ← hxi]; rfl
      · have := hall (m.report topic) (List.mem_map.2 ⟨m, hm, rfl⟩) (by rw [ownedOf_report]; exact hq)
        exact plan_unique o _ count topic hn this hp1
    · intro i hi
      unfold Group.startRound at hi
      simp only at hi
      split at hi
      · assumption
      · simp at hi
  | sync id parts ins h =>
    let f : Mb → Mb := fun m => if m.id = id then m.sync topic parts ins else m
    have hfid : ∀ m, (f m).id = m.id := by
      intro m; simp only [f]; split
      · exact (sync_id m topic parts ins).1
      · rfl
    have hids : (g.members.map f).map Mb.id = g.members.map Mb.id := by
      rw [List.map_map]; exact List.map_congr_left fun m _ => hfid m
    have hfo : ∀ m, (m.id = id ∧ (f m).owned = parts) ∨ (m.id ≠ id ∧ (f m).owned = m.owned) := by
      intro m; simp only [f]
      by_cases e : m.id = id
      · left; rw [if_pos e]; exact ⟨e, (sync_id m topic parts ins).2⟩
      · right; rw [if_neg e]; exact ⟨e, rfl⟩
    have hpd : ∀ i x, (if i = id then none else g.pend i) = some x → i ≠ id ∧ g.pend i = some x := by
      intro i x h; split at h
      · simp at h
      · rename_i e; exact ⟨e, h⟩
    refine ⟨by change ((g.members.map f).map Mb.id).Nodup; rw [hids]; exact O.ids, ?_, ?_, ?_, ?_⟩
    · intro m hm m' hm' p h1 h2
      obtain ⟨a, ha, rfl⟩ := List.mem_map.1 (show m ∈ g.members.map f from hm)
      obtain ⟨b, hb, rfl⟩ := List.mem_map.1 (show m' ∈ g.members.map f from hm')
      have hab : a = b := by
        rcases hfo a with ⟨ea, oa⟩ | ⟨ea, oa⟩ <;> rcases hfo b with ⟨eb, ob⟩ | ⟨eb, ob⟩
        · exact mb_eq O.ids ha hb (ea.trans eb.symm)
        · rw [oa] at h1; rw [ob] at h2
          exact absurd (O.mixed id parts ins h b hb p h1 h2) eb
        · rw [oa] at h1; rw [ob] at h2
          exact absurd (O.mixed id parts ins h a ha p h2 h1) ea
        · rw [oa] at h1; rw [ob] at h2
          exact O.owned a ha b hb p h1 h2
      rw [hab]
    · intro i j ps qs is js h1 h2 p hp hq
      exact O.pends i j ps qs is js (hpd _ _ h1).2 (hpd _ _ h2).2 p hp hq
    · intro i ps is h1 m hm p hp hq
      obtain ⟨a, ha, rfl⟩ := List.mem_map.1 (show m ∈ g.members.map f from hm)
      rw [hfid]
      obtain ⟨hne, h1'⟩ := hpd _ _ h1
      rcases hfo a with ⟨ea, oa⟩ | ⟨ea, oa⟩
      · rw [oa] at hq
        exact absurd (O.pends i id ps parts is ins h1' h p hp hq) hne
      · rw [oa] at hq
        exact O.mixed i ps is h1' a ha p hp hq
    · intro i hi
      simp only at hi
      change i ∈ (g.members.map f).map Mb.id
      rw [hids]
      apply O.known
      intro e
      apply hi
      split
      · rfl
      · exact e

theorem own_reach {count : Nat} {topic : Bytes} {g : Group} (h : GReach count topic g) : Own g := by
  induction h with
  | init => exact ⟨by simp, by simp, by simp, by simp, by simp⟩
  | step _ hs ih => exact own_step ih hs

/-- A round plans every partition that has no owner for exactly one member. -/
theorem free_planned {g : Group} (O : Own g) (o : Sched) (count : Nat) (topic : Bytes) {p : Int}
    (hp : 0 ≤ p ∧ p < (count : Int)) (hfree : ∀ m ∈ g.members, p ∉ m.owned)
    (ha : ∃ m ∈ g.members, m.status ≠ inactiveMember) :
    ∃ m ∈ g.members, m.status ≠ inactiveMember ∧
      ∃ ps is, (g.startRound o count topic).pend m.id = some (ps, is) ∧ p ∈ ps := by
  have hn : ((g.reports topic).map Input.id).Nodup := reports_nodup O.ids topic
  have hstay : ∀ m : Mb, (m.report topic).stays ↔ m.status ≠ inactiveMember := by
    intro m; unfold Input.stays; rw [md_report]
  obtain ⟨m0, hm0, hs0⟩ := ha
  obtain ⟨⟨cur, Ho, hc⟩, _⟩ := plan_spec o (g.reports topic) count topic hn
    ⟨m0.report topic, List.mem_map.2 ⟨m0, hm0, rfl⟩, (hstay m0).2 hs0⟩
  have hno : ∀ x ∈ g.reports topic, p ∉ x.ownedOf topic := by
    intro x hx
    obtain ⟨m, hm, rfl⟩ := List.mem_map.1 hx
    rw [ownedOf_report]; exact hfree m hm
  obtain ⟨x, hx, hcx, hsx, _⟩ := Ho.free p hp (ownerOf_none.2 hno)
  obtain ⟨m, hm, rfl⟩ := List.mem_map.1 hx
  refine ⟨m, hm, (hstay m).1 hsx, (round o (g.reports topic) count topic).parts m.id,
    (round o (g.reports topic) count topic).instr m.id, ?_, ?_⟩
  · unfold Group.startRound
    simp only
    rw [if_pos (List.mem_map.2 ⟨m, hm, rfl⟩)]
  · rw [mem_round]
    exact ⟨(hc p m.id).2 hcx, .inr fun x hx h => absurd h (hno x hx)⟩

end Verif.Rebalance

import Verif.Live.Model
import Verif.Eos.Proofs
/-
Without interjections the workers and the pool never wait for each other.
-/
set_option linter.unusedSimpArgs false
namespace Verif.Live
open Verif.Eos

/-- Runs without interjections and without failures of Kafka. -/
def Allowed : Label → Prop
  | .arrive e => e.off ≠ none
  | .pool (.commitFail _) => False
  | .pool .asyncFail => False
  | _ => True

inductive Reach (c : Cfg) : Sys → Prop where
  | init : Reach c (Sys.init c)
  | step {s s' : Sys} (l : Label) : Reach c s → Allowed l → step c s l = some s' → Reach c s'

/-- The events of a partition. -/
def of (p : Nat) (l : List Ev) : List Ev := l.filter fun e => e.part = p

theorem of_append (p : Nat) (l m : List Ev) : of p (l ++ m) = of p l ++ of p m := by simp [of]
theorem of_one (p : Nat) (e : Ev) : of p [e] = if e.part = p then [e] else [] := by
  by_cases h : e.part = p <;> simp [of, h]
theorem mem_of {p : Nat} {l : List Ev} {e : Ev} : e ∈ of p l ↔ e ∈ l ∧ e.part = p := by simp [of]

structure Inv (c : Cfg) (s : Sys) : Prop where
  reach : Eos.Reach c.pool s.pool
  ok : s.pool.com ≠ .stopped
  arr : s.arrived = s.pool.added.map Prod.fst ++ s.buf
  ids : (s.arrived.map Ev.id).Nodup
  offs : ∀ e ∈ s.arrived, e.off ≠ none
  f1 : ∀ p, of p s.put ++ (s.putting p).toList = of p s.arrived
  f2 : ∀ p, of p s.picked ++ s.evq p = of p s.put
  f3 : ∀ p, of p s.handled ++ (s.cur p).toList = of p s.picked
  ij : ∀ p, s.ijq p = []
  hd : ∀ e ∈ s.handled, e.id ∈ s.pool.done ∨ e ∈ s.pend
  pd : ∀ e ∈ s.pend, e ∈ s.handled ∧ e.id ∉ s.pool.done ∧ s.pool.asg e.id ≠ none
  dh : ∀ e ∈ s.arrived, e.id ∈ s.pool.done → e ∈ s.handled
  pn : s.pend.Nodup
  ds : ∀ i ∈ s.pool.done, i ∈ s.arrived.map Ev.id

/-- What a step of the pool itself leaves alone. -/
theorem own_frame {c : Eos.Cfg} {s s' : Pool} {l : Eos.Label} (ho : ownStep l = true) (h : Eos.step c s l = some s') :
    s'.added = s.added ∧ s'.done = s.done ∧ ∀ i, s.asg i ≠ none → s'.asg i ≠ none := by
  have pr : ∀ (p tp : Nat) (r : Rec), (produce s p tp r).added = s.added ∧ (produce s p tp r).done = s.done ∧ (produce s p tp r).asg = s.asg := by
    intro p tp r; unfold produce; dsimp only; split <;> exact ⟨rfl, rfl, rfl⟩
  have rl : ∀ (n p tp : Nat), (relinquish n s p tp).added = s.added ∧ (relinquish n s p tp).done = s.done ∧ (relinquish n s p tp).asg = s.asg := by
    intro n p tp; unfold relinquish flushPartition; dsimp only; split <;> exact ⟨rfl, rfl, rfl⟩
  have key : s'.added = s.added ∧ s'.done = s.done ∧ s'.asg = s.asg → s'.added = s.added ∧ s'.done = s.done ∧ ∀ i, s.asg i ≠ none → s'.asg i ≠ none :=
    fun ⟨a, b, d⟩ => ⟨a, b, fun i hi => by rw [d]; exact hi⟩
  cases l with
  | add => cases ho
  | complete => cases ho
  | give =>
    unfold Eos.step at h
    simp only at h
    split at h
    · cases h
      refine ⟨rfl, rfl, fun i hi => ?_⟩
      dsimp only
      unfold upd
      split
      · simp
      · exact hi
    · cases h
  | wait =>
    unfold Eos.step at h
    simp only at h
    repeat' split at h
    all_goals first
      | (cases h; exact key (pr _ _ _))
      | (cases h; exact key ⟨rfl, rfl, rfl⟩)
      | cases h
  | release =>
    unfold Eos.step at h
    simp only at h
    repeat' split at h
    all_goals first
      | (cases h; exact key (rl _ _ _))
      | (cases h; exact key ⟨rfl, rfl, rfl⟩)
      | cases h
  | produce e x =>
    unfold Eos.step at h
    simp only at h
    repeat' split at h
    all_goals first
      | (cases h; exact key (pr _ _ _))
      | cases h
  | _ =>
    unfold Eos.step at h
    simp only at h
    repeat' split at h
    all_goals first
      | (cases h; exact key ⟨rfl, rfl, rfl⟩)
      | cases h

/-- Only a failure stops the commit loop. -/
theorem own_com {c : Eos.Cfg} {s s' : Pool} {l : Eos.Label} (h1 : ∀ b, l ≠ .commitFail b) (h2 : l ≠ .asyncFail)
    (h : Eos.step c s l = some s') (hs : s.com ≠ .stopped) : s'.com ≠ .stopped := by
  have pr : ∀ (p tp : Nat) (r : Rec), (produce s p tp r).com = s.com := by
    intro p tp r; unfold produce; dsimp only; split <;> rfl
  cases l with
  | commitFail b => exact absurd rfl (h1 b)
  | asyncFail => exact absurd rfl h2
  | produce e x =>
    unfold Eos.step at h
    simp only at h
    repeat' split at h
    all_goals first
      | (cases h; rw [pr]; exact hs)
      | cases h
  | _ =>
    unfold Eos.step at h
    simp only at h
    repeat' split at h
    all_goals first
      | (cases h; exact hs)
      | (cases h; simp)
      | cases h

theorem inv_init (c : Cfg) : Inv c (Sys.init c) := by
  refine { reach := .init, ok := by simp [Sys.init, Pool.init], arr := ?_, ids := ?_, offs := ?_, f1 := ?_, f2 := ?_, f3 := ?_, ij := ?_, hd := ?_,
           pd := ?_, dh := ?_, pn := ?_, ds := ?_ } <;> simp [Sys.init, Pool.init, of]

/-- Events are what their identity says. -/
theorem arr_inj {c : Cfg} {s : Sys} (I : Inv c s) {e e' : Ev} (h : e ∈ s.arrived) (h' : e' ∈ s.arrived) (hi : e.id = e'.id) : e = e' :=
  List.inj_on_of_nodup_map I.ids h h' hi

theorem arrived_nodup {c : Cfg} {s : Sys} (I : Inv c s) : s.arrived.Nodup := List.Nodup.of_map _ I.ids

theorem put_arrived {c : Cfg} {s : Sys} (I : Inv c s) {e : Ev} (h : e ∈ s.put) : e ∈ s.arrived := by
  have : e ∈ of e.part s.arrived := by
    rw [← I.f1]; exact List.mem_append.2 (.inl (mem_of.2 ⟨h, rfl⟩))
  exact (mem_of.1 this).1

theorem picked_put {c : Cfg} {s : Sys} (I : Inv c s) {e : Ev} (h : e ∈ s.picked) : e ∈ s.put := by
  have : e ∈ of e.part s.put := by
    rw [← I.f2]; exact List.mem_append.2 (.inl (mem_of.2 ⟨h, rfl⟩))
  exact (mem_of.1 this).1

theorem handled_picked {c : Cfg} {s : Sys} (I : Inv c s) {e : Ev} (h : e ∈ s.handled) : e ∈ s.picked := by
  have : e ∈ of e.part s.picked := by
    rw [← I.f3]; exact List.mem_append.2 (.inl (mem_of.2 ⟨h, rfl⟩))
  exact (mem_of.1 this).1

theorem cur_picked {c : Cfg} {s : Sys} (I : Inv c s) {e : Ev} {p : Nat} (h : s.cur p = some e) : e ∈ s.picked ∧ e.part = p := by
  have : e ∈ of p s.picked := by
    rw [← I.f3, h]; simp
  exact mem_of.1 this

theorem of_nodup {p : Nat} {l : List Ev} (h : l.Nodup) : (of p l).Nodup := h.filter _

theorem chain_nodup {c : Cfg} {s : Sys} (I : Inv c s) (p : Nat) :
    (of p s.handled ++ (s.cur p).toList ++ s.evq p ++ (s.putting p).toList).Nodup := by
  rw [I.f3, I.f2, I.f1]; exact of_nodup (arrived_nodup I)

/-- The event at work is not finished. -/
theorem cur_fresh {c : Cfg} {s : Sys} (I : Inv c s) {e : Ev} {p : Nat} (h : s.cur p = some e) : e ∉ s.handled := by
  intro hc
  have hn := chain_nodup I p
  rw [List.append_assoc, List.append_assoc, List.nodup_append] at hn
  exact hn.2.2 e (mem_of.2 ⟨hc, (cur_picked I h).2⟩) e (by rw [h]; simp) rfl

theorem inv_step {c : Cfg} {s s' : Sys} {l : Label} (I : Inv c s) (ha : Allowed l) (h : step c s l = some s') : Inv c s' := by
  cases l with
  | arrive e =>
    simp only [step] at h
    split at h
    · cases h
    rename_i hn
    cases h
    rw [not_or, not_not] at hn
    obtain ⟨n1, n2⟩ := hn
    refine { I with arr := ?_, ids := ?_, offs := ?_, f1 := ?_, dh := ?_, ds := ?_ }
    · dsimp only; rw [I.arr, List.append_assoc]
    · dsimp only
      rw [List.map_append, List.nodup_append]
      refine ⟨I.ids, by simp, ?_⟩
      intro a h1 b h2 he
      simp at h2
      rw [he, h2] at h1
      exact n1 h1
    · intro x hx
      rcases List.mem_append.1 hx with h | h
      · exact I.offs x h
      · rw [List.mem_singleton.1 h]; exact ha
    · intro p
      dsimp only
      rw [of_append, of_one, ← I.f1 p]
      by_cases hp : e.part = p
      · subst hp
        rw [n2, if_pos rfl, upd_same]; simp
      · rw [if_neg hp, upd_ne _ _ (fun h => hp h.symm)]; simp
    · intro x hx hd
      rcases List.mem_append.1 hx with h | h
      · exact I.dh x h hd
      · rw [List.mem_singleton.1 h] at hd
        exfalso
        -- a finished event has been added
        exact n1 (I.ds _ hd)
    · intro i hi
      dsimp only
      rw [List.map_append]
      exact List.mem_append.2 (.inl (I.ds i hi))
  | put p =>
    simp only [step] at h
    split at h
    · rename_i e he
      have hm : e ∈ of p s.arrived := by rw [← I.f1, he]; simp
      obtain ⟨m1, m2⟩ := mem_of.1 hm
      split at h
      · rename_i h0; exact absurd h0 (I.offs e m1)
      · split at h
        · cases h
          refine { I with f1 := ?_, f2 := ?_ }
          · intro q
            dsimp only
            rw [of_append, of_one, ← I.f1 q]
            by_cases hq : e.part = q
            · have : q = p := by rw [← hq, m2]
              subst this
              rw [if_pos hq, upd_same, he]; simp
            · have : q ≠ p := by intro h; exact hq (by rw [m2, h])
              rw [if_neg hq, upd_ne _ _ this]; simp
          · intro q
            dsimp only
            rw [of_append, of_one, ← I.f2 q]
            by_cases hq : e.part = q
            · have : q = p := by rw [← hq, m2]
              subst this
              rw [if_pos hq, upd_same]; simp
            · have : q ≠ p := by intro h; exact hq (by rw [m2, h])
              rw [if_neg hq, upd_ne _ _ this]; simp
        · cases h
    · cases h
  | forward =>
    simp only [step] at h
    split at h
    · rename_i e buf hb
      rw [Option.map_eq_some_iff] at h
      obtain ⟨pool, hp, rfl⟩ := h
      have hr := Eos.Reach.step (.add e) I.reach (by simp) hp
      have hcom := own_com (by simp) (by simp) hp I.ok
      unfold Eos.step at hp
      simp only at hp
      have hadd : pool.added = s.pool.added ++ [(e, s.pool.gen)] ∧ pool.done = s.pool.done ∧ pool.asg = s.pool.asg := by
        repeat' split at hp
        all_goals first
          | (cases hp; exact ⟨rfl, rfl, rfl⟩)
          | cases hp
      obtain ⟨a1, a2, a3⟩ := hadd
      refine { I with reach := hr, ok := hcom, arr := ?_, hd := ?_, pd := ?_, dh := ?_, ds := ?_ }
      · dsimp only; rw [I.arr, hb, a1]; simp
      · dsimp only; rw [a2]; exact I.hd
      · dsimp only; rw [a2, a3]; exact I.pd
      · dsimp only; rw [a2]; exact I.dh
      · dsimp only; rw [a2]; exact I.ds
    · cases h
  | pool l =>
    simp only [step] at h
    split at h
    · rename_i ho
      rw [Option.map_eq_some_iff] at h
      obtain ⟨pool, hp, rfl⟩ := h
      have n1 : ∀ b, l ≠ .commitFail b := by rintro b rfl; exact ha
      have n2 : l ≠ .asyncFail := by rintro rfl; exact ha
      obtain ⟨a1, a2, a3⟩ := own_frame ho hp
      refine { I with reach := .step l I.reach (n1 true) hp, ok := own_com n1 n2 hp I.ok, arr := ?_, hd := ?_, pd := ?_, dh := ?_, ds := ?_ }
      · dsimp only; rw [I.arr, a1]
      · dsimp only; rw [a2]; exact I.hd
      · dsimp only; rw [a2]; exact fun e he => ⟨(I.pd e he).1, (I.pd e he).2.1, a3 _ (I.pd e he).2.2⟩
      · dsimp only; rw [a2]; exact I.dh
      · dsimp only; rw [a2]; exact I.ds
    · cases h
  | pick p =>
    simp only [step] at h
    split at h
    · rename_i e q hc hq
      cases h
      have hm : e ∈ of p s.put := by rw [← I.f2, hq]; simp
      obtain ⟨m1, m2⟩ := mem_of.1 hm
      refine { I with f2 := ?_, f3 := ?_ }
      · intro r
        dsimp only
        rw [of_append, of_one, ← I.f2 r]
        by_cases hr : e.part = r
        · have : r = p := by rw [← hr, m2]
          subst this
          rw [if_pos hr, upd_same, hq]; simp
        · have : r ≠ p := by intro h; exact hr (by rw [m2, h])
          rw [if_neg hr, upd_ne _ _ this]; simp
      · intro r
        dsimp only
        rw [of_append, of_one, ← I.f3 r]
        by_cases hr : e.part = r
        · have : r = p := by rw [← hr, m2]
          subst this
          rw [if_pos hr, upd_same, hc]; simp
        · have : r ≠ p := by intro h; exact hr (by rw [m2, h])
          rw [if_neg hr, upd_ne _ _ this]; simp
    · cases h
  | pickInter p =>
    simp only [step, I.ij p] at h
    split at h
    · rename_i hq; cases hq
    · cases h
  | handle p ok =>
    simp only [step] at h
    split at h
    · rename_i e hc
      obtain ⟨m1, m2⟩ := cur_picked I hc
      have hfr := cur_fresh I hc
      have harr := put_arrived I (picked_put I m1)
      have hf3 : ∀ r, of r (s.handled ++ [e]) ++ (upd s.cur p none r).toList = of r s.picked := by
        intro r
        rw [of_append, of_one, ← I.f3 r]
        by_cases hr : e.part = r
        · have : r = p := by rw [← hr, m2]
          subst this
          rw [if_pos hr, upd_same, hc]; simp
        · have : r ≠ p := by intro h; exact hr (by rw [m2, h])
          rw [if_neg hr, upd_ne _ _ this]; simp
      split at h
      · cases h
      rename_i hasg
      split at h
      · rw [Option.map_eq_some_iff] at h
        obtain ⟨pool, hp, rfl⟩ := h
        have hr := Eos.Reach.step (.complete e) I.reach (by simp) hp
        have hcom := own_com (by simp) (by simp) hp I.ok
        have hfr' : pool.added = s.pool.added ∧ pool.done = s.pool.done ++ [e.id] ∧ pool.asg = s.pool.asg := by
          unfold Eos.step at hp
          simp only at hp
          repeat' split at hp
          all_goals first
            | (cases hp; exact ⟨rfl, rfl, rfl⟩)
            | cases hp
        obtain ⟨a1, a2, a3⟩ := hfr'
        refine { I with reach := hr, ok := hcom, arr := ?_, f3 := hf3, hd := ?_, pd := ?_, dh := ?_, ds := ?_ }
        · dsimp only; rw [I.arr, a1]
        · intro x hx
          dsimp only
          rw [a2]
          rcases List.mem_append.1 hx with h | h
          · rcases I.hd x h with h | h
            · exact .inl (List.mem_append.2 (.inl h))
            · exact .inr h
          · rw [List.mem_singleton.1 h]; exact .inl (by simp)
        · intro x hx
          dsimp only
          rw [a2, a3]
          obtain ⟨k1, k2, k3⟩ := I.pd x hx
          refine ⟨List.mem_append.2 (.inl k1), ?_, k3⟩
          intro hc
          rcases List.mem_append.1 hc with h | h
          · exact k2 h
          · have := arr_inj I (put_arrived I (picked_put I (handled_picked I k1))) harr (List.mem_singleton.1 h)
            subst this
            exact hfr k1
        · intro x hx
          dsimp only
          rw [a2]
          intro hd
          rcases List.mem_append.1 hd with h | h
          · exact List.mem_append.2 (.inl (I.dh x hx h))
          · have := arr_inj I hx harr (List.mem_singleton.1 h)
            subst this
            simp
        · intro i
          dsimp only
          rw [a2]
          intro hi
          rcases List.mem_append.1 hi with h | h
          · exact I.ds i h
          · rw [List.mem_singleton.1 h]; exact List.mem_map.2 ⟨e, harr, rfl⟩
      · cases h
        have hnd : e.id ∉ s.pool.done := fun hd => hfr (I.dh e harr hd)
        refine { I with f3 := hf3, hd := ?_, pd := ?_, dh := ?_, pn := ?_ }
        · intro x hx
          rcases List.mem_append.1 hx with h | h
          · rcases I.hd x h with h | h
            · exact .inl h
            · exact .inr (List.mem_append.2 (.inl h))
          · rw [List.mem_singleton.1 h]; exact .inr (by simp)
        · intro x hx
          rcases List.mem_append.1 hx with h | h
          · obtain ⟨k1, k2, k3⟩ := I.pd x h
            exact ⟨List.mem_append.2 (.inl k1), k2, k3⟩
          · rw [List.mem_singleton.1 h]
            exact ⟨by simp, hnd, hasg⟩
        · intro x hx hd
          exact List.mem_append.2 (.inl (I.dh x hx hd))
        · rw [List.nodup_append]
          refine ⟨I.pn, by simp, ?_⟩
          intro a h1 b h2 he
          rw [List.mem_singleton.1 h2] at he
          subst he
          exact hfr (I.pd _ h1).1
    · cases h
  | finish e =>
    simp only [step] at h
    split at h
    · rename_i hpe
      rw [Option.map_eq_some_iff] at h
      obtain ⟨pool, hp, rfl⟩ := h
      have hr := Eos.Reach.step (.complete e) I.reach (by simp) hp
      have hcom := own_com (by simp) (by simp) hp I.ok
      have hfr' : pool.added = s.pool.added ∧ pool.done = s.pool.done ++ [e.id] ∧ pool.asg = s.pool.asg := by
        unfold Eos.step at hp
        simp only at hp
        repeat' split at hp
        all_goals first
          | (cases hp; exact ⟨rfl, rfl, rfl⟩)
          | cases hp
      obtain ⟨a1, a2, a3⟩ := hfr'
      obtain ⟨q1, q2, q3⟩ := I.pd e hpe
      have harr := put_arrived I (picked_put I (handled_picked I q1))
      refine { I with reach := hr, ok := hcom, arr := ?_, hd := ?_, pd := ?_, dh := ?_, pn := I.pn.erase _, ds := ?_ }
      · dsimp only; rw [I.arr, a1]
      · intro x hx
        dsimp only
        rw [a2]
        by_cases hxe : x = e
        · subst hxe; exact .inl (by simp)
        · rcases I.hd x hx with h | h
          · exact .inl (List.mem_append.2 (.inl h))
          · exact .inr ((List.Nodup.mem_erase_iff I.pn).2 ⟨hxe, h⟩)
      · intro x hx
        dsimp only
        rw [a2, a3]
        obtain ⟨n1, n2⟩ := (List.Nodup.mem_erase_iff I.pn).1 hx
        obtain ⟨k1, k2, k3⟩ := I.pd x n2
        refine ⟨k1, ?_, k3⟩
        intro hc
        rcases List.mem_append.1 hc with h | h
        · exact k2 h
        · exact n1 (arr_inj I (put_arrived I (picked_put I (handled_picked I k1))) harr (List.mem_singleton.1 h))
      · intro x hx
        dsimp only
        rw [a2]
        intro hd
        rcases List.mem_append.1 hd with h | h
        · exact I.dh x hx h
        · rw [arr_inj I hx harr (List.mem_singleton.1 h)]; exact q1
      · intro i
        dsimp only
        rw [a2]
        intro hi
        rcases List.mem_append.1 hi with h | h
        · exact I.ds i h
        · rw [List.mem_singleton.1 h]; exact List.mem_map.2 ⟨e, harr, rfl⟩
    · cases h

theorem inv_reach {c : Cfg} {s : Sys} (h : Reach c s) : Inv c s := by
  induction h with
  | init => exact inv_init c
  | step l _ ha hs ih => exact inv_step ih ha hs

end Verif.Live

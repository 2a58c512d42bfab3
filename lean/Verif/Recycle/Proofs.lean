import Verif.Recycle.Spec
import Verif.Marks.Proofs
import Verif.Eos.Proofs
import Mathlib.Data.List.Nodup
import Mathlib.Data.List.Perm.Subperm
/-
Proofs for C75.
-/
namespace Verif.Recycle
open Verif.Eos

/-! ### What a step of the producers does to the calls and to what was sent -/

theorem produce_calls (s : Pool) (p tp : Nat) (r : Rec) :
    (produce s p tp r).calls = s.calls ++ [⟨s.nodeGen p, tp, r⟩] ∧ ∃ m, (produce s p tp r).sent = s.sent ++ m := by
  unfold produce
  dsimp only
  split
  · exact ⟨rfl, _, rfl⟩
  · exact ⟨rfl, [], by simp⟩

theorem relinquish_calls (n : Nat) (s : Pool) (p tp : Nat) :
    (relinquish n s p tp).calls = s.calls ∧ ∃ m, (relinquish n s p tp).sent = s.sent ++ m := by
  unfold relinquish
  dsimp only
  split
  · exact ⟨rfl, _, rfl⟩
  · exact ⟨rfl, [], by simp⟩

theorem sent_step {c : Cfg} {s s' : Pool} {l : Label} (h : Eos.step c s l = some s') : ∃ m, s'.sent = s.sent ++ m := by
  cases l with
  | wait =>
    unfold Eos.step at h
    simp only at h
    split at h
    · split at h
      · split at h
        · cases h; exact (produce_calls ..).2
        · cases h; exact ⟨[], by simp⟩
      · simp at h
    · cases h; exact ⟨[], by simp⟩
    · simp at h
  | release =>
    unfold Eos.step at h
    simp only at h
    split at h
    · cases h; exact (relinquish_calls ..).2
    · cases h; exact ⟨[], by simp⟩
    · simp at h
  | produce e x =>
    unfold Eos.step at h
    simp only at h
    split at h
    · split at h
      · cases h; exact (produce_calls ..).2
      · simp at h
    · simp at h
  | beginCommit o =>
    unfold Eos.step at h
    simp only at h
    split at h
    · split at h
      · cases h; exact ⟨_, rfl⟩
      · simp at h
    · simp at h
  | _ =>
    unfold Eos.step at h
    simp only at h
    repeat' split at h
    all_goals first
      | (cases h; exact ⟨[], by simp⟩)
      | simp at h

theorem calls_step {c : Cfg} {s s' : Pool} {l : Label} (h : Eos.step c s l = some s') (h1 : l ≠ .wait)
    (h2 : ∀ e x, l ≠ .produce e x) : s'.calls = s.calls := by
  cases l with
  | wait => exact absurd rfl h1
  | produce e x => exact absurd rfl (h2 e x)
  | release =>
    unfold Eos.step at h
    simp only at h
    split at h
    · cases h; exact (relinquish_calls ..).1
    · cases h; rfl
    · simp at h
  | _ =>
    unfold Eos.step at h
    simp only at h
    repeat' split at h
    all_goals first
      | (cases h; rfl)
      | simp at h

theorem calls_produce {c : Cfg} {s s' : Pool} {e : Ev} {x : Nat} (h : Eos.step c s (.produce e x) = some s') :
    ∃ g, s'.calls = s.calls ++ [⟨g, e.part, .user x⟩] := by
  unfold Eos.step at h
  simp only at h
  split at h
  · split at h
    · cases h; exact ⟨_, (produce_calls ..).1⟩
    · simp at h
  · simp at h

/-- A commit record is the only one of its transaction for its partition. -/
theorem calls_wait {c : Cfg} (hn : 0 < c.poolSize) {s s' : Pool} (hr : Eos.Reach c s) (h : Eos.step c s .wait = some s') :
    s'.calls = s.calls ∨ ∃ out, s'.calls = s.calls ++ [out] ∧ out ∉ s.calls := by
  have h0 := h
  unfold Eos.step at h
  simp only at h
  split at h
  · rename_i p e es flag rest hc
    split at h
    · split at h
      · rename_i o ho
        cases h
        refine .inr ⟨_, (produce_calls ..).1, ?_⟩
        obtain ⟨a, ha, r⟩ := sim_reach hn hr
        have B := base_reach hn ha
        have F := fin_reach hn ha
        have hcom := r.com
        rw [hc] at hcom
        cases hx : a.com with
        | fin cur fl rs =>
          rw [hx] at hcom
          simp only [toCom, Com.fin.injEq] at hcom
          obtain ⟨q1, q2, q3, q4⟩ := hcom
          subst q2; subst q3; subst q4
          obtain ⟨dn, ct, _, _, _, hct⟩ := F.fin _ _ _ hx
          cases ct with
          | none => simp at hct
          | some tp =>
            obtain ⟨pre, hch, hcm⟩ := hct
            simp only [Bool.false_eq_true, if_false] at hcm
            have hmem : e ∈ (a.nodes a.lo).chain tp := by rw [hch]; simp
            have hpt : e.part = tp := (mem_chain.1 hmem).2
            have hst : a.st = a.lo + 1 := by have := B.st; rw [hx] at this; exact this
            have hgen : s.nodeGen p = a.lo := by
              rw [q1]; exact r.nodeGen a.lo (Nat.le_refl _) (lo_le_gen B hst)
            intro hin
            rw [r.calls, hgen, hpt] at hin
            have hin2 : ((tp, o + 1) : Nat × Nat) ∈ commits a.calls a.lo tp := by
              unfold commits
              rw [List.mem_filterMap]
              exact ⟨_, mem_ofTp.2 ⟨hin, rfl, rfl⟩, rfl⟩
            rw [hcm.1] at hin2
            simp at hin2
        | _ => rw [hx] at hcom; simp [toCom] at hcom
      · cases h; exact .inl rfl
    · simp at h
  · cases h; exact .inl rfl
  · simp at h

/-- What was sent was called for, and once. -/
theorem sent_nodup {c : Cfg} (hn : 0 < c.poolSize) {s : Pool} (hr : Eos.Reach c s) (hc : s.calls.Nodup) :
    s.sent.Nodup ∧ ∀ o ∈ s.sent, o ∈ s.calls := by
  obtain ⟨a, ha, r, B, O, F, H⟩ := ended_old hn hr
  constructor
  · rw [List.nodup_iff_count_le_one]
    intro o
    have h1 : s.sent.count o = (ofTp s.sent o.gen o.part).count o := by
      unfold ofTp
      rw [List.count_filter]
      simp
    have h2 : ofTp s.sent o.gen o.part = [] ∨ ofTp s.sent o.gen o.part = ofTp s.calls o.gen o.part := by
      rw [r.sent, r.calls]
      by_cases h1 : o.gen < a.lo ∨ a.owner o.part = some o.gen ∨ (a.nodes o.gen).has o.part = false
      · exact .inr (O.flow _ _ h1)
      · push Not at h1
        exact .inl (O.hold _ _ h1.1 h1.2.1 (by simpa using h1.2.2)).1
    rw [h1]
    rcases h2 with h2 | h2 <;> rw [h2]
    · simp
    · exact List.nodup_iff_count_le_one.1 (hc.filter _) o
  · intro o ho
    rw [r.sent] at ho
    rw [r.calls]
    exact O.sub o ho

/-! ### Invariant -/

/-- The objects of the records that were handed over and not acknowledged. -/
def busy (s : St) : List Nat := (s.objs.filter fun x => x.1 ∉ s.released).map fun x => x.2.1

structure Inv (s : St) : Prop where
  objs : s.objs.map Prod.fst = s.pool.calls
  calls : s.pool.calls.Nodup
  ackn : s.acked.Nodup
  acks : s.acked.map (fun i => s.pool.sent[i]?) = s.released.map some
  own : (s.held ++ s.free ++ busy s).Nodup
  lt : ∀ o ∈ s.held ++ s.free ++ busy s, o < s.next

theorem busy_fresh {s : St} {out : Out} {o v : Nat} (h : out ∉ s.released) :
    (((s.objs ++ [(out, o, v)]).filter fun x => x.1 ∉ s.released).map fun x => x.2.1) = busy s ++ [o] := by
  unfold busy
  rw [List.filter_append, List.map_append]
  simp [h]

theorem borrow_spec (s : St) : (borrow s).2.held = s.held ∧ (borrow s).2.objs = s.objs ∧ (borrow s).2.acked = s.acked ∧
    (borrow s).2.released = s.released ∧ (borrow s).2.pool = s.pool ∧
    ((s.free = (borrow s).2.free ++ [(borrow s).1] ∧ (borrow s).2.next = s.next) ∨
      (s.free = [] ∧ (borrow s).2.free = [] ∧ (borrow s).1 = s.next ∧ (borrow s).2.next = s.next + 1)) := by
  unfold borrow
  split
  · rename_i o ho
    refine ⟨rfl, rfl, rfl, rfl, rfl, .inl ⟨?_, rfl⟩⟩
    exact (List.dropLast_append_getLast? o ho).symm
  · rename_i ho
    rw [List.getLast?_eq_none_iff] at ho
    exact ⟨rfl, rfl, rfl, rfl, rfl, .inr ⟨ho, ho, rfl, rfl⟩⟩

/-- The borrowed object leaves the pool or is new; together with the others the objects are still different. -/
theorem borrow_own {s : St} (I : Inv s) :
    ((borrow s).2.held ++ (borrow s).2.free ++ busy s ++ [(borrow s).1]).Nodup ∧
    ∀ o ∈ (borrow s).2.held ++ (borrow s).2.free ++ busy s ++ [(borrow s).1], o < (borrow s).2.next := by
  obtain ⟨h1, _, _, _, _, h⟩ := borrow_spec s
  rw [h1]
  rcases h with ⟨hf, hx⟩ | ⟨hf, hf', ho, hx⟩
  · have hp : (s.held ++ (borrow s).2.free ++ busy s ++ [(borrow s).1]).Perm (s.held ++ s.free ++ busy s) := by
      rw [hf]
      simp only [List.append_assoc]
      apply List.Perm.append_left
      apply List.Perm.append_left
      exact List.perm_append_comm
    exact ⟨hp.nodup_iff.2 I.own, fun o ho => by rw [hx]; exact I.lt o (hp.mem_iff.1 ho)⟩
  · rw [hf', ho, hx]
    have hown := I.own
    have hlt := I.lt
    rw [hf] at hown hlt
    refine ⟨?_, ?_⟩
    · rw [List.nodup_append]
      refine ⟨hown, by simp, ?_⟩
      intro a ha b hb
      simp only [List.mem_singleton] at hb
      have := hlt a ha
      omega
    · intro o ho
      rw [List.mem_append, List.mem_singleton] at ho
      rcases ho with ho | rfl
      · have := hlt o ho; omega
      · omega

/-- The acknowledged positions keep their records when more is sent. -/
theorem acks_mono {l m : List Out} {acked : List Nat} {rel : List Out} (h : acked.map (fun i => l[i]?) = rel.map some) :
    acked.map (fun i => (l ++ m)[i]?) = rel.map some := by
  rw [← h]
  apply List.map_congr_left
  intro i hi
  have : l[i]? ∈ rel.map some := by rw [← h]; exact List.mem_map.2 ⟨i, hi, rfl⟩
  obtain ⟨o, _, ho⟩ := List.mem_map.1 this
  have hlt : i < l.length := (List.getElem?_eq_some_iff.1 ho.symm).1
  rw [List.getElem?_append_left hlt]

theorem released_sent {s : St} (I : Inv s) : ∀ out ∈ s.released, out ∈ s.pool.sent := by
  intro out ho
  have : some out ∈ s.acked.map fun i => s.pool.sent[i]? := by rw [I.acks]; exact List.mem_map.2 ⟨out, ho, rfl⟩
  obtain ⟨i, _, hi⟩ := List.mem_map.1 this
  exact List.mem_of_getElem? hi

theorem release_spec (pr : Prm) (s : St) (o : Nat) :
    (release pr s o).held = s.held ∧ (release pr s o).objs = s.objs ∧ (release pr s o).acked = s.acked ∧
    (release pr s o).released = s.released ∧ (release pr s o).pool = s.pool ∧ (release pr s o).next = s.next ∧
    ((release pr s o).free = s.free ++ [o] ∨ (release pr s o).free = s.free) := by
  unfold release
  split
  · exact ⟨rfl, rfl, rfl, rfl, rfl, rfl, .inl rfl⟩
  · exact ⟨rfl, rfl, rfl, rfl, rfl, rfl, .inr rfl⟩

/-- Releasing an object that nobody has. -/
theorem release_inv {pr : Prm} {s : St} {o : Nat} (I : Inv s) (hn : (s.held ++ s.free ++ busy s ++ [o]).Nodup)
    (hlt : o < s.next) : Inv (release pr s o) := by
  obtain ⟨h1, h2, h3, h4, h5, h6, h7⟩ := release_spec pr s o
  have hb : busy (release pr s o) = busy s := by unfold busy; rw [h2, h4]
  refine ⟨by rw [h2, h5]; exact I.objs, by rw [h5]; exact I.calls, by rw [h3]; exact I.ackn, by rw [h3, h4, h5]; exact I.acks, ?_, ?_⟩
  · rw [h1, hb]
    rcases h7 with h7 | h7 <;> rw [h7]
    · refine List.Perm.nodup_iff ?_ |>.2 hn
      simp only [List.append_assoc]
      apply List.Perm.append_left
      apply List.Perm.append_left
      exact List.perm_append_comm
    · exact I.own
  · rw [h1, hb, h6]
    intro x hx
    rcases h7 with h7 | h7 <;> rw [h7] at hx
    · have : x ∈ s.held ++ s.free ++ busy s ∨ x = o := by
        simp only [List.mem_append, List.mem_singleton] at hx ⊢; tauto
      rcases this with h | rfl
      · exact I.lt x h
      · exact hlt
    · exact I.lt x hx

theorem reach_pool {c : Cfg} {pr : Prm} {s : St} (h : Reach c pr s) : Eos.Reach c s.pool := by
  induction h with
  | init => exact .init
  | @step s s' a _ hl hs ih =>
    cases a with
    | pool l =>
      have hl' : l ≠ .commitFail true := fun e => hl (by rw [e])
      simp only [step] at hs
      split at hs
      · simp at hs
      · split at hs
        · simp at hs
        · rename_i p' hp
          split at hs
          · cases hs; exact .step _ ih hl' hp
          · cases hs; exact .step _ ih hl' hp
      · split at hs
        · split at hs
          · rw [Option.map_eq_some_iff] at hs
            obtain ⟨p', hp, rfl⟩ := hs
            exact .step _ ih hl' hp
          · simp at hs
        · simp at hs
      · rw [Option.map_eq_some_iff] at hs
        obtain ⟨p', hp, rfl⟩ := hs
        exact .step _ ih hl' hp
    | new => cases hs; rw [show ({ (borrow s).2 with held := s.held ++ [(borrow s).1] } : St).pool = s.pool from (borrow_spec s).2.2.2.2.1]; exact ih
    | write o v =>
      simp only [step] at hs
      split at hs
      · cases hs; exact ih
      · simp at hs
    | drop o =>
      simp only [step] at hs
      split at hs
      · cases hs; rw [(release_spec pr _ o).2.2.2.2.1]; exact ih
      · simp at hs
    | forward e x o =>
      simp only [step] at hs
      split at hs
      · split at hs
        · simp at hs
        · rename_i p' hp
          cases hs
          exact .step _ ih (by simp) hp
      · simp at hs
    | ack i =>
      simp only [step] at hs
      split at hs
      · simp at hs
      · split at hs
        · simp at hs
        · split at hs
          · simp at hs
          · cases hs; rw [(release_spec pr _ _).2.2.2.2.1]; exact ih

/-- A step of the producers that makes no call. -/
theorem inv_quiet {c : Cfg} {s : St} (I : Inv s) {l : Label} {p' : Pool} (hp : Eos.step c s.pool l = some p')
    (hc : p'.calls = s.pool.calls) : Inv { s with pool := p' } := by
  obtain ⟨m, hm⟩ := sent_step hp
  exact ⟨by rw [I.objs]; exact hc.symm, by rw [show ({ s with pool := p' } : St).pool.calls = p'.calls from rfl, hc]; exact I.calls,
    I.ackn, by dsimp only; rw [hm]; exact acks_mono I.acks, I.own, I.lt⟩

theorem newCalls_same {p p' : Pool} (h : p'.calls = p.calls) : newCalls p p' = [] := by
  unfold newCalls; rw [h]; simp

theorem newCalls_one {p p' : Pool} {out : Out} (h : p'.calls = p.calls ++ [out]) : newCalls p p' = [out] := by
  unfold newCalls; rw [h]; simp

/-- When a record is released, its object leaves the busy ones. -/
theorem busy_ack {s : St} {xo : Out × Nat × Nat} {out : Out} (hxm : xo ∈ s.objs) (hx1 : xo.1 = out) (hnr : out ∉ s.released)
    (hnd : (s.objs.map Prod.fst).Nodup) :
    ((s.objs.filter fun x => x.1 ∉ s.released ++ [out]).map (fun x => x.2.1) ++ [xo.2.1]).Perm (busy s) := by
  unfold busy
  have key : ∀ l : List (Out × Nat × Nat), (l.map Prod.fst).Nodup → xo ∈ l →
      ((l.filter fun x => x.1 ∉ s.released ++ [out]).map (fun x => x.2.1) ++ [xo.2.1]).Perm
        ((l.filter fun x => x.1 ∉ s.released).map fun x => x.2.1) := by
    intro l
    induction l with
    | nil => intro _ h; simp at h
    | cons y l ih =>
      intro hd hm
      rw [List.map_cons, List.nodup_cons] at hd
      rcases List.mem_cons.1 hm with rfl | hm
      · have hrest : (l.filter fun x => x.1 ∉ s.released ++ [out]) = l.filter fun x => x.1 ∉ s.released := by
          apply List.filter_congr
          intro z hz
          have : z.1 ≠ out := fun e => hd.1 (List.mem_map.2 ⟨z, hz, by rw [e, hx1]⟩)
          simp [this]
        rw [List.filter_cons, if_neg (by simp [hx1]), List.filter_cons, if_pos (by simpa [hx1] using hnr), hrest,
          List.map_cons]
        exact List.perm_append_comm
      · have hne : y.1 ≠ out := fun e => hd.1 (List.mem_map.2 ⟨xo, hm, by rw [e, hx1]⟩)
        have ih := ih hd.2 hm
        by_cases hy : y.1 ∈ s.released
        · rw [List.filter_cons, if_neg (by simp [hy]), List.filter_cons, if_neg (by simp [hy])]
          exact ih
        · rw [List.filter_cons, if_pos (by simp [hy, hne]), List.filter_cons, if_pos (by simp [hy]), List.map_cons,
            List.map_cons, List.cons_append]
          exact ih.cons _
  exact key s.objs hnd hxm

theorem inv_reach {c : Cfg} (hn : 0 < c.poolSize) {pr : Prm} {s : St} (h : Reach c pr s) : Inv s := by
  induction h with
  | init => exact ⟨rfl, by simp [St.init, Pool.init], by simp [St.init], rfl, by simp [St.init, busy], by simp [St.init, busy]⟩
  | @step s s' a hr hl hs I =>
    have hpool := reach_pool hr
    have hnotsent : ∀ out, out ∉ s.pool.calls → out ∉ s.released := fun out ho hrel =>
      ho ((sent_nodup hn hpool I.calls).2 out (released_sent I out hrel))
    cases a with
    | pool l =>
      simp only [step] at hs
      split at hs
      · simp at hs
      · split at hs
        · simp at hs
        · rename_i p' hp
          obtain ⟨m, hm⟩ := sent_step hp
          rcases calls_wait hn hpool hp with hc | ⟨out, hc, hfresh⟩
          · rw [newCalls_same hc] at hs
            simp only at hs
            cases hs
            exact inv_quiet I hp hc
          · rw [newCalls_one hc] at hs
            simp only at hs
            cases hs
            obtain ⟨b1, b2, b3, b4, b5, _⟩ := borrow_spec s
            obtain ⟨o1, o2⟩ := borrow_own I
            have hb := busy_fresh (o := (borrow s).1) (v := pr.enc out.r) (hnotsent out hfresh)
            refine ⟨?_, ?_, by dsimp only; rw [b3]; exact I.ackn, ?_, ?_, ?_⟩
            · dsimp only; rw [List.map_append, I.objs, hc]; rfl
            · dsimp only; rw [hc, List.nodup_append]
              refine ⟨I.calls, by simp, ?_⟩
              intro a ha b hb' e
              simp only [List.mem_singleton] at hb'
              subst hb'; subst e; exact hfresh ha
            · dsimp only; rw [b3, b4, hm]; exact acks_mono I.acks
            · unfold busy; dsimp only; rw [b4, hb, ← List.append_assoc]; exact o1
            · unfold busy; dsimp only; rw [b4, hb, ← List.append_assoc]; exact o2
      · split at hs
        · split at hs
          · rw [Option.map_eq_some_iff] at hs
            obtain ⟨p', hp, rfl⟩ := hs
            exact inv_quiet I hp (calls_step hp (by simp) (by simp))
          · simp at hs
        · simp at hs
      · rename_i h1 h2 h3
        rw [Option.map_eq_some_iff] at hs
        obtain ⟨p', hp, rfl⟩ := hs
        exact inv_quiet I hp (calls_step hp (fun e => h2 e) (fun e x he => h1 e x he))
    | new =>
      cases hs
      obtain ⟨b1, b2, b3, b4, b5, _⟩ := borrow_spec s
      obtain ⟨o1, o2⟩ := borrow_own I
      have hb : busy ({ (borrow s).2 with held := s.held ++ [(borrow s).1] } : St) = busy s := by
        unfold busy; dsimp only; rw [b2, b4]
      have hp : (s.held ++ [(borrow s).1] ++ (borrow s).2.free ++ busy s).Perm
          ((borrow s).2.held ++ (borrow s).2.free ++ busy s ++ [(borrow s).1]) := by
        rw [b1]
        simp only [List.append_assoc]
        apply List.Perm.append_left
        rw [← List.append_assoc _ (busy s)]
        exact List.perm_append_comm
      refine ⟨by dsimp only; rw [b2, b5]; exact I.objs, by dsimp only; rw [b5]; exact I.calls, by dsimp only; rw [b3]; exact I.ackn,
        by dsimp only; rw [b3, b4, b5]; exact I.acks, ?_, ?_⟩
      · rw [hb]; exact hp.nodup_iff.2 o1
      · rw [hb]; exact fun o ho => o2 o (hp.mem_iff.1 ho)
    | write o v =>
      simp only [step] at hs
      split at hs
      · cases hs; exact ⟨I.objs, I.calls, I.ackn, I.acks, I.own, I.lt⟩
      · simp at hs
    | drop o =>
      simp only [step] at hs
      split at hs
      · rename_i ho
        cases hs
        have hp : (s.held.erase o ++ s.free ++ busy s ++ [o]).Perm (s.held ++ s.free ++ busy s) := by
          have h1 := (List.perm_cons_erase ho).symm
          have h2 : (s.held.erase o ++ s.free ++ busy s ++ [o]).Perm ((o :: s.held.erase o) ++ s.free ++ busy s) := by
            rw [List.cons_append, List.cons_append]
            exact List.perm_append_comm
          exact h2.trans ((h1.append_right s.free).append_right (busy s))
        have hlt := I.lt o (by simp [ho])
        have I' : Inv { s with held := s.held.erase o } := by
          refine ⟨I.objs, I.calls, I.ackn, I.acks, ?_, ?_⟩
          · have := hp.nodup_iff.2 I.own
            exact (List.nodup_append.1 this).1
          · intro x hx
            exact I.lt x (hp.mem_iff.1 (List.mem_append_left _ hx))
        exact release_inv I' (hp.nodup_iff.2 I.own) hlt
      · simp at hs
    | forward e x o =>
      simp only [step] at hs
      split at hs
      · rename_i hg
        obtain ⟨ho, hx⟩ := hg
        split at hs
        · simp at hs
        · rename_i p' hp
          obtain ⟨m, hm⟩ := sent_step hp
          obtain ⟨g, hc⟩ := calls_produce hp
          have hfresh : (⟨g, e.part, .user x⟩ : Out) ∉ s.pool.calls := fun hin => hx _ hin rfl
          rw [newCalls_one hc] at hs
          cases hs
          have hb := busy_fresh (o := o) (v := s.data o) (hnotsent _ hfresh)
          have hp' : (s.held.erase o ++ s.free ++ (busy s ++ [o])).Perm (s.held ++ s.free ++ busy s) := by
            have h1 := (List.perm_cons_erase ho).symm
            have h2 : (s.held.erase o ++ s.free ++ (busy s ++ [o])).Perm ((o :: s.held.erase o) ++ s.free ++ busy s) := by
              rw [List.cons_append, List.cons_append, ← List.append_assoc]
              exact List.perm_append_comm
            exact h2.trans ((h1.append_right s.free).append_right (busy s))
          refine ⟨?_, ?_, I.ackn, ?_, ?_, ?_⟩
          · dsimp only; rw [List.map_append, I.objs, hc]; rfl
          · dsimp only; rw [hc, List.nodup_append]
            refine ⟨I.calls, by simp, ?_⟩
            intro a ha b hb' e'
            simp only [List.mem_singleton] at hb'
            subst hb'; subst e'; exact hfresh ha
          · dsimp only; rw [hm]; exact acks_mono I.acks
          · unfold busy; dsimp only; simp only [List.map_cons, List.map_nil]; rw [hb]; exact hp'.nodup_iff.2 I.own
          · unfold busy; dsimp only; simp only [List.map_cons, List.map_nil]; rw [hb]; exact fun z hz => I.lt z (hp'.mem_iff.1 hz)
      · simp at hs
    | ack i =>
      simp only [step] at hs
      split at hs
      · simp at hs
      · rename_i out hout
        split at hs
        · simp at hs
        · rename_i hni
          split at hs
          · simp at hs
          · rename_i xo hfind
            cases hs
            have hsn := sent_nodup hn hpool I.calls
            have hx1 : xo.1 = out := by simpa using List.find?_some hfind
            have hxm : xo ∈ s.objs := List.mem_of_find?_eq_some hfind
            -- the record was not released before
            have hnr : out ∉ s.released := by
              intro hrel
              have : some out ∈ s.acked.map fun j => s.pool.sent[j]? := by rw [I.acks]; exact List.mem_map.2 ⟨out, hrel, rfl⟩
              obtain ⟨j, hj, hje⟩ := List.mem_map.1 this
              obtain ⟨hlt1, e1⟩ := List.getElem?_eq_some_iff.1 hout
              obtain ⟨hlt2, e2⟩ := List.getElem?_eq_some_iff.1 hje
              have := (List.Nodup.getElem_inj_iff hsn.1).1 (e1.trans e2.symm)
              subst this
              exact hni hj
            have hnd : (s.objs.map Prod.fst).Nodup := by rw [I.objs]; exact I.calls
            -- its object leaves the busy ones
            have hbusy : (busy { s with acked := s.acked ++ [i], released := s.released ++ [out] } ++ [xo.2.1]).Perm (busy s) :=
              busy_ack hxm hx1 hnr hnd
            have hp' : (s.held ++ s.free ++ busy { s with acked := s.acked ++ [i], released := s.released ++ [out] } ++ [xo.2.1]).Perm
                (s.held ++ s.free ++ busy s) := by
              rw [List.append_assoc (s.held ++ s.free)]
              exact hbusy.append_left _
            have I' : Inv { s with acked := s.acked ++ [i], released := s.released ++ [out] } := by
              refine ⟨I.objs, I.calls, ?_, ?_, ?_, ?_⟩
              · dsimp only; rw [List.nodup_append]
                refine ⟨I.ackn, by simp, ?_⟩
                intro a ha b hb e
                simp only [List.mem_singleton] at hb
                subst hb; subst e; exact hni ha
              · dsimp only; rw [List.map_append, I.acks, List.map_append, List.map_cons, hout]; rfl
              · exact (List.nodup_append.1 (hp'.nodup_iff.2 I.own)).1
              · intro z hz; exact I.lt z (hp'.mem_iff.1 (List.mem_append_left _ hz))
            exact release_inv I' (hp'.nodup_iff.2 I.own) (I.lt _ (hp'.mem_iff.1 (by simp)))

/-! ### Contents -/

structure Dat (s : St) : Prop where
  away : ∀ x ∈ s.objs, x.1 ∉ s.released → s.data x.2.1 = x.2.2
  free : ∀ o ∈ s.free, s.data o = 0

theorem mem_busy {s : St} {x : Out × Nat × Nat} (h : x ∈ s.objs) (h' : x.1 ∉ s.released) : x.2.1 ∈ busy s :=
  List.mem_map.2 ⟨x, List.mem_filter.2 ⟨h, by simpa using h'⟩, rfl⟩

/-- The three groups of objects are apart. -/
theorem Inv.apart {s : St} (I : Inv s) :
    (∀ o ∈ s.held, o ∉ s.free ∧ o ∉ busy s) ∧ (∀ o ∈ s.free, o ∉ busy s) := by
  have h := I.own
  rw [List.nodup_append, List.nodup_append] at h
  obtain ⟨⟨_, _, h1⟩, _, h2⟩ := h
  exact ⟨fun o ho => ⟨fun hf => h1 o ho o hf rfl, fun hb => h2 o (List.mem_append_left _ ho) o hb rfl⟩,
    fun o ho hb => h2 o (List.mem_append_right _ ho) o hb rfl⟩

theorem borrow_data {s : St} (I : Inv s) (D : Dat s) :
    (borrow s).2.data (borrow s).1 = 0 ∧ (∀ o ∈ s.held ++ busy s, (borrow s).2.data o = s.data o ∧ o ≠ (borrow s).1) ∧
    (∀ o ∈ (borrow s).2.free, o ∈ s.free ∧ (borrow s).2.data o = 0 ∧ o ≠ (borrow s).1) := by
  have hf : s.free.Nodup := by
    have := I.own
    rw [List.nodup_append, List.nodup_append] at this
    exact this.1.2.1
  unfold borrow
  split
  · rename_i o ho
    have hmem : o ∈ s.free := List.mem_of_getLast? ho
    have hd := List.dropLast_append_getLast? o ho
    refine ⟨D.free o hmem, ?_, ?_⟩
    · intro z hz
      refine ⟨rfl, ?_⟩
      rintro rfl
      rcases List.mem_append.1 hz with h | h
      · exact (I.apart.1 _ h).1 hmem
      · exact I.apart.2 _ hmem h
    · intro z hz
      have hz' : z ∈ s.free.dropLast := hz
      refine ⟨List.dropLast_subset _ hz', D.free z (List.dropLast_subset _ hz'), ?_⟩
      rintro rfl
      rw [← hd, List.nodup_append] at hf
      exact hf.2.2 _ hz' _ (by simp) rfl
  · rename_i ho
    rw [List.getLast?_eq_none_iff] at ho
    refine ⟨by simp [upd], ?_, ?_⟩
    · intro z hz
      have : z < s.next := I.lt z (by
        rcases List.mem_append.1 hz with h | h
        · simp [h]
        · simp [h])
      exact ⟨by simp only [upd]; rw [if_neg (by omega)], by dsimp only; omega⟩
    · intro z hz
      dsimp only at hz
      rw [ho] at hz; simp at hz

theorem release_data {pr : Prm} {s : St} {o : Nat} :
    (release pr s o).data = upd s.data o 0 := by
  unfold release; split <;> rfl

theorem dat_reach {c : Cfg} (hn : 0 < c.poolSize) {pr : Prm} {s : St} (h : Reach c pr s) : Dat s := by
  induction h with
  | init => exact ⟨by simp [St.init], by simp [St.init]⟩
  | @step s s' a hr hl hs D =>
    have I := inv_reach hn hr
    have hpool := reach_pool hr
    obtain ⟨d1, d2, d3⟩ := borrow_data I D
    obtain ⟨b1, b2, b3, b4, b5, _⟩ := borrow_spec s
    cases a with
    | pool l =>
      simp only [step] at hs
      split at hs
      · simp at hs
      · split at hs
        · simp at hs
        · rename_i p' hp
          split at hs
          · cases hs; exact ⟨D.away, D.free⟩
          · cases hs
            refine ⟨?_, ?_⟩
            · intro x hx hx'
              dsimp only at hx hx' ⊢
              rw [b4] at hx'
              rw [List.mem_append, List.mem_singleton] at hx
              rcases hx with hx | rfl
              · have := d2 x.2.1 (List.mem_append_right _ (mem_busy hx hx'))
                simp only [upd]; rw [if_neg this.2, this.1]; exact D.away x hx hx'
              · simp [upd]
            · intro z hz
              have := d3 z hz
              dsimp only [upd]; rw [if_neg this.2.2]; exact this.2.1
      · split at hs
        · split at hs
          · rw [Option.map_eq_some_iff] at hs
            obtain ⟨p', hp, rfl⟩ := hs
            exact ⟨D.away, D.free⟩
          · simp at hs
        · simp at hs
      · rw [Option.map_eq_some_iff] at hs
        obtain ⟨p', hp, rfl⟩ := hs
        exact ⟨D.away, D.free⟩
    | new =>
      cases hs
      refine ⟨?_, ?_⟩
      · intro x hx hx'
        dsimp only at hx hx' ⊢
        rw [b2] at hx; rw [b4] at hx'
        rw [(d2 x.2.1 (List.mem_append_right _ (mem_busy hx hx'))).1]
        exact D.away x hx hx'
      · intro z hz; exact (d3 z hz).2.1
    | write o v =>
      simp only [step] at hs
      split at hs
      · rename_i ho
        cases hs
        refine ⟨?_, ?_⟩
        · intro x hx hx'
          dsimp only [upd]
          rw [if_neg (fun e => (I.apart.1 o ho).2 (by rw [← e]; exact mem_busy hx hx'))]
          exact D.away x hx hx'
        · intro z hz
          dsimp only [upd]
          rw [if_neg (fun e => (I.apart.1 o ho).1 (by rw [← e]; exact hz))]
          exact D.free z hz
      · simp at hs
    | drop o =>
      simp only [step] at hs
      split at hs
      · rename_i ho
        cases hs
        obtain ⟨h1, h2, h3, h4, h5, h6, h7⟩ := release_spec pr { s with held := s.held.erase o } o
        refine ⟨?_, ?_⟩
        · intro x hx hx'
          rw [h2] at hx; rw [h4] at hx'
          rw [release_data]
          dsimp only [upd]
          rw [if_neg (fun e => (I.apart.1 o ho).2 (by rw [← e]; exact mem_busy hx hx'))]
          exact D.away x hx hx'
        · intro z hz
          rw [release_data]
          dsimp only [upd]
          split
          · rfl
          · rename_i hne
            rcases h7 with h7 | h7 <;> rw [h7] at hz
            · rw [List.mem_append, List.mem_singleton] at hz
              exact D.free z (hz.resolve_right hne)
            · exact D.free z hz
      · simp at hs
    | forward e x o =>
      simp only [step] at hs
      split at hs
      · rename_i hg
        split at hs
        · simp at hs
        · rename_i p' hp
          cases hs
          refine ⟨?_, D.free⟩
          intro y hy hy'
          dsimp only at hy hy' ⊢
          rw [List.mem_append] at hy
          rcases hy with hy | hy
          · exact D.away y hy hy'
          · obtain ⟨out, _, rfl⟩ := List.mem_map.1 hy
            rfl
      · simp at hs
    | ack i =>
      have hs' := hs
      simp only [step] at hs
      split at hs
      · simp at hs
      · rename_i out hout
        split at hs
        · simp at hs
        · split at hs
          · simp at hs
          · rename_i xo hfind
            cases hs
            have I' := inv_reach hn (Reach.step (.ack i) hr (by simp) hs')
            have hx1 : xo.1 = out := by simpa using List.find?_some hfind
            have hxm : xo ∈ s.objs := List.mem_of_find?_eq_some hfind
            obtain ⟨h1, h2, h3, h4, h5, h6, h7⟩ := release_spec pr { s with acked := s.acked ++ [i], released := s.released ++ [out] } xo.2.1
            refine ⟨?_, ?_⟩
            · intro x hx hx'
              have hx0 := hx
              have hx0' := hx'
              rw [h2] at hx; rw [h4] at hx'
              dsimp only at hx hx'
              rw [List.mem_append, not_or] at hx'
              rw [release_data]
              dsimp only [upd]
              rw [if_neg]
              · exact D.away x hx hx'.1
              · intro e
                -- two records on their way with one object
                have hnr : out ∉ s.released := by
                  have hnd : (s.released ++ [out]).Nodup := by
                    have hsn := (sent_nodup hn hpool I.calls).1
                    have h3' : (s.acked ++ [i]).Nodup := by rw [← show _ = s.acked ++ [i] from h3]; exact I'.ackn
                    have hk : (s.acked ++ [i]).map (fun j => s.pool.sent[j]?) = (s.released ++ [out]).map some := by
                      have := I'.acks
                      rw [h3, h4, h5] at this
                      exact this
                    have : ((s.released ++ [out]).map some).Nodup := by
                      rw [← hk]
                      refine (List.nodup_map_iff_inj_on h3').2 ?_
                      intro a ha b hb hab
                      have : s.pool.sent[a]? ∈ (s.released ++ [out]).map some := by rw [← hk]; exact List.mem_map.2 ⟨a, ha, rfl⟩
                      obtain ⟨w, _, hw⟩ := List.mem_map.1 this
                      obtain ⟨l1, e1⟩ := List.getElem?_eq_some_iff.1 hw.symm
                      obtain ⟨l2, e2⟩ := List.getElem?_eq_some_iff.1 (hab.symm.trans hw.symm)
                      exact (List.Nodup.getElem_inj_iff hsn).1 (e1.trans e2.symm)
                    exact List.Nodup.of_map _ this
                  rw [List.nodup_append] at hnd
                  exact fun hin => hnd.2.2 _ hin _ (by simp) rfl
                have hxne : x ≠ xo := by
                  rintro rfl
                  exact hx'.2 (by simp [hx1])
                have hbn : (busy s).Nodup := by
                  have := I.own
                  rw [List.nodup_append] at this
                  exact this.2.1
                unfold busy at hbn
                have hinj := (List.nodup_map_iff_inj_on ((List.Nodup.of_map _ (by rw [I.objs]; exact I.calls : (s.objs.map Prod.fst).Nodup)).filter
                  fun x => x.1 ∉ s.released)).1 hbn
                exact hxne (hinj x (List.mem_filter.2 ⟨hx, by simpa using hx'.1⟩) xo
                  (List.mem_filter.2 ⟨hxm, by simpa [hx1] using hnr⟩) e)
            · intro z hz
              rw [release_data]
              dsimp only [upd]
              split
              · rfl
              · rename_i hne
                rcases h7 with h7 | h7 <;> rw [h7] at hz
                · rw [List.mem_append, List.mem_singleton] at hz
                  exact D.free z (hz.resolve_right hne)
                · exact D.free z hz

theorem released_nodup {c : Cfg} (hn : 0 < c.poolSize) {s : St} (hp : Eos.Reach c s.pool) (I : Inv s) : s.released.Nodup := by
  have hsn := (sent_nodup hn hp I.calls).1
  have : (s.released.map some).Nodup := by
    rw [← I.acks]
    refine (List.nodup_map_iff_inj_on I.ackn).2 ?_
    intro a ha b hb hab
    have : s.pool.sent[a]? ∈ s.released.map some := by rw [← I.acks]; exact List.mem_map.2 ⟨a, ha, rfl⟩
    obtain ⟨w, _, hw⟩ := List.mem_map.1 this
    obtain ⟨l1, e1⟩ := List.getElem?_eq_some_iff.1 hw.symm
    obtain ⟨l2, e2⟩ := List.getElem?_eq_some_iff.1 (hab.symm.trans hw.symm)
    exact (List.Nodup.getElem_inj_iff hsn).1 (e1.trans e2.symm)
  exact List.Nodup.of_map _ this

/-! ### No object is lost -/

theorem Inv.len {s : St} (I : Inv s) : s.held.length + s.free.length + (busy s).length ≤ s.next := by
  have h1 := I.own
  have h2 : (s.held ++ s.free ++ busy s).length ≤ (List.range s.next).length :=
    (h1.subperm fun o ho => List.mem_range.2 (I.lt o ho)).length_le
  simpa [Nat.add_assoc] using h2

theorem busy_length (s : St) : (busy s).length = awayCount s := by unfold busy awayCount; rw [List.length_map]

theorem borrow_len (s : St) : (borrow s).2.free.length + 1 + s.next = s.free.length + (borrow s).2.next := by
  obtain ⟨_, _, _, _, _, h⟩ := borrow_spec s
  rcases h with ⟨h1, h2⟩ | ⟨h1, h2, _, h3⟩
  · rw [h2]
    have := congrArg List.length h1
    rw [List.length_append, List.length_singleton] at this
    omega
  · rw [h1, h2, h3]; simp; omega

/-- As long as not more objects were made than the list can hold, none is lost. -/
theorem len_reach {c : Cfg} (hn : 0 < c.poolSize) {pr : Prm} {s : St} (h : Reach c pr s) (hsz : s.next ≤ pr.size) :
    s.held.length + s.free.length + (busy s).length = s.next := by
  induction h with
  | init => simp [St.init, busy]
  | @step s s' a hr hl hs ih =>
    have I := inv_reach hn hr
    have hpool := reach_pool hr
    have hI' := inv_reach hn (Reach.step a hr hl hs)
    have hrel : ∀ (t : St) (o : Nat), Inv (release pr t o) → t.next = s.next → s.next ≤ pr.size →
        t.held.length + t.free.length + (busy t).length + 1 = s.next →
        (release pr t o).held.length + (release pr t o).free.length + (busy (release pr t o)).length = (release pr t o).next := by
      intro t o _ h1 h2 h3
      have hroom : t.free.length < pr.size := by omega
      unfold release
      rw [if_pos hroom]
      have : busy ({ t with free := t.free ++ [o], data := upd t.data o 0 } : St) = busy t := rfl
      rw [this]
      dsimp only
      rw [List.length_append, List.length_singleton]
      omega
    cases a with
    | pool l =>
      simp only [step] at hs
      split at hs
      · simp at hs
      · split at hs
        · simp at hs
        · rename_i p' hp
          split at hs
          · cases hs; exact ih hsz
          · rename_i out rest hnew
            cases hs
            obtain ⟨b1, b2, b3, b4, b5, b6⟩ := borrow_spec s
            have hb := borrow_len s
            dsimp only at hsz
            have hle : s.next ≤ (borrow s).2.next := by rcases b6 with ⟨_, h⟩ | ⟨_, _, _, h⟩ <;> omega
            have ih := ih (by omega)
            have hout : out ∉ s.released := by
              rcases calls_wait hn hpool hp with hc | ⟨out', hc, hf⟩
              · rw [newCalls_same hc] at hnew; simp at hnew
              · rw [newCalls_one hc] at hnew
                simp only [List.cons.injEq] at hnew
                rw [← hnew.1]
                exact fun h => hf ((sent_nodup hn hpool I.calls).2 _ (released_sent I _ h))
            have hb2 := congrArg List.length (busy_fresh (o := (borrow s).1) (v := pr.enc out.r) hout)
            rw [List.length_append, List.length_singleton] at hb2
            unfold busy
            dsimp only
            rw [b4, hb2, b1]
            omega
      · split at hs
        · split at hs
          · rw [Option.map_eq_some_iff] at hs
            obtain ⟨p', hp, rfl⟩ := hs
            exact ih hsz
          · simp at hs
        · simp at hs
      · rw [Option.map_eq_some_iff] at hs
        obtain ⟨p', hp, rfl⟩ := hs
        exact ih hsz
    | new =>
      cases hs
      obtain ⟨b1, b2, b3, b4, b5, b6⟩ := borrow_spec s
      have hb := borrow_len s
      dsimp only at hsz
      have hle : s.next ≤ (borrow s).2.next := by rcases b6 with ⟨_, h⟩ | ⟨_, _, _, h⟩ <;> omega
      have ih := ih (by omega)
      have : busy ({ (borrow s).2 with held := s.held ++ [(borrow s).1] } : St) = busy s := by
        unfold busy; dsimp only; rw [b2, b4]
      rw [this]
      dsimp only
      rw [List.length_append, List.length_singleton]
      omega
    | write o v =>
      simp only [step] at hs
      split at hs
      · cases hs; exact ih hsz
      · simp at hs
    | drop o =>
      simp only [step] at hs
      split at hs
      · rename_i ho
        cases hs
        rw [(release_spec pr _ o).2.2.2.2.2.1] at hsz
        have ih := ih hsz
        refine hrel { s with held := s.held.erase o } o hI' rfl hsz ?_
        have h1 : busy { s with held := s.held.erase o } = busy s := rfl
        have h2 : (s.held.erase o).length + 1 = s.held.length := by
          rw [List.length_erase_of_mem ho]
          have := List.length_pos_of_mem ho
          omega
        rw [h1]
        dsimp only
        omega
      · simp at hs
    | forward e x o =>
      simp only [step] at hs
      split at hs
      · rename_i hg
        obtain ⟨ho, hx⟩ := hg
        split at hs
        · simp at hs
        · rename_i p' hp
          cases hs
          have ih := ih hsz
          obtain ⟨g, hc⟩ := calls_produce hp
          have hfresh : (⟨g, e.part, .user x⟩ : Out) ∉ s.pool.calls := fun hin => hx _ hin rfl
          have hnr : (⟨g, e.part, .user x⟩ : Out) ∉ s.released := fun h =>
            hfresh ((sent_nodup hn hpool I.calls).2 _ (released_sent I _ h))
          have hb2 := congrArg List.length (busy_fresh (o := o) (v := s.data o) hnr)
          rw [List.length_append, List.length_singleton] at hb2
          have h2 : (s.held.erase o).length + 1 = s.held.length := by
            rw [List.length_erase_of_mem ho]
            have := List.length_pos_of_mem ho
            omega
          unfold busy
          dsimp only
          rw [newCalls_one hc]
          simp only [List.map_cons, List.map_nil]
          rw [hb2]
          omega
      · simp at hs
    | ack i =>
      have hs' := hs
      simp only [step] at hs
      split at hs
      · simp at hs
      · rename_i out hout
        split at hs
        · simp at hs
        · split at hs
          · simp at hs
          · rename_i hni xo hfind
            cases hs
            rw [(release_spec pr _ _).2.2.2.2.2.1] at hsz
            have ih := ih hsz
            have hx1 : xo.1 = out := by simpa using List.find?_some hfind
            have hxm : xo ∈ s.objs := List.mem_of_find?_eq_some hfind
            have hnr : out ∉ s.released := by
              have hnd := released_nodup hn (reach_pool (Reach.step (.ack i) hr hl hs')) hI'
              rw [(release_spec pr _ _).2.2.2.1, List.nodup_append] at hnd
              exact fun hin => hnd.2.2 _ hin _ (by simp) rfl
            refine hrel { s with acked := s.acked ++ [i], released := s.released ++ [out] } xo.2.1 hI' rfl hsz ?_
            have hp := (busy_ack hxm hx1 hnr (by rw [I.objs]; exact I.calls)).length_eq
            rw [List.length_append, List.length_singleton] at hp
            have h1 : busy { s with acked := s.acked ++ [i], released := s.released ++ [out] } =
              (s.objs.filter fun x => x.1 ∉ s.released ++ [out]).map fun x => x.2.1 := rfl
            rw [h1]
            dsimp only
            omega

/-! ### Everything is released when the transaction has ended -/

theorem all_released {c : Cfg} (hn : 0 < c.poolSize) {pr : Prm} {s : St} (h : Reach c pr s) {g : Nat}
    (hg : g ∈ s.pool.ended.map Prod.fst) : ∀ out ∈ s.pool.calls, out.gen = g → out ∈ s.released := by
  induction h with
  | init => simp [St.init, Pool.init] at hg
  | @step s s' a hr hl hs ih =>
    have I := inv_reach hn hr
    have hpool := reach_pool hr
    have quiet : ∀ {l : Label} {p' : Pool}, l ≠ .commitFail true → (∀ o, l ≠ .endTxn o) → Eos.step c s.pool l = some p' →
        g ∈ p'.ended.map Prod.fst → ∀ out ∈ p'.calls, out.gen = g → out ∈ s.released := by
      intro l p' hl' hne hp hg' out ho hog
      have hend : p'.ended = s.pool.ended := by
        rcases Marks.ended_step hp with ⟨h, _⟩ | ⟨_, _, o, h, _⟩
        · exact h
        · exact absurd h (hne o)
      rw [hend] at hg'
      obtain ⟨a, ha, r⟩ := sim_reach hn hpool
      obtain ⟨a', h2, r'⟩ := sim_step hn l hl' (base_reach hn ha) (order_reach hn ha) r hp
      have hf := (frozen l (base_reach hn ha) (fin_reach hn ha) h2 (g := g) (by rw [← r.ended]; exact hg')).1
      rw [← r.calls, ← r'.calls] at hf
      have : out ∈ s.pool.calls.filter fun o => o.gen = g := by rw [← hf]; exact List.mem_filter.2 ⟨ho, by simpa using hog⟩
      exact ih hg' out (List.mem_filter.1 this).1 hog
    cases a with
    | pool l =>
      have hl' : l ≠ .commitFail true := fun e => hl (by rw [e])
      have hs0 := hs
      simp only [step] at hs
      split at hs
      · simp at hs
      · split at hs
        · simp at hs
        · rename_i p' hp
          split at hs
          · cases hs; exact quiet hl' (by simp) hp hg
          · cases hs; dsimp only at hg ⊢; rw [(borrow_spec s).2.2.2.1]; exact quiet hl' (by simp) hp hg
      · rename_i order
        split at hs
        · rename_i p cur fl rest hcom
          split at hs
          · rename_i hflush
            rw [Option.map_eq_some_iff] at hs
            obtain ⟨p', hp, rfl⟩ := hs
            dsimp only at hg ⊢
            have hcalls := calls_step hp (by simp) (by simp)
            have hr' := reach_pool (Reach.step _ hr hl hs0)
            rcases Marks.ended_step hp with ⟨_, h⟩ | ⟨q, f, o, _, hc, he⟩
            · exact absurd rfl (h order)
            · by_cases hold : g ∈ s.pool.ended.map Prod.fst
              · rw [hcalls]; exact ih hold
              · rw [he, List.map_append, List.mem_append] at hg
                have hgq : g = s.pool.nodeGen p := by
                  rw [hcom] at hc
                  cases hc
                  simpa using hg.resolve_left hold
                intro out ho hog
                have hsent : p'.sent = s.pool.sent := by
                  unfold Eos.step at hp
                  simp only at hp
                  split at hp
                  · split at hp
                    · cases hp; rfl
                    · simp at hp
                  · simp at hp
                have h1 : out ∈ ofTp p'.calls g out.part := mem_ofTp.2 ⟨ho, hog, rfl⟩
                have hg2 : g ∈ p'.ended.map Prod.fst := by rw [he, List.map_append, List.mem_append]; exact hg
                rw [← ended_sent hn hr' hg2, hsent] at h1
                have h2 := (mem_ofTp.1 h1).1
                obtain ⟨i, hi, hie⟩ := List.getElem_of_mem h2
                have hq : s.pool.sent[i]? = some out := by rw [List.getElem?_eq_getElem hi, hie]
                have hack := hflush i (List.mem_range.2 hi) (by rw [hq]; simp [hog, hgq])
                have : s.pool.sent[i]? ∈ s.released.map some := by
                  rw [← I.acks]; exact List.mem_map.2 ⟨i, hack, rfl⟩
                rw [hq] at this
                obtain ⟨w, hw, e⟩ := List.mem_map.1 this
                cases e; exact hw
          · simp at hs
        · simp at hs
      · rename_i h1 h2 h3
        rw [Option.map_eq_some_iff] at hs
        obtain ⟨p', hp, rfl⟩ := hs
        exact quiet hl' (fun o e => h3 o e) hp hg
    | new =>
      cases hs
      obtain ⟨b1, b2, b3, b4, b5, _⟩ := borrow_spec s
      dsimp only at hg ⊢
      rw [b4]; rw [b5] at hg ⊢; exact ih hg
    | write o v =>
      simp only [step] at hs
      split at hs
      · cases hs; exact ih hg
      · simp at hs
    | drop o =>
      simp only [step] at hs
      split at hs
      · cases hs
        obtain ⟨h1, h2, h3, h4, h5, h6, h7⟩ := release_spec pr { s with held := s.held.erase o } o
        rw [h5] at hg ⊢; rw [h4]; exact ih hg
      · simp at hs
    | forward e x o =>
      simp only [step] at hs
      split at hs
      · split at hs
        · simp at hs
        · rename_i p' hp
          cases hs
          exact quiet (by simp) (by simp) hp hg
      · simp at hs
    | ack i =>
      simp only [step] at hs
      split at hs
      · simp at hs
      · rename_i out _
        split at hs
        · simp at hs
        · split at hs
          · simp at hs
          · rename_i xo _
            cases hs
            obtain ⟨h1, h2, h3, h4, h5, h6, h7⟩ := release_spec pr { s with acked := s.acked ++ [i], released := s.released ++ [out] } xo.2.1
            rw [h5] at hg ⊢; rw [h4]
            exact fun o ho hog => List.mem_append_left _ (ih hg o ho hog)

end Verif.Recycle

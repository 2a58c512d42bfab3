import Verif.Live.Model
import Verif.Eos.Abstract
/-
How a worker and the pool come to wait for each other when there are interjections.
-/
set_option linter.unusedSimpArgs false
namespace Verif.Live
open Verif.Eos

/-- Everything but failures. -/
def NoFail : Label → Prop
  | .pool (.commitFail _) => False
  | .pool .asyncFail => False
  | _ => True

/-- What can come after `s` if Kafka never fails. -/
inductive Later (c : Cfg) (s : Sys) : Sys → Prop where
  | refl : Later c s s
  | step {s' s'' : Sys} (l : Label) : Later c s s' → NoFail l → step c s' l = some s'' → Later c s s''

/-- A worker has only events of its partition. -/
structure Home (s : Sys) : Prop where
  ids : (s.arrived.map Ev.id).Nodup
  putting : ∀ q e, s.putting q = some e → e ∈ s.arrived ∧ e.part = q
  evq : ∀ q, ∀ e ∈ s.evq q, e ∈ s.arrived ∧ e.part = q
  ijq : ∀ q, ∀ e ∈ s.ijq q, e ∈ s.arrived ∧ e.part = q
  cur : ∀ q e, s.cur q = some e → e ∈ s.arrived ∧ e.part = q

theorem home_init (c : Cfg) : Home (Sys.init c) := by
  refine ⟨?_, ?_, ?_, ?_, ?_⟩ <;> simp [Sys.init]

theorem home_step {c : Cfg} {s s' : Sys} {l : Label} (H : Home s) (h : step c s l = some s') : Home s' := by
  cases l with
  | arrive e =>
    simp only [step] at h
    split at h
    · cases h
    rename_i hn
    rw [not_or, not_not] at hn
    cases h
    have mono : ∀ {x : Ev} {q : Nat}, x ∈ s.arrived ∧ x.part = q → x ∈ s.arrived ++ [e] ∧ x.part = q :=
      fun h => ⟨List.mem_append.2 (.inl h.1), h.2⟩
    refine ⟨?_, ?_, fun q x hx => mono (H.evq q x hx), fun q x hx => mono (H.ijq q x hx), fun q x hx => mono (H.cur q x hx)⟩
    · dsimp only
      rw [List.map_append, List.nodup_append]
      refine ⟨H.ids, by simp, ?_⟩
      intro a h1 b h2 he
      simp at h2
      rw [he, h2] at h1
      exact hn.1 h1
    · intro q x hx
      dsimp only at hx
      by_cases hq : q = e.part
      · subst hq
        rw [upd_same] at hx
        cases hx
        exact ⟨by simp, rfl⟩
      · rw [upd_ne _ _ hq] at hx
        exact mono (H.putting q x hx)
  | put p =>
    simp only [step] at h
    split at h
    · rename_i e he
      have he' := H.putting p e he
      have hput : ∀ q x, upd s.putting p none q = some x → x ∈ s.arrived ∧ x.part = q := by
        intro q x hx
        by_cases hq : q = p
        · subst hq; rw [upd_same] at hx; cases hx
        · rw [upd_ne _ _ hq] at hx; exact H.putting q x hx
      split at h
      · split at h
        · cases h
          refine ⟨H.ids, hput, H.evq, ?_, H.cur⟩
          intro q x hx
          dsimp only at hx
          by_cases hq : q = p
          · subst hq; rw [upd_same] at hx
            rcases List.mem_append.1 hx with h | h
            · exact H.ijq q x h
            · rw [List.mem_singleton.1 h]; exact he'
          · rw [upd_ne _ _ hq] at hx; exact H.ijq q x hx
        · cases h
      · split at h
        · cases h
          refine ⟨H.ids, hput, ?_, H.ijq, H.cur⟩
          intro q x hx
          dsimp only at hx
          by_cases hq : q = p
          · subst hq; rw [upd_same] at hx
            rcases List.mem_append.1 hx with h | h
            · exact H.evq q x h
            · rw [List.mem_singleton.1 h]; exact he'
          · rw [upd_ne _ _ hq] at hx; exact H.evq q x hx
        · cases h
    · cases h
  | forward =>
    simp only [step] at h
    split at h
    · rw [Option.map_eq_some_iff] at h
      obtain ⟨pool, _, rfl⟩ := h
      exact ⟨H.ids, H.putting, H.evq, H.ijq, H.cur⟩
    · cases h
  | pool l =>
    simp only [step] at h
    split at h
    · rw [Option.map_eq_some_iff] at h
      obtain ⟨pool, _, rfl⟩ := h
      exact ⟨H.ids, H.putting, H.evq, H.ijq, H.cur⟩
    · cases h
  | pick p =>
    simp only [step] at h
    split at h
    · rename_i e q hc hq
      cases h
      refine ⟨H.ids, H.putting, ?_, H.ijq, ?_⟩
      · intro r x hx
        dsimp only at hx
        by_cases hr : r = p
        · subst hr; rw [upd_same] at hx; exact H.evq r x (by rw [hq]; exact List.mem_cons_of_mem _ hx)
        · rw [upd_ne _ _ hr] at hx; exact H.evq r x hx
      · intro r x hx
        dsimp only at hx
        by_cases hr : r = p
        · subst hr; rw [upd_same] at hx; cases hx; exact H.evq r _ (by rw [hq]; simp)
        · rw [upd_ne _ _ hr] at hx; exact H.cur r x hx
    · cases h
  | pickInter p =>
    simp only [step] at h
    split at h
    · rename_i e q hc hq
      cases h
      refine ⟨H.ids, H.putting, H.evq, ?_, ?_⟩
      · intro r x hx
        dsimp only at hx
        by_cases hr : r = p
        · subst hr; rw [upd_same] at hx; exact H.ijq r x (by rw [hq]; exact List.mem_cons_of_mem _ hx)
        · rw [upd_ne _ _ hr] at hx; exact H.ijq r x hx
      · intro r x hx
        dsimp only at hx
        by_cases hr : r = p
        · subst hr; rw [upd_same] at hx; cases hx; exact H.ijq r _ (by rw [hq]; simp)
        · rw [upd_ne _ _ hr] at hx; exact H.cur r x hx
    · cases h
  | handle p ok =>
    have hcur : ∀ q x, upd s.cur p none q = some x → x ∈ s.arrived ∧ x.part = q := by
      intro q x hx
      by_cases hq : q = p
      · subst hq; rw [upd_same] at hx; cases hx
      · rw [upd_ne _ _ hq] at hx; exact H.cur q x hx
    simp only [step] at h
    split at h
    · split at h
      · cases h
      · split at h
        · rw [Option.map_eq_some_iff] at h
          obtain ⟨pool, _, rfl⟩ := h
          exact ⟨H.ids, H.putting, H.evq, H.ijq, hcur⟩
        · cases h
          exact ⟨H.ids, H.putting, H.evq, H.ijq, hcur⟩
    · cases h
  | finish e =>
    simp only [step] at h
    split at h
    · rw [Option.map_eq_some_iff] at h
      obtain ⟨pool, _, rfl⟩ := h
      exact ⟨H.ids, H.putting, H.evq, H.ijq, H.cur⟩
    · cases h

theorem home_run {c : Cfg} {ls : List Label} {s s' : Sys} (H : Home s) (h : run c s ls = some s') : Home s' := by
  induction ls generalizing s with
  | nil => cases h; exact H
  | cons l ls ih =>
    simp only [run] at h
    cases hs : step c s l with
    | none => rw [hs] at h; cases h
    | some s1 => rw [hs] at h; exact ih (home_step H hs) h

/-- The commit waits for `e`, the forwarding loop waits for the commit, and the worker of `e` waits for a producer for `i`. -/
structure Stuck (c : Cfg) (e i : Ev) (en : List (Nat × Bool)) (s : Sys) : Prop where
  home : Home s
  fwd : s.pool.fwd = .force
  cq : c.pool.pending ≤ s.pool.cq.length
  com : ∃ p es flag rest, s.pool.com = .fin p (e :: es) flag rest
  cur : s.cur e.part = some i
  asg : s.pool.asg i.id = none
  arr : e ∈ s.arrived
  ne : i.id ≠ e.id
  put : s.putting e.part ≠ some e
  ij : e ∉ s.ijq e.part
  pend : ∀ x ∈ s.pend, x.id ≠ e.id
  nd : e.id ∉ s.pool.done
  en : s.pool.ended = en

instance (e : Ev) (s : Sys) : Decidable (∃ p es flag rest, s.pool.com = .fin p (e :: es) flag rest) :=
  match h : s.pool.com with
  | .fin p (e' :: es) flag rest => if he : e' = e then isTrue ⟨p, es, flag, rest, by rw [he]⟩ else isFalse (by rintro ⟨_, _, _, _, h⟩; cases h; exact he rfl)
  | .fin p [] flag rest => isFalse (by rintro ⟨_, _, _, _, h⟩; cases h)
  | .idle => isFalse (by rintro ⟨_, _, _, _, h⟩; cases h)
  | .begun _ => isFalse (by rintro ⟨_, _, _, _, h⟩; cases h)
  | .relinq _ _ => isFalse (by rintro ⟨_, _, _, _, h⟩; cases h)
  | .back _ => isFalse (by rintro ⟨_, _, _, _, h⟩; cases h)
  | .stopped => isFalse (by rintro ⟨_, _, _, _, h⟩; cases h)

/-- What remains possible leaves the knot as it is. -/
theorem pool_stuck {c : Eos.Cfg} {s s' : Pool} {l : Eos.Label} {e : Ev} {p : Nat} {es : List Ev} {flag : Bool} {rest : List Nat}
    (hf : s.fwd = .force) (hq : c.pending ≤ s.cq.length) (hc : s.com = .fin p (e :: es) flag rest) (hd : e.id ∉ s.done)
    (n1 : ∀ b, l ≠ .commitFail b) (h : Eos.step c s l = some s') :
    s'.fwd = .force ∧ s'.cq = s.cq ∧ s'.com = s.com ∧ s'.asg = s.asg ∧ s'.ended = s.ended ∧
      (s'.done = s.done ∨ ∃ x, l = .complete x ∧ s'.done = s.done ++ [x.id]) := by
  have pr : ∀ (p tp : Nat) (r : Rec), (produce s p tp r).fwd = s.fwd ∧ (produce s p tp r).cq = s.cq ∧ (produce s p tp r).com = s.com ∧
      (produce s p tp r).asg = s.asg ∧ (produce s p tp r).ended = s.ended ∧ (produce s p tp r).done = s.done := by
    intro p tp r; unfold produce; dsimp only; split <;> exact ⟨rfl, rfl, rfl, rfl, rfl, rfl⟩
  cases l with
  | commitFail b => exact absurd rfl (n1 b)
  | wait => simp [Eos.step, hc, hd] at h
  | forced => simp [Eos.step, hf, Nat.not_lt.2 hq] at h
  | produce x y =>
    unfold Eos.step at h
    simp only at h
    split at h
    · split at h
      · cases h
        obtain ⟨a1, a2, a3, a4, a5, a6⟩ := pr ‹Nat› x.part (.user y)
        exact ⟨a1.trans hf, a2, a3, a4, a5, .inl a6⟩
      · cases h
    · cases h
  | complete x =>
    unfold Eos.step at h
    simp only at h
    split at h
    · split at h
      · cases h
        exact ⟨hf, rfl, rfl, rfl, rfl, .inr ⟨x, rfl, rfl⟩⟩
      · cases h
    · cases h
  | _ => simp [Eos.step, hc, hf] at h

theorem home_eq {s : Sys} (H : Home s) {e x : Ev} (he : e ∈ s.arrived) (hx : x ∈ s.arrived) (h : x.id = e.id) : x = e :=
  List.inj_on_of_nodup_map H.ids hx he h

theorem stuck_step {c : Cfg} {e i : Ev} {en : List (Nat × Bool)} {s s' : Sys} {l : Label} (S : Stuck c e i en s) (hl : NoFail l)
    (h : step c s l = some s') : Stuck c e i en s' := by
  have H' := home_step S.home h
  obtain ⟨p0, es, flag, rest, hcom⟩ := S.com
  cases l with
  | arrive x =>
    simp only [step] at h
    split at h
    · cases h
    rename_i hn
    rw [not_or, not_not] at hn
    cases h
    refine { S with home := H', arr := List.mem_append.2 (.inl S.arr), put := ?_ }
    dsimp only
    by_cases hq : e.part = x.part
    · rw [hq, upd_same]
      intro hc
      cases hc
      exact hn.1 (List.mem_map_of_mem S.arr)
    · rw [upd_ne _ _ hq]; exact S.put
  | put p =>
    simp only [step] at h
    split at h
    · rename_i x hx
      have hput : upd s.putting p none e.part ≠ some e := by
        by_cases hq : e.part = p
        · rw [hq, upd_same]; simp
        · rw [upd_ne _ _ hq]; exact S.put
      split at h
      · split at h
        · cases h
          refine { S with home := H', put := hput, ij := ?_ }
          dsimp only
          by_cases hq : e.part = p
          · subst hq
            rw [upd_same]
            intro hc
            rcases List.mem_append.1 hc with h | h
            · exact S.ij h
            · exact S.put (by rw [List.mem_singleton.1 h] at hx ⊢; exact hx)
          · rw [upd_ne _ _ hq]; exact S.ij
        · cases h
      · split at h
        · cases h
          exact { S with home := H', put := hput }
        · cases h
    · cases h
  | forward =>
    simp only [step] at h
    split at h
    · rw [Option.map_eq_some_iff] at h
      obtain ⟨pool, hp, rfl⟩ := h
      simp [Eos.step, S.fwd] at hp
    · cases h
  | pool l =>
    simp only [step] at h
    split at h
    · rename_i ho
      rw [Option.map_eq_some_iff] at h
      obtain ⟨pool, hp, rfl⟩ := h
      have n1 : ∀ b, l ≠ .commitFail b := by rintro b rfl; exact hl
      obtain ⟨a1, a2, a3, a4, a5, a6⟩ := pool_stuck S.fwd S.cq hcom S.nd n1 hp
      refine { S with home := H', fwd := a1, cq := ?_, com := ?_, asg := ?_, nd := ?_, en := a5.trans S.en }
      · dsimp only; rw [a2]; exact S.cq
      · dsimp only; rw [a3]; exact S.com
      · dsimp only; rw [a4]; exact S.asg
      · dsimp only
        rcases a6 with a6 | ⟨x, rfl, _⟩
        · rw [a6]; exact S.nd
        · cases ho
    · cases h
  | pick p =>
    simp only [step] at h
    split at h
    · rename_i x q hc hq
      cases h
      have hp : e.part ≠ p := by rintro rfl; rw [S.cur] at hc; cases hc
      refine { S with home := H', cur := ?_ }
      dsimp only
      rw [upd_ne _ _ hp]; exact S.cur
    · cases h
  | pickInter p =>
    simp only [step] at h
    split at h
    · rename_i x q hc hq
      cases h
      have hp : e.part ≠ p := by rintro rfl; rw [S.cur] at hc; cases hc
      refine { S with home := H', cur := ?_, ij := ?_ }
      · dsimp only; rw [upd_ne _ _ hp]; exact S.cur
      · dsimp only; rw [upd_ne _ _ hp]; exact S.ij
    · cases h
  | handle p ok =>
    simp only [step] at h
    split at h
    · rename_i x hc
      split at h
      · cases h
      rename_i hasg
      have hp : e.part ≠ p := by
        rintro rfl
        rw [S.cur] at hc; cases hc
        exact hasg S.asg
      have hx : x.id ≠ e.id := by
        intro hid
        obtain ⟨m1, m2⟩ := S.home.cur p x hc
        rw [home_eq S.home S.arr m1 hid] at m2
        exact hp m2
      have hcur : upd s.cur p none e.part = some i := by rw [upd_ne _ _ hp]; exact S.cur
      split at h
      · rw [Option.map_eq_some_iff] at h
        obtain ⟨pool, hp, rfl⟩ := h
        obtain ⟨a1, a2, a3, a4, a5, a6⟩ := pool_stuck S.fwd S.cq hcom S.nd (by simp) hp
        refine { S with home := H', fwd := a1, cq := ?_, com := ?_, asg := ?_, cur := hcur, nd := ?_, en := a5.trans S.en }
        · dsimp only; rw [a2]; exact S.cq
        · dsimp only; rw [a3]; exact S.com
        · dsimp only; rw [a4]; exact S.asg
        · dsimp only
          rcases a6 with a6 | ⟨y, hy, a6⟩
          · rw [a6]; exact S.nd
          · cases hy
            rw [a6]
            simp only [List.mem_append, List.mem_singleton, not_or]
            exact ⟨S.nd, fun h => hx h.symm⟩
      · cases h
        refine { S with home := H', cur := hcur, pend := ?_ }
        intro y hy
        rcases List.mem_append.1 hy with h | h
        · exact S.pend y h
        · rw [List.mem_singleton.1 h]; exact hx
    · cases h
  | finish x =>
    simp only [step] at h
    split at h
    · rename_i hpe
      rw [Option.map_eq_some_iff] at h
      obtain ⟨pool, hp, rfl⟩ := h
      have hx := S.pend x hpe
      obtain ⟨a1, a2, a3, a4, a5, a6⟩ := pool_stuck S.fwd S.cq hcom S.nd (by simp) hp
      refine { S with home := H', fwd := a1, cq := ?_, com := ?_, asg := ?_, pend := ?_, nd := ?_, en := a5.trans S.en }
      · dsimp only; rw [a2]; exact S.cq
      · dsimp only; rw [a3]; exact S.com
      · dsimp only; rw [a4]; exact S.asg
      · intro y hy; exact S.pend y (List.mem_of_mem_erase hy)
      · dsimp only
        rcases a6 with a6 | ⟨y, hy, a6⟩
        · rw [a6]; exact S.nd
        · cases hy
          rw [a6]
          simp only [List.mem_append, List.mem_singleton, not_or]
          exact ⟨S.nd, fun h => hx h.symm⟩
    · cases h

theorem stuck_later {c : Cfg} {e i : Ev} {en : List (Nat × Bool)} {s s' : Sys} (S : Stuck c e i en s) (h : Later c s s') : Stuck c e i en s' := by
  induction h with
  | refl => exact S
  | step l _ hl hs ih => exact stuck_step ih hl hs

/-- The part of `Stuck` that can be looked up. -/
def StuckAt (c : Cfg) (e i : Ev) (s : Sys) : Prop :=
  s.pool.fwd = .force ∧ c.pool.pending ≤ s.pool.cq.length ∧ (∃ p es flag rest, s.pool.com = .fin p (e :: es) flag rest) ∧
  s.cur e.part = some i ∧ s.pool.asg i.id = none ∧ e ∈ s.arrived ∧ i.id ≠ e.id ∧ s.putting e.part ≠ some e ∧ e ∉ s.ijq e.part ∧
  (∀ x ∈ s.pend, x.id ≠ e.id) ∧ e.id ∉ s.pool.done

instance (c : Cfg) (e i : Ev) (s : Sys) : Decidable (StuckAt c e i s) := by unfold StuckAt; infer_instance

theorem stuck_of {c : Cfg} {e i : Ev} {s : Sys} (H : Home s) (h : StuckAt c e i s) : Stuck c e i s.pool.ended s := by
  obtain ⟨h1, h2, h3, h4, h5, h6, h7, h8, h9, h10, h11⟩ := h
  exact ⟨H, h1, h2, h3, h4, h5, h6, h7, h8, h9, h10, h11, rfl⟩

end Verif.Live

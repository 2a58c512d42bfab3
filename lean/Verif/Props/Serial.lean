import Verif.Serial.Order
/-
C119: all work for a key of an `AsyncJobScheduler` is ordered, and jobs are handed on without data races.
-/
namespace Verif.Props.Serial
open Verif.Serial

/-- **C119**. In every execution, of any number of partition workers, keys, jobs and goroutines of the pool: of two accesses to the memory of the same key by the processing function, to the same job, to the same queue or to the fields of the scheduler, the earlier
one happens before the later one, also if both only read. So the processing function needs no locks for what belongs to a key. -/
theorem C119_in_order (s : St) (hs : Reach s) (i j : Nat) (g g' : Gor) (L : Loc) (w w' : Bool) (hij : i < j) (hi : s.tr[i]? = some (.acc g L w)) (hj : s.tr[j]? = some (.acc g' L w')) : Before s.tr i j := by
  have M := mi_reach hs
  cases L with
  | shared => exact M.lo.2 i j _ _ hij hi hj (by simp [Op.at]) (by simp [Op.at])
  | head v => exact (M.hd v).2 i j _ _ hij hi hj (by simp [Op.at]) (by simp [Op.at])
  | key k => exact (M.ky k).2 i j _ _ hij hi hj (by simp [Op.at]) (by simp [Op.at])
  | job k => exact (M.jb k (M.fr _ (List.mem_of_getElem? hi) k (by simp [Op.at]))).2 i j _ _ hij hi hj (by simp [Op.at]) (by simp [Op.at])

/-- **C119**. In every execution, no two accesses are a data race. -/
theorem C119_race_free (s : St) (hs : Reach s) (i j : Nat) : ¬ RaceAt s.tr i j := by
  intro ⟨a, b, hi, hj, hne, hc, h1, h2⟩
  cases a <;> cases b <;> try exact hc.elim
  obtain ⟨rfl, _⟩ := hc
  rcases Nat.lt_or_gt_of_ne hne with h | h
  · exact h1 (C119_in_order s hs i j _ _ _ _ _ h hi hj)
  · exact h2 (C119_in_order s hs j i _ _ _ _ _ h hj hi)

/-- **C119**. In every execution messages are received after they were sent, and sent once; so the order used above is that of the Go memory model. -/
theorem C119_orderly (s : St) (hs : Reach s) : Orderly s.tr := (ni_reach hs).ord

/-- **C119**. In every state, at most one goroutine of the pool is between seeing a job of a key and having dequeued it: two jobs of the same key that are being processed are the same job, of the same worker, with the same goroutine. -/
theorem C119_alone (s : St) (hs : Reach s) (w w' g g' j j' : Nat) (hw : s.wst w = .held g) (hp : s.ph w = .busy j) (hw' : s.wst w' = .held g') (hp' : s.ph w' = .busy j') (hk : s.jk j = s.jk j') : w = w' ∧ g = g' ∧ j = j' := by
  have I := si_reach hs
  have key : ∀ w g j, s.wst w = .held g → s.ph w = .busy j → s.map (s.jk j) = some w := fun w g j h1 h2 => by
    rw [(I.c1 w j (I.d w j (I.f w j h2).1).1).1]
    exact I.a2 w (by rw [h1]; simp)
  have h1 := key w g j hw hp
  rw [hk, key w' g' j' hw' hp'] at h1
  simp only [Option.some.injEq] at h1
  subst h1
  rw [hw] at hw'
  rw [hp] at hp'
  cases hw'
  cases hp'
  exact ⟨rfl, rfl, rfl⟩

/-- Two partition workers, three jobs for one key, one of which waits for room, and a job for another key; two goroutines of the pool, which process the key in turn. -/
def acts : List Act :=
  [.make 0 7, .make 1 7, .make 0 7, .make 1 8, .add 0 0 false, .add 1 5 false, .add 2 5 true, .add 3 1 false, .enq 0, .enq 1, .take 0 0, .take 1 1, .peek 0, .peek 1, .proc 0, .proc 1, .adv 0, .adv 1, .comp 0, .comp 1, .block 2, .rel 0, .rel 1, .enq 0,
    .take 1 0, .peek 0, .fin 0, .proc 0, .use 0, .adv 0, .comp 0, .rel 0, .enq 0, .take 0 0, .peek 0, .proc 0, .adv 0, .comp 0, .rel 0, .fin 1, .fin 2, .use 2]

/-- The accesses to key 7 in that run: places in the trace and goroutines. -/
def keyAt (tr : List Op) (k : Nat) : List (Nat × Gor) :=
  (tr.zipIdx).filterMap fun | (.acc g (.key k') _, i) => if k' = k then some (i, g) else none | _ => none

example : ∃ s, run St.init acts = some s ∧ Reach s ∧ keyAt s.tr 7 = [(40, .pool 0), (72, .pool 1), (91, .pool 0)] ∧ Before s.tr 40 72 ∧ Before s.tr 72 91 ∧ (s.mem 0, s.map 7) = ([], none) := by
  have h : ∃ s, run St.init acts = some s ∧ keyAt s.tr 7 = [(40, .pool 0), (72, .pool 1), (91, .pool 0)] ∧ s.tr[40]? = some (.acc (.pool 0) (.key 7) true) ∧ s.tr[72]? = some (.acc (.pool 1) (.key 7) true) ∧ s.tr[91]? = some (.acc (.pool 0) (.key 7) true) ∧
      (s.mem 0, s.map 7) = ([], none) := ⟨_, rfl, by decide +kernel, by decide +kernel, by decide +kernel, by decide +kernel, by decide +kernel⟩
  obtain ⟨s, h1, h2, h3, h4, h5, h6⟩ := h
  have hr := reach_run .init acts h1
  exact ⟨s, h1, hr, h2, C119_in_order s hr 40 72 _ _ _ _ _ (by omega) h3 h4, C119_in_order s hr 72 91 _ _ _ _ _ (by omega) h4 h5, h6⟩

example : ∃ s, run St.init (acts.take 14) = some s ∧ s.wst 0 = .held 0 ∧ s.ph 0 = .busy 0 ∧ s.wst 1 = .held 1 ∧ s.ph 1 = .busy 3 ∧ s.mem 0 = [0, 1, 2] := ⟨_, rfl, by decide +kernel, by decide +kernel, by decide +kernel, by decide +kernel, by decide +kernel⟩

/-- Two jobs for one key; the second one is processed while the finalizer of the first one runs. -/
def actsFin : List Act :=
  [.make 0 7, .make 0 7, .add 0 0 false, .add 1 0 false, .enq 0, .take 0 0, .peek 0, .proc 0, .adv 0, .comp 0, .rel 0, .fin 0, .enq 0, .take 0 0, .peek 0, .proc 0]

/-- Only the processing functions are the single writer of C119: were a finalizer to use the memory of its key as well, this would be a data race with the processing of the next job for this key. -/
theorem C119_condition_needed : ∃ s, Reach s ∧ s.jst 0 = .fin ∧ s.jk 0 = 7 ∧ ∃ i j, RaceAt (s.tr ++ [.acc (.work (s.own 0)) (.key (s.jk 0)) true]) i j := by
  have h : ∃ s, run St.init actsFin = some s ∧ s.jst 0 = .fin ∧ s.jk 0 = 7 ∧ s.own 0 = 0 ∧ s.tr.length = 41 ∧ s.tr[40]? = some (.acc (.pool 0) (.key 7) true) := ⟨_, rfl, by decide +kernel, by decide +kernel, by decide +kernel, by decide +kernel, by decide +kernel⟩
  obtain ⟨s, h1, h2, h3, h4, h5, h6⟩ := h
  have e1 : (s.tr ++ [Op.acc (.work 0) (.key 7) true])[40]? = some (.acc (.pool 0) (.key 7) true) := get_left h6
  have e2 : (s.tr ++ [Op.acc (.work 0) (.key 7) true])[41]? = some (.acc (.work 0) (.key 7) true) := by rw [← h5]; simp
  refine ⟨s, reach_run .init actsFin h1, h2, h3, 40, 41, .acc (.pool 0) (.key 7) true, .acc (.work 0) (.key 7) true, by rw [h4, h3]; exact e1, by rw [h4, h3]; exact e2, by omega, ⟨rfl, .inl rfl⟩, ?_, fun h => by have := h.lt; omega⟩
  rw [h4, h3]
  refine not_before e1 (fun q o hq ho => ?_) 41
  have : q = 41 := by
    have := lt_of_get ho
    simp only [List.length_append, List.length_singleton, h5] at this
    omega
  subst this
  rw [e2] at ho
  cases ho
  simp [Op.gor]

end Verif.Props.Serial

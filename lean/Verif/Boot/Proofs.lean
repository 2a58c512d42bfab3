import Verif.Boot.Model
/-
Proofs for C107.
-/
set_option linter.unusedSectionVars false
set_option linter.unusedSimpArgs false
set_option linter.unusedVariables false
namespace Verif.Boot

/-- The places of `NewEventSource` in their order (`streams/event_source.go:67-90`). -/
def rank : At → Nat
  | .source => 0
  | .log => 1
  | .client => 2
  | .pool => 3
  | .balancer => 4
  | .stores => 5
  | .check => 6
  | .back _ => 7
  | .consuming => 8

structure Inv (incr : Bool) (s : S) : Prop where
  joined : s.joined = true → s.failed = false ∧ 3 ≤ rank s.pc ∧ s.pc ≠ .back true
  quiet : s.joined = false → s.cb = .none ∧ s.workers = []
  failed : s.pc = .back true → s.failed = true ∧ s.consumer = false ∧ s.pool = s.stores
  ok : s.pc = .back false ∨ s.pc = .consuming → s.joined = true
  early : rank s.pc ≤ 2 → s.joined = false ∧ s.failed = false
  pool : s.pc ≠ .back true → s.pool = decide (4 ≤ rank s.pc)
  balancer : s.pc ≠ .back true → s.balancer = (decide (5 ≤ rank s.pc) && incr)
  stores : s.pc ≠ .back true → s.stores = decide (6 ≤ rank s.pc)
  consumer : s.pc ≠ .back true → s.consumer = decide (7 ≤ rank s.pc)
  fl : 3 ≤ rank s.pc → s.failed = !s.joined
  cbs : (s.cb = .tell ∨ s.cb = .activate [] ∨ (∃ ps, s.cb = .make ps) ∨ s.workers ≠ []) → s.stores = true
  prefixes : ∀ w ∈ s.workers, w.ijs <+: s.ijs
  late : s.early = false → (s.cb ≠ .none ∨ s.workers ≠ []) → s.consumer = true
  crash : ∀ x, s.crash = some x → (x = .stores ∧ s.stores = false) ∨ (x = .consumer ∧ s.consumer = false ∧ s.workers ≠ []) ∨ (x = .balancer ∧ incr = false)
  crash' : s.crash ≠ none → s.joined = true ∧ (s.early = true ∨ incr = false)

theorem inv_init (incr : Bool) : Inv incr S.init := by
  constructor <;> simp [S.init, rank]

theorem inv_main {incr : Bool} {s s' : S} {ok : Bool} (I : Inv incr s) (hc : s.crash = none) (h : main incr s ok = some s') : Inv incr s' := by
  obtain ⟨h1, h2, h3, h4, h5, h6, h7, h8, h9, h10, h11, h12, h13, h14, h15⟩ := I
  unfold main at h
  cases hp : s.pc <;> rw [hp] at h <;> simp only [Option.some.injEq, reduceCtorEq] at h <;> subst h <;> simp only [hp, rank] at * <;> simp at *
  · cases ok <;> constructor <;> simp_all [rank]
  · constructor <;> simp_all [rank]
  · cases ok <;> constructor <;> simp_all [rank]
  · constructor <;> simp_all [rank]
  · constructor <;> simp_all [rank]
  · constructor <;> simp_all [rank]
  · cases hf : s.failed <;> constructor <;> simp_all [rank]

theorem inv_step {incr : Bool} {s s' : S} {a : Act} (I : Inv incr s) (h : step incr s a = some s') : Inv incr s' := by
  unfold step at h
  split at h
  · cases h
  · rename_i hc
    have hc' : s.crash = none := by simpa using hc
    cases a with
    | main ok => exact inv_main I hc' h
    | schedule ij =>
      simp only at h
      split at h
      · cases h
        exact { I with prefixes := fun w hw => (I.prefixes w hw).trans (List.prefix_append _ _) }
      · cases h
    | consume =>
      simp only at h
      split at h
      · rename_i hp
        cases h
        obtain ⟨h1, h2, h3, h4, h5, h6, h7, h8, h9, h10, h11, h12, h13, h14, h15⟩ := I
        constructor <;> simp_all [rank]
      · cases h
    | assigned ps =>
      simp only at h
      split at h
      · rename_i hp
        cases h
        have hj := I.joined hp.1
        refine { I with quiet := ?_, cbs := ?_, late := ?_, crash' := ?_ }
        · intro hq; simp only at hq; rw [hp.1] at hq; cases hq
        · rintro (h | h | ⟨x, h⟩ | h)
          · cases h
          · simp only [Cb.activate.injEq] at h; exact absurd h hp.2.2
          · cases h
          · exact I.cbs (Or.inr (Or.inr (Or.inr h)))
        · intro he hor
          simp only [Bool.or_eq_false_iff, Bool.not_eq_eq_eq_not, Bool.not_false, Bool.or_eq_true, decide_eq_true_eq] at he
          show s.consumer = true
          rw [I.consumer hj.2.2]
          rcases he.2 with he | he <;> rw [he] <;> simp [rank]
        · intro hx; exact absurd hc' hx
      · cases h
    | callback =>
      simp only at h
      unfold callback at h
      cases hcb : s.cb with
      | none => rw [hcb] at h; cases h
      | tell =>
        rw [hcb] at h
        simp only at h
        have hs := I.cbs (Or.inl hcb)
        have hj : s.joined = true := by
          by_contra hj
          have := (I.quiet (by simpa using hj)).1
          rw [hcb] at this; cases this
        split at h
        · cases h
          refine { I with quiet := ?_, cbs := ?_, late := ?_ }
          · intro hq; exact ⟨rfl, (I.quiet hq).2⟩
          · intro _; exact hs
          · intro he hor
            rcases hor with hor | hor
            · exact absurd rfl hor
            · exact I.late he (Or.inr hor)
        · rename_i hb
          cases h
          have hb' : s.balancer = false := by simpa using hb
          have hp := (I.joined hj).2.2
          have h8 := I.stores hp
          rw [hs] at h8
          have h7 := I.balancer hp
          rw [hb'] at h7
          have hr : 6 ≤ rank s.pc := by simpa using h8.symm
          have hincr : incr = false := by
            cases incr
            · rfl
            · simp at h7; omega
          refine { I with quiet := ?_, cbs := ?_, late := ?_, crash := ?_, crash' := ?_ }
          · intro hq; simp only at hq; rw [hj] at hq; cases hq
          · intro _; exact hs
          · intro he _; exact I.late he (Or.inl (by rw [hcb]; simp))
          · intro x hx; cases hx; exact Or.inr (Or.inr ⟨rfl, hincr⟩)
          · intro _; exact ⟨hj, Or.inr hincr⟩
      | activate ps =>
        rw [hcb] at h
        have hj : s.joined = true := by
          by_contra hj
          have := (I.quiet (by simpa using hj)).1
          rw [hcb] at this; cases this
        have hp := (I.joined hj).2.2
        cases ps with
        | nil =>
          simp only at h
          cases h
          have hs := I.cbs (Or.inr (Or.inl hcb))
          refine { I with quiet := ?_, cbs := ?_, late := ?_ }
          · intro hq; simp only at hq; rw [hj] at hq; cases hq
          · intro _; exact hs
          · intro he _; exact I.late he (Or.inl (by rw [hcb]; simp))
        | cons p ps =>
          simp only at h
          split at h
          · rename_i hm
            cases h
            have hw : s.workers ≠ [] := by rintro hw; rw [hw] at hm; simp at hm
            have hs := I.cbs (Or.inr (Or.inr (Or.inr hw)))
            refine { I with quiet := ?_, cbs := ?_, late := ?_ }
            · intro hq; simp only at hq; rw [hj] at hq; cases hq
            · intro _; exact hs
            · intro he _; exact I.late he (Or.inl (by rw [hcb]; simp))
          · split at h
            · rename_i hs
              cases h
              refine { I with quiet := ?_, cbs := ?_, late := ?_ }
              · intro hq; simp only at hq; rw [hj] at hq; cases hq
              · intro _; exact hs
              · intro he _; exact I.late he (Or.inl (by rw [hcb]; simp))
            · rename_i hs
              cases h
              have hs' : s.stores = false := by simpa using hs
              refine { I with quiet := ?_, cbs := ?_, late := ?_, crash := ?_, crash' := ?_ }
              · intro hq; simp only at hq; rw [hj] at hq; cases hq
              · rintro (h | h | ⟨x, h⟩ | h)
                · cases h
                · cases h
                · cases h
                · exact I.cbs (Or.inr (Or.inr (Or.inr h)))
              · intro he _; exact I.late he (Or.inl (by rw [hcb]; simp))
              · intro x hx; cases hx; exact Or.inl ⟨rfl, hs'⟩
              · intro _
                refine ⟨hj, Or.inl ?_⟩
                by_contra he
                have hcons := I.late (by simpa using he) (Or.inl (by rw [hcb]; simp))
                rw [I.consumer hp] at hcons
                rw [I.stores hp] at hs'
                simp at hcons hs'
                omega
      | make ps =>
        rw [hcb] at h
        have hs := I.cbs (Or.inr (Or.inr (Or.inl ⟨ps, hcb⟩)))
        have hj : s.joined = true := by
          by_contra hj
          have := (I.quiet (by simpa using hj)).1
          rw [hcb] at this; cases this
        have hp := (I.joined hj).2.2
        cases ps with
        | nil =>
          simp only at h
          cases h
          refine { I with quiet := ?_, cbs := ?_, late := ?_ }
          · intro hq; simp only at hq; rw [hj] at hq; cases hq
          · intro _; exact hs
          · intro he _; exact I.late he (Or.inl (by rw [hcb]; simp))
        | cons p ps =>
          simp only at h
          split at h
          · cases h
            refine { I with quiet := ?_, cbs := ?_, late := ?_, prefixes := ?_, crash := ?_ }
            · intro hq; simp only at hq; rw [hj] at hq; cases hq
            · intro _; exact hs
            · intro w hw
              rcases List.mem_append.1 hw with hw | hw
              · exact I.prefixes w hw
              · rw [List.mem_singleton.1 hw]; exact List.prefix_rfl
            · intro he _; exact I.late he (Or.inl (by rw [hcb]; simp))
            · intro x hx; simp only at hx; rw [hc'] at hx; cases hx
          · rename_i hpool
            have h8 := I.stores hp
            have h6 := I.pool hp
            rw [hs] at h8
            simp only [Bool.not_eq_true] at hpool
            rw [hpool] at h6
            simp at h8 h6
            omega
    | work i =>
      simp only at h
      split at h
      · rename_i w hw
        have hne : s.workers ≠ [] := by rintro hx; rw [hx] at hw; simp at hw
        have hj : s.joined = true := by
          by_contra hj
          exact hne (I.quiet (by simpa using hj)).2
        split at h
        · cases h
        · split at h
          · cases h
            refine { I with quiet := ?_, cbs := ?_, late := ?_, prefixes := ?_, crash := ?_ }
            · intro hq; simp only at hq; rw [hj] at hq; cases hq
            · intro _; exact I.cbs (Or.inr (Or.inr (Or.inr hne)))
            · intro x hx
              rcases List.mem_or_eq_of_mem_set hx with hx | hx
              · exact I.prefixes x hx
              · rw [hx]; exact I.prefixes w (List.mem_of_getElem? hw)
            · intro he _; exact I.late he (Or.inr hne)
            · intro x hx; simp only at hx; rw [hc'] at hx; cases hx
          · rename_i hcons
            cases h
            have hcons' : s.consumer = false := by simpa using hcons
            refine { I with crash := ?_, crash' := ?_ }
            · intro x hx; cases hx; exact Or.inr (Or.inl ⟨rfl, hcons', hne⟩)
            · intro _
              refine ⟨hj, Or.inl ?_⟩
              by_contra he
              have := I.late (by simpa using he) (Or.inr hne)
              rw [hcons'] at this; cases this
      · cases h

theorem inv_reach {incr : Bool} {s : S} (h : Reach incr s) : Inv incr s := by
  induction h with
  | init => exact inv_init incr
  | step a _ hs ih => exact inv_step ih hs

/-- What does not change any more. -/
theorem ijs_step {incr : Bool} {s s' : S} {a : Act} (h : step incr s a = some s') :
    (∀ (i : Nat) (w : Worker), s.workers[i]? = some w → ∃ w' : Worker, s'.workers[i]? = some w' ∧ w'.part = w.part ∧ w'.ijs = w.ijs) ∧ s.ijs <+: s'.ijs ∧
    (s.pc = .consuming → s'.pc = .consuming ∧ s'.ijs = s.ijs ∧ ∀ (i : Nat) (w : Worker), s.workers.length ≤ i → s'.workers[i]? = some w → w.ijs = s.ijs) := by
  unfold step at h
  split at h
  · cases h
  · cases a with
    | main ok =>
      simp only at h
      unfold main at h
      split at h <;> cases h <;>
        refine ⟨fun i w hw => ⟨w, hw, rfl, rfl⟩, List.prefix_rfl, fun hp => ?_⟩ <;> simp_all
    | schedule ij =>
      simp only at h
      split at h
      · rename_i hb
        cases h
        exact ⟨fun i w hw => ⟨w, hw, rfl, rfl⟩, List.prefix_append _ _, fun hp => by rw [hb] at hp; cases hp⟩
      · cases h
    | consume =>
      simp only at h
      split at h
      · rename_i hb
        cases h
        exact ⟨fun i w hw => ⟨w, hw, rfl, rfl⟩, List.prefix_rfl, fun hp => by rw [hb] at hp; cases hp⟩
      · cases h
    | assigned ps =>
      simp only at h
      split at h
      · cases h
        refine ⟨fun i w hw => ⟨w, hw, rfl, rfl⟩, List.prefix_rfl, fun hp => ⟨hp, rfl, ?_⟩⟩
        intro i w hi hw
        have := List.getElem?_eq_none hi
        simp only at hw
        rw [this] at hw; cases hw
      · cases h
    | callback =>
      simp only at h
      have none_of : ∀ {i : Nat} {w : Worker}, s.workers.length ≤ i → s.workers[i]? = some w → w.ijs = s.ijs := by
        intro i w hi hw
        rw [List.getElem?_eq_none hi] at hw; cases hw
      unfold callback at h
      repeat' split at h
      all_goals first | cases h; done | skip
      all_goals cases h
      all_goals first
        | exact ⟨fun i w hw => ⟨w, hw, rfl, rfl⟩, List.prefix_rfl, fun hp => ⟨hp, rfl, fun i w hi hw => none_of hi hw⟩⟩
        | skip
      refine ⟨?_, List.prefix_rfl, fun hp => ⟨hp, rfl, ?_⟩⟩
      · intro i w hw
        refine ⟨w, ?_, rfl, rfl⟩
        have hi : i < s.workers.length := by
          by_contra hc
          rw [List.getElem?_eq_none (by omega)] at hw; cases hw
        simp only
        rw [List.getElem?_append_left hi]; exact hw
      · intro i w hi hw
        simp only at hw
        rw [List.getElem?_append_right hi] at hw
        cases hk : i - s.workers.length with
        | zero => rw [hk] at hw; simp at hw; rw [← hw]
        | succ k => rw [hk] at hw; simp at hw
    | work i =>
      simp only at h
      split at h
      · rename_i w hw
        split at h
        · cases h
        · split at h
          · cases h
            refine ⟨?_, List.prefix_rfl, fun hp => ⟨hp, rfl, ?_⟩⟩
            · intro j x hx
              simp only [List.getElem?_set]
              by_cases hij : i = j
              · subst hij
                have hlt : i < s.workers.length := by
                  by_contra hc
                  rw [List.getElem?_eq_none (by omega)] at hw; cases hw
                rw [hw] at hx
                cases hx
                exact ⟨{ w with working := true }, by simp [hlt], rfl, rfl⟩
              · exact ⟨x, by simp [hij, hx], rfl, rfl⟩
            · intro j x hj hx
              simp only [List.length_set] at hx
              rw [List.getElem?_eq_none (by simpa using hj)] at hx; cases hx
          · cases h
            refine ⟨fun i w hw => ⟨w, hw, rfl, rfl⟩, List.prefix_rfl, fun hp => ⟨hp, rfl, ?_⟩⟩
            intro j x hj hx
            simp only at hx
            rw [List.getElem?_eq_none hj] at hx; cases hx
      · cases h

theorem ijs_run {incr : Bool} : ∀ (as : List Act) {s s' : S}, run incr s as = some s' →
    (∀ (i : Nat) (w : Worker), s.workers[i]? = some w → ∃ w' : Worker, s'.workers[i]? = some w' ∧ w'.part = w.part ∧ w'.ijs = w.ijs) ∧ s.ijs <+: s'.ijs ∧
    (s.pc = .consuming → s'.pc = .consuming ∧ s'.ijs = s.ijs ∧ ∀ (i : Nat) (w : Worker), s.workers.length ≤ i → s'.workers[i]? = some w → w.ijs = s.ijs) := by
  intro as
  induction as with
  | nil =>
    intro s s' h
    cases h
    refine ⟨fun i w hw => ⟨w, hw, rfl, rfl⟩, List.prefix_rfl, fun hp => ⟨hp, rfl, ?_⟩⟩
    intro i w hi hw
    rw [List.getElem?_eq_none hi] at hw; cases hw
  | cons a as ih =>
    intro s s' h
    simp only [run, Option.bind_eq_some_iff] at h
    obtain ⟨t, h1, h2⟩ := h
    obtain ⟨a1, a2, a3⟩ := ijs_step h1
    obtain ⟨b1, b2, b3⟩ := ih h2
    refine ⟨?_, a2.trans b2, ?_⟩
    · intro i w hw
      obtain ⟨w1, c1, c2, c3⟩ := a1 i w hw
      obtain ⟨w2, d1, d2, d3⟩ := b1 i w1 c1
      exact ⟨w2, d1, d2.trans c2, d3.trans c3⟩
    · intro hp
      obtain ⟨c1, c2, c3⟩ := a3 hp
      obtain ⟨d1, d2, d3⟩ := b3 c1
      refine ⟨d1, d2.trans c2, ?_⟩
      intro i w hi hw
      by_cases ht : t.workers.length ≤ i
      · rw [d3 i w ht hw, c2]
      · have hlt : i < t.workers.length := by omega
        obtain ⟨w', e1, e2, e3⟩ := b1 i t.workers[i] (List.getElem?_eq_getElem hlt)
        rw [hw] at e1
        cases e1
        rw [e3]
        exact c3 i _ hi (List.getElem?_eq_getElem hlt)

end Verif.Boot

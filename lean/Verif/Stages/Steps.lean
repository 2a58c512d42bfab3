import Verif.Stages.Proofs
/-
Proofs for C113: all steps keep the invariant.
-/
namespace Verif.Stages
open Verif.Scheduler (Job sub scheds upd)
open Verif.Backlog (comps)
open Verif.Exact
open Verif.Keyed (fk fk_append fk_one fk_cons pk pk_append pk_fst sub_fk upd_self upd_other comps_prefix split_unique flatMap_congr_mem filter_split_mem reach_more)

set_option linter.unusedSectionVars false

variable {K σ X : Type} [DecidableEq K] {c : Cfg K σ X} {w w' : W K σ} {a : K → Nat}

/-- One more event has passed a place. -/
structure Passed (c : Cfg K σ X) (w w' : W K σ) (i : Nat) (y : Job K) : Prop where
  A : ∀ q k j, j ≤ c.n k → A c w' q k j = A c w q k j ++ if j = i ∧ q = y.caller ∧ y.key = k then [y] else []
  comps : ∀ j, comps (w'.sch j).log = comps (w.sch j).log
  sr : ∀ j, Scheduler.Reach (c.sched j) (w'.sch j)
  sch : ∀ j, ∀ z ∈ scheds (w'.sch j).log, j < c.n z.key

theorem pass_passed (hsr : ∀ j, Scheduler.Reach (c.sched j) (w.sch j)) (hsch : ∀ j, ∀ z ∈ scheds (w.sch j).log, j < c.n z.key) {i : Nat} {y : Job K} (hi : i ≤ c.n y.key)
    (ho : (w.sch i).closed = false) (h : pass c w i y = some w') :
    Passed c w w' i y ∧ w'.evq = w.evq ∧ w'.jobs = w.jobs ∧ w'.next = w.next ∧ w'.ev = w.ev ∧ w'.off = w.off ∧ w'.st = w.st ∧ w'.prod = w.prod ∧ w'.com = w.com ∧ w'.base = w.base ∧ w'.vis = w.vis := by
  unfold pass at h
  split at h
  · rename_i hlt
    rw [ho] at h
    simp only [Bool.false_eq_true, if_false, Option.map_eq_some_iff] at h
    obtain ⟨s, h1, h2⟩ := h
    subst h2
    obtain ⟨-, -, e⟩ := Backlog.call_same h1
    have hl : s.log = (w.sch i).log ++ [.sched y] := by rw [e]
    have hsc : scheds s.log = scheds (w.sch i).log ++ [y] := by rw [hl]; simp [scheds]
    have hco : comps s.log = comps (w.sch i).log := by rw [hl]; simp [comps]
    refine ⟨⟨?_, ?_, ?_, ?_⟩, rfl, rfl, rfl, rfl, rfl, rfl, rfl, rfl, rfl, rfl⟩
    · intro q k j hj
      unfold A
      show (if j < c.n k then sub q k (scheds (upd w.sch i s j).log) else fk k (w.dn q)) = _
      by_cases hji : j = i
      · subst hji
        rw [upd_self]
        by_cases hk : y.key = k
        · subst hk
          rw [if_pos hlt, if_pos hlt, hsc, Scheduler.sub_append]
          congr 1
          by_cases hq : q = y.caller
          · simp [sub, hq]
          · have hq' : ¬ y.caller = q := fun h => hq h.symm
            simp [sub, hq, hq']
        · have : sub q k [y] = [] := by simp [sub, hk]
          rw [hsc, Scheduler.sub_append, this]
          simp [hk]
      · rw [upd_other _ _ hji]; simp [hji]
    · intro j
      show comps (upd w.sch i s j).log = _
      by_cases hji : j = i
      · subst hji; rw [upd_self, hco]
      · rw [upd_other _ _ hji]
    · intro j
      show Scheduler.Reach _ (upd w.sch i s j)
      by_cases hji : j = i
      · subst hji; rw [upd_self]; exact reach_more (hsr _) h1
      · rw [upd_other _ _ hji]; exact hsr j
    · intro j z hz
      have hz' : z ∈ scheds (upd w.sch i s j).log := hz
      by_cases hji : j = i
      · subst hji
        rw [upd_self, hsc, List.mem_append, List.mem_singleton] at hz'
        rcases hz' with hz' | rfl
        · exact hsch _ z hz'
        · exact hlt
      · rw [upd_other _ _ hji] at hz'; exact hsch j z hz'
  · rename_i hlt
    cases h
    have hin : i = c.n y.key := by omega
    refine ⟨⟨?_, fun _ => rfl, hsr, hsch⟩, rfl, rfl, rfl, rfl, rfl, rfl, rfl, rfl, rfl, rfl⟩
    intro q k j hj
    unfold A
    show (if j < c.n k then sub q k (scheds (w.sch j).log) else fk k (upd w.dn y.caller (w.dn y.caller ++ [y]) q)) = _
    by_cases hjn : j < c.n k
    · rw [if_pos hjn, if_pos hjn, if_neg, List.append_nil]
      rintro ⟨rfl, -, rfl⟩; omega
    · rw [if_neg hjn, if_neg hjn]
      by_cases hq : q = y.caller
      · subst hq
        rw [upd_self, fk_append, fk_one]
        congr 1
        by_cases hk : y.key = k
        · subst hk
          rw [if_pos rfl, if_pos ⟨by omega, rfl, rfl⟩]
        · simp [hk]
      · rw [upd_other _ _ hq]; simp [hq]

theorem pp_one (i : Nat) (y : Job K) (rs : List Nat) : pp a [(i, y, rs)] = if i = a y.key then [(y, rs)] else [] := by
  by_cases h : i = a y.key <;> simp [pp, h]

/-- An event, the next of its key at a place, passes it. -/
theorem ord_pass (I : Ord c w) {evq' : Nat → List (Job K)} {jobs' : Nat → List (Nat × Job K)} {p i : Nat} {y : Job K} {rest : List (Job K)} {x : X}
    (hi : i ≤ c.n y.key) (ho : (w.sch i).closed = false) (h : A c w p y.key i ++ y :: rest = fk y.key (w.ev p)) 
    (hp : pass c (work c { w with evq := evq', jobs := jobs' } i y x) i y = some w')
    (hq0 : ∀ q k, (A c w q k 0 ++ if 0 = i ∧ q = p ∧ y.key = k then [y] else []) ++ fk k (evq' q) = fk k (w.ev q))
    (hqs : ∀ q k j, j < c.n k → (A c w q k (j + 1) ++ if j + 1 = i ∧ q = p ∧ y.key = k then [y] else []) ++ fk k (jst j (jobs' q)) = sub q k (comps (w.sch j).log))
    (hjb : ∀ q, ∀ e ∈ jobs' q, e.2.caller = q ∧ e.1 < c.n e.2.key) : Ord c w' := by
  obtain ⟨hcal, -⟩ := I.ready h
  subst hcal
  obtain ⟨P, e1, e2, e3, e4, e5, e6, e7, e8, e9, e10⟩ := pass_passed (w := work c { w with evq := evq', jobs := jobs' } i y x) I.sr I.sch hi ho hp
  have hA : ∀ q k j, j ≤ c.n k → A c w' q k j = A c w q k j ++ if j = i ∧ q = y.caller ∧ y.key = k then [y] else [] := P.A
  have hC : ∀ j, comps (w'.sch j).log = comps (w.sch j).log := P.comps
  refine ⟨P.sr, ?_, P.sch, ?_, ?_, ?_, ?_⟩
  · intro q j z hz
    rw [e4] at hz
    rw [e3, e5, e9]
    exact I.evs q j z hz
  · intro q k
    rw [hA q k 0 (by omega), e1, e4]; exact hq0 q k
  · intro q k j hj
    rw [hA q k (j + 1) (by omega), e2, hC]; exact hqs q k j hj
  · intro q e he
    rw [e2] at he; exact hjb q e he
  · intro q k j hj
    have e7' : w'.prod = upd w.prod y.caller (w.prod y.caller ++ [(i, y, c.handle i (w.st y.caller y.key) x)]) := e7
    rw [hA q k j hj, e7', ← I.pl q k j hj]
    by_cases hq : q = y.caller
    · subst hq
      rw [upd_self, pl_append, fk_append]
      congr 1
      by_cases hij : j = i
      · subst hij; simp only [pl, List.filter_cons, decide_true, if_true, List.filter_nil, List.map_cons, List.map_nil, fk_one, true_and]
      · have hij' : ¬ i = j := fun h => hij h.symm
        simp [pl, hij, hij', fk]
    · rw [upd_other _ _ hq]; simp [hq]

/-- An event, the next of its key at a place, is worked on and passes the place. -/
theorem inv_pass (ha : OnePlace c a) (I : Inv c a w) {evq' : Nat → List (Job K)} {jobs' : Nat → List (Nat × Job K)} {p i : Nat} {y : Job K} {rest : List (Job K)} {x : X}
    (hi : i ≤ c.n y.key) (ho : (w.sch i).closed = false) (h : A c w p y.key i ++ y :: rest = fk y.key (w.ev p)) (hx : value c w y = some x)
    (hp : pass c (work c { w with evq := evq', jobs := jobs' } i y x) i y = some w')
    (hO : Ord c w') : Inv c a w' := by
  obtain ⟨hcal, x', hx', hdue⟩ := I.ready ha h
  rw [hx] at hx'
  cases hx'
  subst hcal
  obtain ⟨P, e1, e2, e3, e4, e5, e6, e7, e8, e9, e10⟩ := pass_passed (w := work c { w with evq := evq', jobs := jobs' } i y x) I.sr I.sch hi ho hp
  have hA : ∀ q k j, j ≤ c.n k → A c w' q k j = A c w q k j ++ if j = i ∧ q = y.caller ∧ y.key = k then [y] else [] := P.A
  have e7' : w'.prod = upd w.prod y.caller (w.prod y.caller ++ [(i, y, c.handle i (w.st y.caller y.key) x)]) := e7
  have e6' : w'.st = put w.st y.caller y.key ((c.handle i (w.st y.caller y.key) x).foldl c.apply (w.st y.caller y.key)) := e6
  have hpp : ∀ q, pp a (w'.prod q) = pp a (w.prod q) ++ if q = y.caller ∧ i = a y.key then [(y, c.handle i (w.st y.caller y.key) x)] else [] := by
    intro q
    rw [e7']
    by_cases hq : q = y.caller
    · subst hq; rw [upd_self, pp_append, pp_one]; simp
    · rw [upd_other _ _ hq]; simp [hq]
  refine ⟨hO, ?_, ?_, ?_, ?_, ?_, ?_⟩
  · intro q k
    rw [hA q k (a k) (ha k).1, hpp, List.map_append, fk_append, I.pr]
    congr 1
    by_cases h1 : q = y.caller ∧ i = a y.key
    · rw [if_pos h1]
      simp only [List.map_cons, List.map_nil, fk_one]
      by_cases hk : y.key = k
      · subst hk; rw [if_pos rfl, if_pos ⟨h1.2.symm, h1.1, rfl⟩]
      · simp [hk]
    · rw [if_neg h1, if_neg]
      · rfl
      · rintro ⟨h2, h3, rfl⟩; exact h1 ⟨h3, h2.symm⟩
  · intro q e he hne
    rw [e7'] at he
    by_cases hq : q = y.caller
    · subst hq
      rw [upd_self, List.mem_append, List.mem_singleton] at he
      rcases he with he | rfl
      · exact I.pe _ e he hne
      · exact (ha y.key).2 i hi hne _ _
    · rw [upd_other _ _ hq] at he; exact I.pe q e he hne
  · intro q e he
    rw [hpp, List.mem_append] at he
    rw [e5]
    rcases he with he | he
    · exact I.due q e he
    · split at he
      · rename_i h1
        rw [List.mem_singleton] at he
        subst he
        rw [h1.1]
        exact (hdue h1.2).symm
      · cases he
  · intro q k
    rw [e6', hpp, e9, pk_append, List.flatMap_append, List.foldl_append]
    have hv := I.st q k
    show _ = List.foldl c.apply (((pk k (pp a (w.prod q))).flatMap Prod.snd).foldl c.apply (stateAt c q k (w.base q))) _
    rw [← hv]
    by_cases h1 : q = y.caller ∧ k = y.key
    · obtain ⟨rfl, rfl⟩ := h1
      by_cases h2 : i = a y.key
      · simp [put, pk, h2]
      · rw [(ha y.key).2 i hi h2]
        simp [put, pk, h2]
    · have hput : put w.st y.caller y.key ((c.handle i (w.st y.caller y.key) x).foldl c.apply (w.st y.caller y.key)) q k = w.st q k := by
        unfold put; rw [if_neg h1]
      rw [hput]
      by_cases h2 : q = y.caller ∧ i = a y.key
      · rw [if_pos h2]
        have hk : ¬ y.key = k := fun hk => h1 ⟨h2.1, hk.symm⟩
        simp [pk, hk]
      · rw [if_neg h2]; simp [pk]
  · intro q; rw [e8, e4]; exact I.com q
  · intro q k
    have : w'.wm q = w.wm q := by unfold W.wm; rw [e8, e9]; rfl
    rw [this, e10]; exact I.vis q k

theorem ord_arrive (I : Ord c w) {p : Nat} (h : step c w (.arrive p) = some w') : Ord c w' := by
  simp only [step] at h
  split at h
  · rename_i k x hsrc
    split at h
    · cases h
      refine ⟨I.sr, ?_, I.sch, ?_, I.qs, I.jb, I.pl⟩
      · intro q i y hy
        have hy' : (upd w.ev p (w.ev p ++ [⟨k, p, w.next⟩]) q)[i]? = some y := hy
        show y.caller = q ∧ y.id < w.next + 1 ∧ upd w.off w.next _ y.id = w.base q + i ∧ _
        have old : (w.ev q)[i]? = some y → y.caller = q ∧ y.id < w.next + 1 ∧ upd w.off w.next (w.base p + (w.ev p).length) y.id = w.base q + i ∧
            ∃ x, (c.src q)[w.base q + i]? = some (y.key, x) := by
          intro h
          obtain ⟨h1, h2, h3, h4⟩ := I.evs q i y h
          exact ⟨h1, by omega, by rw [upd_other _ _ (by omega)]; exact h3, h4⟩
        by_cases hq : q = p
        · subst hq
          rw [upd_self] at hy'
          by_cases hi : i < (w.ev q).length
          · rw [List.getElem?_append_left hi] at hy'; exact old hy'
          · rw [List.getElem?_append_right (by omega)] at hy'
            have hi0 : i = (w.ev q).length := by
              by_contra hne
              rw [List.getElem?_eq_none (by simp; omega)] at hy'
              cases hy'
            subst hi0
            simp at hy'
            subst hy'
            exact ⟨rfl, by simp, by simp [upd], x, hsrc⟩
        · rw [upd_other _ _ hq] at hy'; exact old hy'
      · intro q k'
        show A c w q k' 0 ++ fk k' (upd w.evq p _ q) = fk k' (upd w.ev p _ q)
        by_cases hq : q = p
        · subst hq; rw [upd_self, upd_self, fk_append, fk_append, ← List.append_assoc, I.q0]
        · rw [upd_other _ _ hq, upd_other _ _ hq]; exact I.q0 _ _
    · cases h
  · cases h

theorem inv_arrive (ha : OnePlace c a) (I : Inv c a w) {p : Nat} (h : step c w (.arrive p) = some w') : Inv c a w' := by
  have hO := ord_arrive I.toOrd h
  simp only [step] at h
  split at h
  · split at h
    · cases h
      have hlt : ∀ {q : Nat} {y : Job K}, y ∈ w.ev q → y.id ≠ w.next := fun hy => by have := (I.caller hy).2; omega
      refine ⟨hO, I.pr, I.pe, ?_, I.st, ?_, I.vis⟩
      · intro q e he
        show e.2 = dueAt c q (upd w.off w.next _ e.1.id)
        rw [upd_other _ _ (hlt (I.prod_mem ha he))]
        exact I.due q e he
      · intro q
        show w.com q ≤ (upd w.ev p _ q).length
        have := I.com q
        by_cases hq : q = p
        · subst hq; rw [upd_self]; simp; omega
        · rw [upd_other _ _ hq]; exact this
    · cases h
  · cases h

theorem ord_handle (I : Ord c w) {p : Nat} (ho : ∀ i, (w.sch i).closed = false) (h : step c w (.handle p) = some w') : Ord c w' := by
  simp only [step] at h
  split at h
  · rename_i y rest hi hq
    split at h
    · rename_i x hx
      have h0 := I.q0 p y.key
      rw [hq, fk_cons, if_pos rfl] at h0
      refine ord_pass I (p := p) (rest := fk y.key rest) (Nat.zero_le _) (ho 0) (by simpa using h0) (jobs' := w.jobs) h ?_ ?_ I.jb
      · intro q k
        have := I.q0 q k
        by_cases hqp : q = p
        · subst hqp; rw [upd_self, ← this, hq, fk_cons]; simp
        · rw [upd_other _ _ hqp, if_neg (by simp [hqp]), List.append_nil]; exact this
      · intro q k j hj
        rw [if_neg (by simp), List.append_nil]; exact I.qs q k j hj
    · cases h
  · cases h

theorem inv_handle (ha : OnePlace c a) (I : Inv c a w) {p : Nat} (ho : ∀ i, (w.sch i).closed = false) (h : step c w (.handle p) = some w') : Inv c a w' := by
  have hO := ord_handle I.toOrd ho h
  simp only [step] at h
  split at h
  · rename_i y rest hi hq
    split at h
    · rename_i x hx
      have h0 := I.q0 p y.key
      rw [hq, fk_cons, if_pos rfl] at h0
      exact inv_pass ha I (p := p) (rest := fk y.key rest) (Nat.zero_le _) (ho 0) (by simpa using h0) hx h hO
    · cases h
  · cases h

theorem jst_cons (j i : Nat) (y : Job K) (l : List (Nat × Job K)) : jst j ((i, y) :: l) = (if i = j then [y] else []) ++ jst j l := by
  by_cases h : i = j <;> simp [jst, h]

theorem ord_job (I : Ord c w) {p : Nat} (ho : ∀ i, (w.sch i).closed = false) (h : step c w (.job p) = some w') : Ord c w' := by
  simp only [step] at h
  split at h
  · rename_i i y rest hi hq
    split at h
    · rename_i x hx
      obtain ⟨hcal, hin⟩ := I.jb p (i, y) (by rw [hq]; simp)
      have hin : i < c.n y.key := hin
      have hC := I.qs p y.key i hin
      rw [hq, jst_cons, if_pos rfl, fk_append, fk_one, if_pos rfl] at hC
      obtain ⟨t, ht⟩ := (I.comp_pre p y.key hin).trans (I.place_pre p y.key (Nat.le_of_lt hin))
      rw [← hC] at ht
      refine ord_pass I (p := p) (i := i + 1) (rest := fk y.key (jst i rest) ++ t) hin (ho _) (by rw [← ht]; simp) (evq' := w.evq) h ?_ ?_ ?_
      · intro q k
        rw [if_neg (by simp), List.append_nil]; exact I.q0 q k
      · intro q k j hj
        have := I.qs q k j hj
        by_cases hqp : q = p
        · subst hqp
          rw [upd_self, ← this, hq, jst_cons, fk_append]
          by_cases hji : i = j
          · subst hji
            rw [if_pos rfl, fk_one]
            simp
          · have hji' : ¬ j = i := fun h => hji h.symm
            rw [if_neg hji, if_neg (by simp [hji'])]; simp [fk]
        · rw [upd_other _ _ hqp, if_neg (by simp [hqp]), List.append_nil]; exact this
      · intro q z hz
        by_cases hqp : q = p
        · subst hqp
          rw [upd_self] at hz
          exact I.jb q z (by rw [hq]; simp [hz])
        · rw [upd_other _ _ hqp] at hz; exact I.jb q z hz
    · cases h
  · cases h

theorem inv_job (ha : OnePlace c a) (I : Inv c a w) {p : Nat} (ho : ∀ i, (w.sch i).closed = false) (h : step c w (.job p) = some w') : Inv c a w' := by
  have hO := ord_job I.toOrd ho h
  simp only [step] at h
  split at h
  · rename_i i y rest hi hq
    split at h
    · rename_i x hx
      obtain ⟨hcal, hin⟩ := I.jb p (i, y) (by rw [hq]; simp)
      have hin : i < c.n y.key := hin
      have hC := I.qs p y.key i hin
      rw [hq, jst_cons, if_pos rfl, fk_append, fk_one, if_pos rfl] at hC
      obtain ⟨t, ht⟩ := (I.comp_pre p y.key hin).trans (I.place_pre p y.key (Nat.le_of_lt hin))
      rw [← hC] at ht
      exact inv_pass ha I (p := p) (i := i + 1) (rest := fk y.key (jst i rest) ++ t) hin (ho _) (by rw [← ht]; simp) hx h hO
    · cases h
  · cases h

theorem ord_inner (I : Ord c w) {i : Nat} {l : Scheduler.Label K} (h : step c w (.inner i l) = some w') : Ord c w' ∧ (∀ q k j, A c w' q k j = A c w q k j) ∧ w'.prod = w.prod ∧ w'.ev = w.ev ∧ w'.off = w.off ∧ w'.st = w.st ∧ w'.com = w.com ∧ w'.base = w.base ∧ w'.vis = w.vis := by
  have quiet : ∀ s, (∀ x, l ≠ .call x) → (∀ t, l ≠ .complete t) → Scheduler.step (w.sch i) l = some s → Ord c { w with sch := upd w.sch i s } ∧ ∀ q k j, A c { w with sch := upd w.sch i s } q k j = A c w q k j := by
    intro s h1 h2 h3
    obtain ⟨e1, e2⟩ := Backlog.quiet_log h3 h1 h2
    have hs : ∀ j, scheds (upd w.sch i s j).log = scheds (w.sch j).log := by
      intro j
      by_cases hj : j = i
      · subst hj; rw [upd_self, e1]
      · rw [upd_other _ _ hj]
    have hc : ∀ j, comps (upd w.sch i s j).log = comps (w.sch j).log := by
      intro j
      by_cases hj : j = i
      · subst hj; rw [upd_self, e2]
      · rw [upd_other _ _ hj]
    have hA : ∀ q k j, A c { w with sch := upd w.sch i s } q k j = A c w q k j := by
      intro q k j; unfold A; rw [hs]
    refine ⟨⟨?_, I.evs, ?_, ?_, ?_, I.jb, fun q k j hj => by rw [hA]; exact I.pl q k j hj⟩, hA⟩
    · intro j
      show Scheduler.Reach _ (upd w.sch i s j)
      by_cases hj : j = i
      · subst hj; rw [upd_self]; exact reach_more (I.sr _) h3
      · rw [upd_other _ _ hj]; exact I.sr j
    · intro j y hy
      have hy' : y ∈ scheds (upd w.sch i s j).log := hy
      rw [hs] at hy'; exact I.sch j y hy'
    · intro q k; rw [hA]; exact I.q0 q k
    · intro q k j hj
      rw [hA]
      show _ = sub q k (comps (upd w.sch i s j).log)
      rw [hc]; exact I.qs q k j hj
  cases l with
  | call x => simp [step] at h
  | complete t =>
    simp only [step] at h
    split at h
    · rename_i v y ht
      split at h
      · simp only [Option.map_eq_some_iff] at h
        obtain ⟨s, h1, h2⟩ := h
        subst h2
        have hsr := reach_more (I.sr i) h1
        have hl : s.log = (w.sch i).log ++ [.comp y] := by
          simp only [Scheduler.step, ht, Option.some.injEq] at h1
          rw [← h1]
        have hsc : scheds s.log = scheds (w.sch i).log := by rw [hl]; simp [scheds]
        have hco : comps s.log = comps (w.sch i).log ++ [y] := by rw [hl]; simp [comps]
        have hy : y ∈ scheds (w.sch i).log := by
          have : y ∈ sub y.caller y.key (comps s.log) := by
            unfold sub; rw [List.mem_filter, hco]; simp
          have := (comps_prefix hsr y.caller y.key).subset this
          unfold sub at this
          rw [List.mem_filter, hsc] at this
          exact this.1
        have hin := I.sch i y hy
        have hs : ∀ j, scheds (upd w.sch i s j).log = scheds (w.sch j).log := by
          intro j
          by_cases hj : j = i
          · subst hj; rw [upd_self, hsc]
          · rw [upd_other _ _ hj]
        have hA : ∀ q k j, A c { w with sch := upd w.sch i s, jobs := upd w.jobs y.caller (w.jobs y.caller ++ [(i, y)]) } q k j = A c w q k j := by
          intro q k j; unfold A; rw [hs]
        refine ⟨⟨?_, I.evs, ?_, ?_, ?_, ?_, fun q k j hj => by rw [hA]; exact I.pl q k j hj⟩, hA, rfl, rfl, rfl, rfl, rfl, rfl, rfl⟩
        · intro j
          show Scheduler.Reach _ (upd w.sch i s j)
          by_cases hj : j = i
          · subst hj; rw [upd_self]; exact hsr
          · rw [upd_other _ _ hj]; exact I.sr j
        · intro j z hz
          have hz' : z ∈ scheds (upd w.sch i s j).log := hz
          rw [hs] at hz'; exact I.sch j z hz'
        · intro q k; rw [hA]; exact I.q0 q k
        · intro q k j hj
          rw [hA]
          show _ ++ fk k (jst j (upd w.jobs y.caller _ q)) = sub q k (comps (upd w.sch i s j).log)
          have := I.qs q k j hj
          by_cases hji : j = i
          · subst hji
            rw [upd_self, hco, Scheduler.sub_append, ← this]
            by_cases hq : q = y.caller
            · subst hq
              rw [upd_self, jst_append, fk_append, ← List.append_assoc]
              congr 1
              by_cases hky : y.key = k <;> simp [sub, fk, jst, hky]
            · rw [upd_other _ _ hq]
              have hq' : ¬ y.caller = q := fun h => hq h.symm
              simp [sub, hq']
          · rw [upd_other _ _ hji]
            by_cases hq : q = y.caller
            · subst hq
              have hji' : ¬ i = j := fun h => hji h.symm
              have : jst j [(i, y)] = [] := by simp [jst, hji']
              rw [upd_self, jst_append, this, List.append_nil]; assumption
            · rw [upd_other _ _ hq]; exact this
        · intro q z hz
          have hz' : z ∈ upd w.jobs y.caller (w.jobs y.caller ++ [(i, y)]) q := hz
          by_cases hq : q = y.caller
          · subst hq
            rw [upd_self, List.mem_append, List.mem_singleton] at hz'
            rcases hz' with hz' | rfl
            · exact I.jb _ z hz'
            · exact ⟨rfl, hin⟩
          · rw [upd_other _ _ hq] at hz'; exact I.jb q z hz'
      · cases h
    · cases h
  | _ =>
    simp only [step, Option.map_eq_some_iff] at h
    obtain ⟨s, e1, e2⟩ := h
    subst e2
    obtain ⟨h1, h2⟩ := quiet s (by simp) (by simp) e1
    exact ⟨h1, h2, rfl, rfl, rfl, rfl, rfl, rfl, rfl⟩

theorem inv_inner (I : Inv c a w) {i : Nat} {l : Scheduler.Label K} (h : step c w (.inner i l) = some w') : Inv c a w' := by
  obtain ⟨hO, hA, e1, e2, e3, e4, e5, e6, e7⟩ := ord_inner I.toOrd h
  refine ⟨hO, ?_, ?_, ?_, ?_, ?_, ?_⟩
  · intro q k; rw [e1, hA]; exact I.pr q k
  · rw [e1]; exact I.pe
  · rw [e1, e3]; exact I.due
  · rw [e4, e1, e6]; exact I.st
  · rw [e5, e2]; exact I.com
  · intro q k
    have : w'.wm q = w.wm q := by unfold W.wm; rw [e5, e6]
    rw [this, e7]; exact I.vis q k

theorem ofKey_append (k : K) (a b : List (K × Nat)) : ofKey k (a ++ b) = ofKey k a ++ ofKey k b := by simp [ofKey]

theorem ofKey_flat (k : K) (l : List (Nat × Job K × List Nat)) (h : ∀ e ∈ l, e.1 ≠ a e.2.1.key → e.2.2 = []) :
    ofKey k (l.flatMap fun e => e.2.2.map fun r => (e.2.1.key, r)) = (pk k (pp a l)).flatMap Prod.snd := by
  induction l with
  | nil => rfl
  | cons e l ih =>
    rw [List.flatMap_cons, ofKey_append, ih fun e' he' => h e' (by simp [he'])]
    have : pp a (e :: l) = pp a [e] ++ pp a l := by rw [← pp_append]; rfl
    rw [this, pk_append, List.flatMap_append]
    congr 1
    obtain ⟨i, y, rs⟩ := e
    by_cases h1 : i = a y.key
    · rw [pp_one, if_pos h1]
      by_cases hk : y.key = k
      · simp [ofKey, pk, hk, List.filter_map, Function.comp_def]
      · simp [ofKey, pk, hk, List.filter_map, Function.comp_def]
    · rw [pp_one, if_neg h1]
      have := h (i, y, rs) (by simp) h1
      simp only at this
      subst this
      simp [ofKey, pk]

theorem inv_commit (ha : OnePlace c a) (I : Inv c a w) {p m : Nat} (h : step c w (.commit p m) = some w') : Inv c a w' := by
  simp only [step] at h
  split at h
  · rename_i hc
    obtain ⟨hlen, hall⟩ := hc
    cases h
    set es := ((w.ev p).drop (w.com p)).take m with hes
    refine ⟨⟨I.sr, I.evs, I.sch, I.q0, I.qs, I.jb, I.pl⟩, I.pr, I.pe, I.due, I.st, ?_, ?_⟩
    · intro q
      show upd w.com p _ q ≤ _
      by_cases hq : q = p
      · subst hq; rw [upd_self]; exact hlen
      · rw [upd_other _ _ hq]; exact I.com q
    · intro q k
      show ofKey k (upd w.vis p _ q) = outsAt c q k (w.base q + upd w.com p _ q)
      by_cases hq : q = p
      · subst hq
        rw [upd_self, upd_self, ofKey_append, I.vis, I.outs_seg q k (w.com q) m hlen, ofKey_flat (a := a) k _ (fun e he => I.pe q e (List.mem_filter.mp he).1)]
        congr 1
        have epp : pp a ((w.prod q).filter fun e => decide (e.2.1 ∈ es)) = (pp a (w.prod q)).filter fun e => decide (e.1 ∈ es) := by
          unfold pp
          rw [List.filter_map, List.filter_comm]
          rfl
        rw [epp]
        rw [I.flat q (pk k ((pp a (w.prod q)).filter fun e => decide (e.1 ∈ es))) (fun e he => (List.mem_filter.mp (List.mem_filter.mp he).1).1)]
        congr 1
        have hsplit : w.ev q = (w.ev q).take (w.com q) ++ es ++ (w.ev q).drop (w.com q + m) := by
          rw [hes, List.append_assoc]
          conv => lhs; rw [← List.take_append_drop (w.com q) (w.ev q)]
          congr 1
          rw [← List.drop_drop, List.take_append_drop]
        have e1 : (w.ev q).filter (fun y => decide (y ∈ es)) = es := by
          have := filter_split_mem (a := (w.ev q).take (w.com q)) (es := es) (b := (w.ev q).drop (w.com q + m)) (by rw [← hsplit]; exact I.nodup q)
          rw [← hsplit] at this; exact this
        have e2 : (pk k ((pp a (w.prod q)).filter fun e => decide (e.1 ∈ es))).map Prod.fst = (fk k ((pp a (w.prod q)).map Prod.fst)).filter fun y => decide (y ∈ es) := by
          rw [pk_fst]
          have : ((pp a (w.prod q)).filter fun e => decide (e.1 ∈ es)).map Prod.fst = ((pp a (w.prod q)).map Prod.fst).filter fun y => decide (y ∈ es) := by
            rw [List.filter_map]; rfl
          rw [this]
          unfold fk
          rw [List.filter_comm]
        rw [e2]
        obtain ⟨t, ht⟩ := I.pre ha q k
        have e3 : (fk k (w.ev q)).filter (fun y => decide (y ∈ es)) = fk k es := by
          unfold fk
          rw [List.filter_comm]
          rw [e1]
        rw [← e3, ← ht, List.filter_append]
        have e4 : t.filter (fun y => decide (y ∈ es)) = [] := by
          rw [List.filter_eq_nil_iff]
          intro y hy; simp only [decide_eq_true_eq]
          intro hye
          have hk : y.key = k := by
            have : y ∈ fk k (w.ev q) := by rw [← ht]; exact List.mem_append_right _ hy
            simpa using (List.mem_filter.mp this).2
          have hp : y ∈ fk k ((pp a (w.prod q)).map Prod.fst) := by
            rw [I.pr]
            obtain ⟨d, hd⟩ : ∃ d, c.n k = a k + d := ⟨c.n k - a k, by have := (ha k).1; omega⟩
            refine (I.mono q k (i := a k) d (by omega)).subset ?_
            rw [← hd]
            unfold A
            rw [if_neg (by omega)]
            exact List.mem_filter.mpr ⟨hall y hye, by simp [hk]⟩
          have hn : (fk k (w.ev q)).Nodup := (I.nodup q).filter _
          rw [← ht, List.nodup_append] at hn
          exact hn.2.2 y hp y hy rfl
        rw [e4, List.append_nil]
      · rw [upd_other _ _ hq, upd_other _ _ hq]; exact I.vis q k
  · cases h

theorem ord_commit (I : Ord c w) {p m : Nat} (h : step c w (.commit p m) = some w') : Ord c w' := by
  simp only [step] at h
  split at h
  · cases h; exact ⟨I.sr, I.evs, I.sch, I.q0, I.qs, I.jb, I.pl⟩
  · cases h

theorem ord_step (I : Ord c w) {x : Act K} (ho : Open w x) (h : step c w x = some w') : Ord c w' := by
  cases x with
  | arrive p => exact ord_arrive I h
  | handle p => exact ord_handle I ho h
  | job p => exact ord_job I ho h
  | inner i l => exact (ord_inner I h).1
  | commit p m => exact ord_commit I h
  | crash => cases h; exact boot_ord

theorem ord_reach (h : Reach c Open w) : Ord c w := by
  induction h with
  | init => exact boot_ord
  | step x _ ho hx ih => exact ord_step ih ho hx

theorem inv_step (ha : OnePlace c a) (I : Inv c a w) {x : Act K} (ho : Open w x) (h : step c w x = some w') : Inv c a w' := by
  cases x with
  | arrive p => exact inv_arrive ha I h
  | handle p => exact inv_handle ha I ho h
  | job p => exact inv_job ha I ho h
  | inner i l => exact inv_inner I h
  | commit p m => exact inv_commit ha I h
  | crash => cases h; exact boot_inv a I.vis

theorem inv_reach (ha : OnePlace c a) (h : Reach c Open w) : Inv c a w := by
  induction h with
  | init => exact boot_inv a fun p k => by rw [outsAt_zero]; rfl
  | step x _ ho hx ih => exact inv_step ha ih ho hx

end Verif.Stages

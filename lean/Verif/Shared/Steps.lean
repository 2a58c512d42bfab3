import Verif.Shared.Proofs
/-
Proofs for C111: all steps keep the invariant.
-/
namespace Verif.Shared
open Verif.Eos (upd)

theorem upd_self {α : Type} (f : Nat → α) (i : Nat) (a : α) : upd f i a i = a := by simp [upd]
theorem upd_other {α : Type} (f : Nat → α) {i j : Nat} (a : α) (h : j ≠ i) : upd f i a j = f j := by simp [upd, h]

variable {pt : Nat → Nat} {s s' : St}

theorem know_got (I : Inv s) {e : Nat} (h : s.f e = .got) : ∀ i g', At s.tr i g' e .fixed true → Kn s.tr .fwd i := by
  intro i g' ha
  have := (I.fixed _ _ _ ha).2.1
  rw [h] at this; exact this

theorem know_deck (I : Inv s) {e n : Nat} (h : s.f e = .node n) (hn : s.node n = .deck) : ∀ i g', At s.tr i g' e .fixed true → Kn s.tr .fwd i := by
  intro i g' ha
  have := (I.fixed _ _ _ ha).2.1
  rw [h] at this; simp only [PF, hn] at this; exact this

theorem know_com (I : Inv s) {e n : Nat} (h : s.f e = .node n) (hn : s.node n = .commit) : ∀ i g', At s.tr i g' e .fixed true → Kn s.tr .com i := by
  intro i g' ha
  have := (I.fixed _ _ _ ha).2.1
  rw [h] at this; simp only [PF, hn] at this; exact this

theorem know_ref (I : Inv s) {e : Nat} {g : Gor} (h : (g, e) ∈ s.refs) : ∀ i g', At s.tr i g' e .fixed true → Kn s.tr g i :=
  fun _ _ ha => (I.fixed _ _ _ ha).2.2 g h

theorem know_taken (I : Inv s) {e : Nat} (h : s.w e = .taken) : ∀ i g', At s.tr i g' e .fixed true → Kn s.tr (.work (s.own e)) i := by
  intro i g' ha
  have := (I.fixed _ _ _ ha).1
  rw [h] at this; exact this

/-- Only the way to the handler changes. -/
theorem Inv.setW (I : Inv s) {e : Nat} {st : WSt} (l : List Op) (hl : ∀ a ∈ l, a.quiet = true) (hne : s.w e ≠ .assigned)
    (h : ∀ i, PW s.tr (s.w e) (s.own e) e i → PW (s.tr ++ l) st (s.own e) e i) : Inv { s with tr := s.tr ++ l, w := upd s.w e st } := by
  refine I.move l hl rfl (Nat.le_refl _) ?_ I.mem I.gone ?_ (fun e' i _ hp => hp.mono) (fun i g e' ha => ?_)
  · intro g e' hr
    obtain ⟨h1, h2⟩ := I.refs g e' hr
    refine ⟨h1, ?_⟩
    show upd s.w e st e' = _
    rw [upd_other _ _ (by rintro rfl; exact hne h2)]; exact h2
  · intro e' i _ hp
    show PW _ (upd s.w e st e') _ _ _
    by_cases he : e' = e
    · subst he; rw [upd_self]; exact h i hp
    · rw [upd_other _ _ he]; exact hp.mono
  · rcases ha with ha | ha
    · exact (I.fixed _ _ _ ha).2.2.mono
    · exact (I.prodW _ _ _ ha).mono

/-- Only the way to the commit changes. -/
theorem Inv.setF (I : Inv s) {e : Nat} {st : FSt} (l : List Op) (hl : ∀ a ∈ l, a.quiet = true) (hne : ∀ n, e ∉ s.mem n) (hst : ∀ n, st ≠ .node n)
    (h : ∀ i, PF s.tr (s.f e) s.node e i → PF (s.tr ++ l) st s.node e i) : Inv { s with tr := s.tr ++ l, f := upd s.f e st } := by
  refine I.move l hl rfl (Nat.le_refl _) I.refs ?_ ?_ (fun e' i _ hp => hp.mono) ?_ (fun i g e' ha => ?_)
  · intro n e' hm
    obtain ⟨h1, h2⟩ := I.mem n e' hm
    refine ⟨h1, ?_⟩
    show upd s.f e st e' = _
    rw [upd_other _ _ (by rintro rfl; exact hne n hm)]; exact h2
  · intro n t e' hn hb
    show upd s.f e st e' ≠ _
    by_cases he : e' = e
    · subst he; rw [upd_self]; exact hst n
    · rw [upd_other _ _ he]; exact I.gone n t e' hn hb
  · intro e' i _ hp
    show PF _ (upd s.f e st e') _ _ _
    by_cases he : e' = e
    · subst he; rw [upd_self]; exact h i hp
    · rw [upd_other _ _ he]; exact hp.mono
  · rcases ha with ha | ha
    · exact (I.fixed _ _ _ ha).2.2.mono
    · exact (I.prodW _ _ _ ha).mono

/-- Only a node changes. -/
theorem Inv.setN (I : Inv s) {n : Nat} {st : NSt} (l : List Op) (hl : ∀ a ∈ l, a.quiet = true)
    (hst : ∀ t, st ≠ .free t)
    (h : ∀ i e, e < s.born → s.f e = .node n → PN s.tr (s.node n) i → PN (s.tr ++ l) st i) : Inv { s with tr := s.tr ++ l, node := upd s.node n st } := by
  refine I.move l hl rfl (Nat.le_refl _) I.refs I.mem ?_ (fun e' i _ hp => hp.mono) ?_ (fun i g e' ha => ?_)
  · intro m t e' hm hb
    have hm' : upd s.node n st m = .free t := hm
    by_cases he : m = n
    · subst he; rw [upd_self] at hm'; exact absurd hm' (hst t)
    · rw [upd_other _ _ he] at hm'; exact I.gone m t e' hm' hb
  · intro e' i hb hp
    show PF _ (s.f e') (upd s.node n st) _ _
    cases hf : s.f e' with
    | buffered => rw [hf] at hp; exact hp.mono
    | got => rw [hf] at hp; exact hp.mono
    | out => trivial
    | node m =>
      rw [hf] at hp
      show PN _ (upd s.node n st m) i
      by_cases hm : m = n
      · subst hm; rw [upd_self]; exact h i e' hb hf hp
      · rw [upd_other _ _ hm]; exact PN.mono hp
  · rcases ha with ha | ha
    · exact (I.fixed _ _ _ ha).2.2.mono
    · exact (I.prodW _ _ _ ha).mono

/-- Nothing but the trace changes. -/
theorem Inv.quiet (I : Inv s) (l : List Op) (hl : ∀ a ∈ l, a.quiet = true) : Inv { s with tr := s.tr ++ l } := by
  refine I.move l hl rfl (Nat.le_refl _) I.refs I.mem I.gone (fun e' i _ hp => hp.mono) (fun e' i _ hp => hp.mono) (fun i g e' ha => ?_)
  rcases ha with ha | ha
  · exact (I.fixed _ _ _ ha).2.2.mono
  · exact (I.prodW _ _ _ ha).mono

/-- What the invariant does not speak of. -/
theorem Inv.rest (I : Inv s) {gi : Nat → Option Bool} {cl se : Nat → Bool} {ha : Option Nat} {sw bu : Bool} {ms : Nat} :
    Inv { s with given := gi, closed := cl, seen := se, hand := ha, swap := sw, busy := bu, msgs := ms } :=
  ⟨I.lt, I.refs, I.mem, I.fixed, I.link, I.prod, I.prodW, I.free, I.gone, I.comr⟩

theorem inv_create (I : Inv s) {k : Nat} (h : step pt s (.create k) = some s') : Inv s' := by
  simp only [step, Option.some.injEq] at h
  subst h
  -- the context exists, with the goroutine that makes it
  have I0 : Inv { s with own := upd s.own s.born k, w := upd s.w s.born .pushed, f := upd s.f s.born .out, born := s.born + 1 } := by
    refine I.move [] (by simp) (by simp) (Nat.le_succ _) ?_ ?_ ?_ ?_ ?_ (fun i g e' ha => ?_)
    · intro g e' hr
      obtain ⟨h1, h2⟩ := I.refs g e' hr
      refine ⟨Nat.lt_succ_of_lt h1, ?_⟩
      show upd s.w s.born _ e' = _
      rw [upd_other _ _ (by omega)]; exact h2
    · intro n e' hm
      obtain ⟨h1, h2⟩ := I.mem n e' hm
      refine ⟨Nat.lt_succ_of_lt h1, ?_⟩
      show upd s.f s.born _ e' = _
      rw [upd_other _ _ (by omega)]; exact h2
    · intro n t e' hn hb
      have hb' : e' < s.born + 1 := hb
      show upd s.f s.born _ e' ≠ _
      by_cases he : e' = s.born
      · subst he; rw [upd_self]; simp
      · rw [upd_other _ _ he]; exact I.gone n t e' hn (by omega)
    · intro e' i he hp
      show PW s.tr (upd s.w s.born _ e') (upd s.own s.born k e') e' i
      rw [upd_other _ _ (by omega), upd_other _ _ (by omega)]; exact hp
    · intro e' i he hp
      show PF s.tr (upd s.f s.born _ e') s.node e' i
      rw [upd_other _ _ (by omega)]; exact hp
    · rcases ha with ha | ha
      · exact (I.fixed _ _ _ ha).2.2
      · exact I.prodW _ _ _ ha
  have hno : ∀ i g f w, ¬ At s.tr i g s.born f w := fun i g f w h => Nat.lt_irrefl _ (I.lt _ _ _ _ _ h)
  have hnr : ∀ g, (g, s.born) ∉ s.refs := fun g h => Nat.lt_irrefl _ (I.refs _ _ h).1
  have hnm : ∀ n, s.born ∉ s.mem n := fun n h => Nat.lt_irrefl _ (I.mem _ _ h).1
  -- the four writes
  have wr : ∀ (f : Fld) (l : List Op), (∀ i g w, ¬ At (s.tr ++ l) i g s.born f w) →
      Inv { s with own := upd s.own s.born k, w := upd s.w s.born .pushed, f := upd s.f s.born .out, born := s.born + 1, tr := s.tr ++ l } →
      Inv { s with
        own := upd s.own s.born k, w := upd s.w s.born .pushed, f := upd s.f s.born .out, born := s.born + 1,
        tr := s.tr ++ l ++ [.acc (.push k) s.born f true] } := by
    intro f l hl J
    refine J.acc (Nat.lt_succ_self _) (fun h => by cases h) (fun i g' w' h _ _ => absurd h (hl i g' w')) ?_ ?_ ?_
    · intro _
      show PW _ (upd s.w s.born _ s.born) (upd s.own s.born k s.born) _ _
      rw [upd_self, upd_self]; exact kn_self _
    · intro _
      show PF _ (upd s.f s.born _ s.born) _ _ _
      rw [upd_self]; trivial
    · intro _ _ g hg; exact absurd hg (hnr g)
  have notin : ∀ (l : List Op) (f : Fld), (∀ a ∈ l, ∀ g w, a ≠ .acc g s.born f w) → ∀ i g w, ¬ At (s.tr ++ l) i g s.born f w := by
    intro l f hl i g w h
    unfold At at h
    by_cases hi : i < s.tr.length
    · rw [List.getElem?_append_left hi] at h; exact hno i g f w h
    · rw [List.getElem?_append_right (by omega)] at h
      exact hl _ (List.mem_of_getElem? h) g w rfl
  have I1 := wr .fixed [] (notin [] _ (by simp)) (by simpa using I0)
  have I2 := wr .prev [.acc (.push k) s.born .fixed true] (notin _ _ (by simp)) (by simpa using I1)
  have I3 := wr .next [.acc (.push k) s.born .fixed true, .acc (.push k) s.born .prev true] (notin _ _ (by simp)) (by simpa using I2)
  have I4 := wr .producer [.acc (.push k) s.born .fixed true, .acc (.push k) s.born .prev true, .acc (.push k) s.born .next true] (notin _ _ (by simp))
    (by simpa using I3)
  -- it is sent
  have I4' : Inv { s with
      own := upd s.own s.born k, w := upd s.w s.born .pushed, f := upd s.f s.born .out, born := s.born + 1,
      tr := s.tr ++ [.acc (.push k) s.born .fixed true, .acc (.push k) s.born .prev true, .acc (.push k) s.born .next true, .acc (.push k) s.born .producer true] } := by
    simpa using I4
  have kn : ∀ i, (∃ g f w, At (s.tr ++ [.acc (.push k) s.born .fixed true, .acc (.push k) s.born .prev true, .acc (.push k) s.born .next true,
      .acc (.push k) s.born .producer true]) i g s.born f w) → Kn (s.tr ++ [.acc (.push k) s.born .fixed true, .acc (.push k) s.born .prev true, .acc (.push k) s.born .next true,
      .acc (.push k) s.born .producer true]) (.push k) i := by
    rintro i ⟨g, f, w, h⟩
    refine ⟨i, _, h, ?_, .inl rfl⟩
    unfold At at h
    by_cases hi : i < s.tr.length
    · rw [List.getElem?_append_left hi] at h; exact absurd h (hno i g f w)
    · rw [List.getElem?_append_right (by omega)] at h
      have := List.mem_of_getElem? h
      simp only [List.mem_cons, List.not_mem_nil, or_false] at this
      rcases this with h | h | h | h <;> (cases h; rfl)
  set tr4 := s.tr ++ [Op.acc (.push k) s.born .fixed true, .acc (.push k) s.born .prev true, .acc (.push k) s.born .next true, .acc (.push k) s.born .producer true] with htr4
  have e5 : s.tr ++ [Op.acc (.push k) s.born .fixed true, .acc (.push k) s.born .prev true, .acc (.push k) s.born .next true, .acc (.push k) s.born .producer true,
      .snd (.push k) (.buffer s.born)] = tr4 ++ [.snd (.push k) (.buffer s.born)] := by simp [htr4]
  rw [e5]
  have hq : ∀ a ∈ [Op.snd (.push k) (.buffer s.born)], a.quiet = true := by simp [Op.quiet]
  have hF : ∀ e i, (∃ g f w, At tr4 i g e f w) → PF tr4 (upd s.f s.born .out e) s.node e i →
      PF (tr4 ++ [.snd (.push k) (.buffer s.born)]) (upd s.f s.born .buffered e) s.node e i := by
    intro e i ha hp
    by_cases he : e = s.born
    · subst he
      rw [upd_self]
      exact (kn i ha).snd _
    · rw [upd_other _ _ he] at hp ⊢; exact hp.mono
  refine ⟨?_, I4'.refs, ?_, ?_, ?_, ?_, ?_, ?_, ?_, fun i e f h => I4'.comr i e f (at_quiet hq h)⟩
  · intro i g e f w h; exact I4'.lt i g e f w (at_quiet hq h)
  · intro n e hm
    obtain ⟨h1, h2⟩ := I4'.mem n e hm
    refine ⟨h1, ?_⟩
    have hne : e ≠ s.born := by rintro rfl; exact hnm n hm
    have h2' : upd s.f s.born .out e = .node n := h2
    rw [upd_other _ _ hne] at h2'
    show upd s.f s.born .buffered e = _
    rw [upd_other _ _ hne]; exact h2'
  · intro i g e h
    have h0 := at_quiet hq h
    obtain ⟨h1, h2, h3⟩ := I4'.fixed i g e h0
    exact ⟨h1.mono, hF e i ⟨_, _, _, h0⟩ h2, h3.mono⟩
  · intro i g e f w h hf
    have h0 := at_quiet hq h
    exact hF e i ⟨_, _, _, h0⟩ (I4'.link i g e f w h0 hf)
  · intro i g e w h hg; exact (I4'.prod i g e w (at_quiet hq h) hg).mono
  · intro i g e h; exact (I4'.prodW i g e (at_quiet hq h)).mono
  · intro i j g e f w g' w' hij h1 h2 hw hf
    exact before_mono (I4'.free i j g e f w g' w' hij (at_quiet hq h1) (at_quiet hq h2) hw hf)
  · intro n t e hn hb
    have := I4'.gone n t e hn hb
    have h1 : upd s.f s.born .out e ≠ .node n := this
    show upd s.f s.born .buffered e ≠ .node n
    by_cases he : e = s.born
    · subst he; rw [upd_self]; simp
    · rw [upd_other _ _ he] at h1 ⊢; exact h1

theorem not_mem_of (I : Inv s) {e : Nat} (h : ∀ n, s.f e ≠ .node n) : ∀ n, e ∉ s.mem n := fun n hm => h n (I.mem n e hm).2

theorem inv_link (I : Inv s) {e n : Nat} (h : step pt s (.link e n) = some s') : Inv s' := by
  simp only [step] at h
  split at h
  · rename_i hc
    obtain ⟨he, hf, hn⟩ := hc
    cases h
    have hnm := not_mem_of I (e := e) (by rw [hf]; simp)
    have fin : ∀ l, Inv { s with tr := s.tr ++ l } → Inv { s with tr := s.tr ++ l, mem := upd s.mem n (s.mem n ++ [e]), f := upd s.f e (.node n) } := by
      intro l J
      refine J.move [] (by simp) (by simp) (Nat.le_refl _) J.refs ?_ ?_ (fun e' i _ hp => hp) ?_ (fun i g e' ha => ?_)
      · intro m e' hm
        have hm' : e' ∈ upd s.mem n (s.mem n ++ [e]) m := hm
        show e' < s.born ∧ upd s.f e (.node n) e' = .node m
        by_cases hmn : m = n
        · subst hmn
          rw [upd_self, List.mem_append, List.mem_singleton] at hm'
          rcases hm' with hm' | rfl
          · obtain ⟨h1, h2⟩ := I.mem m e' hm'
            refine ⟨h1, ?_⟩
            rw [upd_other _ _ (by rintro rfl; exact hnm m hm')]; exact h2
          · exact ⟨he, upd_self _ _ _⟩
        · rw [upd_other _ _ hmn] at hm'
          obtain ⟨h1, h2⟩ := I.mem m e' hm'
          refine ⟨h1, ?_⟩
          rw [upd_other _ _ (by rintro rfl; exact hnm m hm')]; exact h2
      · intro m t e' hm hb
        show upd s.f e (.node n) e' ≠ _
        by_cases h : e' = e
        · subst h
          rw [upd_self]
          intro h; cases h
          have hm' : s.node n = .free t := hm
          rw [hn] at hm'; cases hm'
        · rw [upd_other _ _ h]; exact I.gone m t e' hm hb
      · intro e' i _ hp
        show PF _ (upd s.f e (.node n) e') _ _ _
        by_cases h : e' = e
        · subst h
          rw [upd_self]
          have hp' : PF (s.tr ++ l) (s.f e') s.node e' i := hp
          rw [hf] at hp'
          show PN _ (s.node n) i
          rw [hn]; exact hp'
        · rw [upd_other _ _ h]; exact hp
      · rcases ha with ha | ha
        · exact (J.fixed _ _ _ ha).2.2
        · exact J.prodW _ _ _ ha
    have I1 := I.look (g := .fwd) he (know_got I hf)
    cases ht : tail pt s n e with
    | none => exact fin _ I1
    | some d =>
      have hd : d ∈ s.mem n := (List.mem_filter.1 (List.mem_of_getLast? ht)).1
      obtain ⟨hd1, hd2⟩ := I.mem n d hd
      have I2 : Inv { s with tr := s.tr ++ [.acc .fwd e .fixed false] ++ [.acc .fwd e .prev true] } := by
        refine I1.chain (.inl rfl) he (fun h => by cases h) ?_ ?_
        · intro i g' w' ha
          have := I1.link _ _ _ _ _ ha (.inl rfl)
          simp only [hf, PF] at this; exact this
        · intro hk
          show PF _ (s.f e) _ _ _
          rw [hf]; exact hk
      have I3 : Inv { s with tr := s.tr ++ [.acc .fwd e .fixed false] ++ [.acc .fwd e .prev true] ++ [.acc .fwd d .next true] } := by
        refine I2.chain (.inr rfl) hd1 (fun h => by cases h) ?_ ?_
        · intro i g' w' ha
          have := I2.link _ _ _ _ _ ha (.inr rfl)
          simp only [hd2, PF, hn] at this; exact this
        · intro hk
          show PF _ (s.f d) _ _ _
          rw [hd2]
          show PN _ (s.node n) _
          rw [hn]; exact hk
      have := fin [.acc .fwd e .fixed false, .acc .fwd e .prev true, .acc .fwd d .next true] (by simpa using I3)
      exact this
  · cases h

theorem inv_clearOps (I : Inv s) {n : Nat} (hn : s.node n = .commit) :
    ∀ es, (∀ e ∈ es, e ∈ s.mem n) → ∀ l, Inv { s with tr := s.tr ++ l } → Inv { s with tr := s.tr ++ l ++ clearOps es } := by
  intro es
  induction es with
  | nil => intro _ l J; simpa [clearOps] using J
  | cons e es ih =>
    intro hes l J
    obtain ⟨he, hf⟩ := I.mem n e (hes e (by simp))
    have J1 := J.look (g := .com) (e := e) he (know_com J hf hn)
    have J2 : Inv { s with tr := s.tr ++ l ++ [.acc .com e .fixed false] ++ [.acc .com e .prev false] } := by
      refine J1.chain (.inl rfl) he (fun _ => rfl) ?_ ?_
      · intro i g' w' ha
        have := J1.link _ _ _ _ _ ha (.inl rfl)
        simp only [hf, PF, hn] at this; exact this
      · intro hk
        show PF _ (s.f e) _ _ _
        rw [hf]
        show PN _ (s.node n) _
        rw [hn]; exact hk
    have := ih (fun x hx => hes x (by simp [hx])) (l ++ [.acc .com e .fixed false, .acc .com e .prev false]) (by simpa using J2)
    simpa [clearOps, List.append_assoc] using this

theorem inv_step (I : Inv s) {x : Act} (h : step pt s x = some s') : Inv s' := by
  cases x with
  | create k => exact inv_create I h
  | link e n => exact inv_link I h
  | push e =>
    simp only [step] at h
    split at h
    · rename_i hc
      cases h
      refine I.setW _ (by simp [Op.quiet]) (by rw [hc.2]; simp) ?_
      intro i hp
      rw [hc.2] at hp
      exact Kn.snd hp _
    · cases h
  | recv e =>
    simp only [step] at h
    split at h
    · rename_i hc
      obtain ⟨he, hf, -⟩ := hc
      cases h
      have I1 := I.setF (e := e) (st := .got) [.rcv .fwd (.buffer e)] (by simp [Op.quiet]) (not_mem_of I (by rw [hf]; simp)) (by simp) (by
        intro i hp
        rw [hf] at hp
        exact Ms.rcv hp _)
      have I2 := I1.look (g := .fwd) (e := e) he (know_got I1 (upd_self _ _ _))
      have := I2.rest (gi := s.given) (cl := s.closed) (se := s.seen) (ha := some e) (sw := s.swap) (bu := s.busy) (ms := s.msgs)
      simpa using this
    · cases h
  | refuse e =>
    simp only [step] at h
    split at h
    · rename_i hc
      obtain ⟨he, hf, -⟩ := hc
      cases h
      have I1 := I.look (g := .fwd) he (know_got I hf)
      have I2 := I1.quiet [.snd .fwd (.given e)] (by simp [Op.quiet])
      have I3 := I2.look (g := .fwd) (e := e) he (know_got I2 hf)
      have I4 := I3.setF (e := e) (st := .out) [] (by simp) (not_mem_of I3 (by show ∀ n, s.f e ≠ _; rw [hf]; simp)) (by simp) (fun _ _ => trivial)
      have := I4.rest (gi := upd s.given e (some false)) (cl := s.closed) (se := s.seen) (ha := none) (sw := s.swap) (bu := s.busy) (ms := s.msgs)
      simpa using this
    · cases h
  | give e =>
    simp only [step] at h
    split at h
    · rename_i n hf
      split at h
      · rename_i hc
        cases h
        have I1 := I.look (g := .fwd) hc.1 (know_deck I hf hc.2.2.1)
        have I2 := I1.quiet [.snd .fwd (.given e)] (by simp [Op.quiet])
        have := I2.rest (gi := upd s.given e (some true)) (cl := s.closed) (se := s.seen) (ha := none) (sw := s.swap) (bu := s.busy) (ms := s.msgs)
        simpa using this
      · cases h
    · cases h
  | flush n =>
    simp only [step] at h
    split at h
    · rename_i hc
      cases h
      have I1 := I.setN (n := n) (st := .queued s.msgs) [.snd .fwd (.node s.msgs)] (by simp [Op.quiet]) (by simp) (by
        intro i _ _ _ hp
        rw [hc.1] at hp
        exact Kn.snd hp _)
      exact I1.rest (gi := s.given) (cl := s.closed) (se := s.seen) (ha := s.hand) (sw := true) (bu := s.busy) (ms := s.msgs + 1)
    · cases h
  | swapIn n =>
    simp only [step] at h
    split at h
    · split at h
      · rename_i hn
        cases h
        have I1 := I.setN (n := n) (st := .deck) [] (by simp) (by simp) (fun i e he hf _ => absurd hf (I.gone n _ e hn he))
        have := I1.rest (gi := s.given) (cl := s.closed) (se := s.seen) (ha := s.hand) (sw := false) (bu := s.busy) (ms := s.msgs)
        simpa using this
      · rename_i t hn
        cases h
        have I1 := I.setN (n := n) (st := .deck) [.rcv .fwd (.back t)] (by simp [Op.quiet]) (by simp) (fun i e he hf _ => absurd hf (I.gone n _ e hn he))
        exact I1.rest (gi := s.given) (cl := s.closed) (se := s.seen) (ha := s.hand) (sw := false) (bu := s.busy) (ms := s.msgs)
      · cases h
    · cases h
  | takeNode n =>
    simp only [step] at h
    split at h
    · rename_i t hn
      split at h
      · cases h
        have I1 := I.setN (n := n) (st := .commit) [.rcv .com (.node t)] (by simp [Op.quiet]) (by simp) (by
          intro i _ _ _ hp
          rw [hn] at hp
          exact Ms.rcv hp _)
        exact I1.rest (gi := s.given) (cl := s.closed) (se := s.seen) (ha := s.hand) (sw := s.swap) (bu := true) (ms := s.msgs)
      · cases h
    · cases h
  | visit e =>
    simp only [step] at h
    split at h
    · rename_i n hf
      split at h
      · rename_i hc
        cases h
        obtain ⟨he, hn, -⟩ := hc
        have I1 := I.look (g := .com) he (know_com I hf hn)
        have I2 := I1.quiet [.rcv .com (.done e)] (by simp [Op.quiet])
        have I3 := I2.look (g := .com) (e := e) he (know_com I2 hf hn)
        have I4 := I3.chain (g := .com) (e := e) (f := .prev) (w := false) (.inl rfl) he (fun _ => rfl) (by
          intro i g' w' ha
          have := I3.link _ _ _ _ _ ha (.inl rfl)
          simp only [hf, PF, hn] at this; exact this) (by
          intro hk
          show PF _ (s.f e) _ _ _
          rw [hf]
          show PN _ (s.node n) _
          rw [hn]; exact hk)
        have := I4.rest (gi := s.given) (cl := s.closed) (se := upd s.seen e true) (ha := s.hand) (sw := s.swap) (bu := s.busy) (ms := s.msgs)
        simpa using this
      · cases h
    · cases h
  | timeout e =>
    simp only [step] at h
    split at h
    · rename_i n hf
      split at h
      · rename_i hc
        cases h
        obtain ⟨he, hn, -⟩ := hc
        have I1 := I.look (g := .com) he (know_com I hf hn)
        have I2 : Inv { s with tr := s.tr ++ [.acc .com e .fixed false] ++ [.acc .com e .producer false] } := by
          refine I1.acc he (fun _ => rfl) (fun i g' w' _ _ hx => absurd rfl (hx rfl).1) ?_ ?_ ?_
          · rintro (⟨h, -⟩ | ⟨-, h⟩)
            · cases h
            · exact absurd rfl h
          · rintro (⟨h, -⟩ | h | h) <;> cases h
          · intro h; cases h
        have ch : ∀ (f : Fld) (l : List Op), f = .prev ∨ f = .next → Inv { s with tr := s.tr ++ l } → Inv { s with tr := s.tr ++ l ++ [.acc .com e f false] } := by
          intro f l hx J
          refine J.chain hx he (fun _ => rfl) ?_ ?_
          · intro i g' w' ha
            have := J.link _ _ _ _ _ ha hx
            simp only [hf, PF, hn] at this; exact this
          · intro hk
            show PF _ (s.f e) _ _ _
            rw [hf]
            show PN _ (s.node n) _
            rw [hn]; exact hk
        have I3 := ch .next [.acc .com e .fixed false, .acc .com e .producer false] (.inr rfl) (by simpa using I2)
        have I4 := ch .prev [.acc .com e .fixed false, .acc .com e .producer false, .acc .com e .next false] (.inl rfl) (by simpa using I3)
        have I5 := I4.setN (n := n) (st := .lost) [] (by simp) (by simp) (fun _ _ _ _ _ => trivial)
        have := I5.rest (gi := s.given) (cl := s.closed) (se := s.seen) (ha := s.hand) (sw := s.swap) (bu := false) (ms := s.msgs)
        simpa using this
      · cases h
    · cases h
  | clear n =>
    simp only [step] at h
    split at h
    · rename_i hc
      cases h
      have I1 := inv_clearOps I hc.1 (s.mem n) (fun e he => he) [] (by simpa using I)
      have I2 : Inv { s with tr := s.tr ++ clearOps (s.mem n) } := by simpa using I1
      refine I2.move [.snd .com (.back s.msgs)] (by simp [Op.quiet]) rfl (Nat.le_refl _) I2.refs ?_ ?_ (fun e' i _ hp => hp.mono) ?_ (fun i g e' ha => ?_)
      · intro m e' hm
        have hm' : e' ∈ upd s.mem n [] m := hm
        by_cases hmn : m = n
        · subst hmn; rw [upd_self] at hm'; cases hm'
        · rw [upd_other _ _ hmn] at hm'
          obtain ⟨h1, h2⟩ := I.mem m e' hm'
          refine ⟨h1, ?_⟩
          show (if s.f e' = .node n then FSt.out else s.f e') = .node m
          rw [h2, if_neg (by intro h; cases h; exact hmn rfl)]
      · intro m t e' hm hb
        have hm' : upd s.node n (.free (some s.msgs)) m = .free t := hm
        show (if s.f e' = .node n then FSt.out else s.f e') ≠ .node m
        split
        · simp
        · rename_i hne
          by_cases hmn : m = n
          · subst hmn; exact hne
          · rw [upd_other _ _ hmn] at hm'; exact I.gone m t e' hm' hb
      · intro e' i _ hp
        have hp' : PF (s.tr ++ clearOps (s.mem n)) (s.f e') s.node e' i := hp
        show PF _ (if s.f e' = .node n then FSt.out else s.f e') (upd s.node n _) _ _
        split
        · trivial
        · rename_i hne
          cases hf : s.f e' with
          | buffered => rw [hf] at hp'; exact hp'.mono
          | got => rw [hf] at hp'; exact hp'.mono
          | out => trivial
          | node m =>
            rw [hf] at hp' hne
            show PN _ (upd s.node n _ m) i
            rw [upd_other _ _ (by rintro rfl; exact hne rfl)]; exact PN.mono hp'
      · rcases ha with ha | ha
        · exact (I2.fixed _ _ _ ha).2.2.mono
        · exact (I2.prodW _ _ _ ha).mono
    · cases h
  | take e =>
    simp only [step] at h
    split at h
    · rename_i hc
      cases h
      refine I.setW _ (by simp [Op.quiet]) (by rw [hc.2]; simp) ?_
      intro i hp
      rw [hc.2] at hp
      exact Ms.rcv hp _
    · cases h
  | assign e =>
    simp only [step] at h
    split at h
    · rename_i hc
      obtain ⟨he, hw⟩ := hc
      split at h
      · cases h
      · rename_i b hb
        cases h
        have hnr : ∀ g, (g, e) ∉ s.refs := by
          intro g hg
          have := (I.refs g e hg).2
          rw [hw] at this; cases this
        have I1 := I.look (g := .work (s.own e)) he (know_taken I hw)
        have I2 := I1.quiet [.rcv (.work (s.own e)) (.given e)] (by simp [Op.quiet])
        have pr : ∀ (w : Bool) (l : List Op), Inv { s with tr := s.tr ++ l } → Inv { s with tr := s.tr ++ l ++ [.acc (.work (s.own e)) e .producer w] } := by
          intro w l J
          refine J.acc he (fun h => by cases h) ?_ ?_ ?_ ?_
          · intro i g' w' ha _ hx
            have := J.prod _ _ _ _ ha (hx rfl).2
            simp only [hw, PW] at this; exact this
          · intro _
            show PW _ (s.w e) _ _ _
            rw [hw]; exact kn_self _
          · rintro (⟨h, -⟩ | h | h) <;> cases h
          · intro _ _ g hg; exact absurd hg (hnr g)
        have I3 := pr true [.acc (.work (s.own e)) e .fixed false, .rcv (.work (s.own e)) (.given e)] (by simpa using I2)
        have I4 := pr false [.acc (.work (s.own e)) e .fixed false, .rcv (.work (s.own e)) (.given e), .acc (.work (s.own e)) e .producer true] (by simpa using I3)
        have I5 : Inv { s with tr := s.tr ++ [.acc (.work (s.own e)) e .fixed false, .rcv (.work (s.own e)) (.given e), .acc (.work (s.own e)) e .producer true,
            .acc (.work (s.own e)) e .producer false] } := by simpa using I4
        refine I5.move [] (by simp) (by simp) (Nat.le_refl _) ?_ I5.mem I5.gone ?_ (fun e' i _ hp => hp) ?_
        · intro g e' hr
          have hr' : (g, e') ∈ (if b = true then s.refs ++ [(Gor.work (s.own e), e)] else s.refs) := hr
          show e' < s.born ∧ upd s.w e .assigned e' = .assigned
          by_cases h : e' = e
          · subst h; exact ⟨he, upd_self _ _ _⟩
          · rw [upd_other _ _ h]
            split at hr'
            · rcases List.mem_append.1 hr' with h1 | h1
              · exact I.refs g e' h1
              · rw [List.mem_singleton] at h1; cases h1; exact absurd rfl h
            · exact I.refs g e' hr'
        · intro e' i _ hp
          show PW _ (upd s.w e .assigned e') _ _ _
          by_cases h : e' = e
          · subst h; rw [upd_self]; trivial
          · rw [upd_other _ _ h]; exact hp
        · intro i g e' ha g' hg'
          have hr' : (g', e') ∈ (if b = true then s.refs ++ [(Gor.work (s.own e), e)] else s.refs) := hg'
          have old : (g', e') ∈ s.refs → Kn (s.tr ++ [.acc (.work (s.own e)) e .fixed false, .rcv (.work (s.own e)) (.given e), .acc (.work (s.own e)) e .producer true,
              .acc (.work (s.own e)) e .producer false]) g' i := by
            intro h
            rcases ha with ha | ha
            · exact (I5.fixed _ _ _ ha).2.2 g' h
            · exact I5.prodW _ _ _ ha g' h
          split at hr'
          · rcases List.mem_append.1 hr' with h1 | h1
            · exact old h1
            · rw [List.mem_singleton] at h1
              cases h1
              rcases ha with ha | ha
              · have := (I5.fixed _ _ _ ha).1
                simp only [hw, PW] at this; exact this
              · have hcom : g ≠ .com := by
                  rintro rfl
                  exact I5.comr _ _ _ ha
                have := I5.prod _ _ _ _ ha hcom
                simp only [hw, PW] at this; exact this
          · exact old hr'
    · cases h
  | use g e f =>
    simp only [step] at h
    split at h
    · rename_i hc
      obtain ⟨hr, hf⟩ := hc
      cases h
      obtain ⟨he, hw⟩ := I.refs g e hr
      rcases hf with rfl | rfl
      · exact I.look he (know_ref I hr)
      · refine I.acc he (fun _ => rfl) ?_ ?_ ?_ ?_
        · intro i g' w' ha hww _
          rcases hww with h | rfl
          · cases h
          · exact I.prodW _ _ _ ha g hr
        · intro _
          rw [hw]; trivial
        · rintro (⟨h, -⟩ | h | h) <;> cases h
        · intro h; cases h
    · cases h
  | pass g g' e =>
    simp only [step] at h
    split at h
    · rename_i hc
      obtain ⟨hr, -⟩ := hc
      cases h
      refine I.move [.snd g (.pass s.msgs), .rcv g' (.pass s.msgs)] (by simp [Op.quiet]) rfl (Nat.le_refl _) ?_ I.mem I.gone (fun e' i _ hp => hp.mono)
        (fun e' i _ hp => hp.mono) ?_
      · intro g1 e1 h1
        rcases List.mem_append.1 h1 with h1 | h1
        · exact I.refs g1 e1 h1
        · rw [List.mem_singleton] at h1; cases h1; exact I.refs g e hr
      · intro i g1 e1 ha g2 h2
        have kn : ∀ g3, (g3, e1) ∈ s.refs → Kn s.tr g3 i := by
          intro g3 h3
          rcases ha with ha | ha
          · exact (I.fixed _ _ _ ha).2.2 g3 h3
          · exact I.prodW _ _ _ ha g3 h3
        rcases List.mem_append.1 h2 with h2 | h2
        · exact (kn g2 h2).mono
        · rw [List.mem_singleton] at h2
          cases h2
          have := ((kn g hr).snd (.pass s.msgs)).rcv g'
          simpa using this
    · cases h
  | finish e =>
    simp only [step] at h
    split at h
    · rename_i hc
      cases h
      obtain ⟨he, -⟩ := I.refs _ e hc.1
      have I1 := I.look (g := .work (s.own e)) he (know_ref I hc.1)
      have I2 := I1.quiet [.snd (.work (s.own e)) (.done e)] (by simp [Op.quiet])
      have := I2.rest (gi := s.given) (cl := upd s.closed e true) (se := s.seen) (ha := s.hand) (sw := s.swap) (bu := s.busy) (ms := s.msgs)
      simpa using this
    · cases h

theorem inv_reach {poolSize : Nat} (h : Reach pt poolSize s) : Inv s := by
  induction h with
  | init => exact inv_init _
  | step x _ hx ih => exact inv_step ih hx

end Verif.Shared

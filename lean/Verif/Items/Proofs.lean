import Verif.Items.Shape
/-
Who holds what, and that everything is handed over in order.
-/
namespace Verif.Items
open Verif.Eos (upd)

/-- Who holds an executor. -/
def exHold (s : St) (x : Nat) : Holder :=
  match s.exe x with
  | none => .mutex
  | some r => match s.rst r with
    | .new => .msg (.go r)
    | _ => .gor (.run r)

/-- Who holds an item. -/
def iHold (s : St) (i : Nat) : Holder :=
  match s.ist i with
  | .made => .gor (.work (s.own (s.ib i)))
  | .pend => .mutex
  | .ex x => exHold s x
  | .done => match s.bst (s.ib i) with
    | .sent => .msg (.job (s.ib i))
    | .called => .gor (.work (s.own (s.ib i)))
    | _ => .atom (s.ib i)

/-- Everything is in order and known to its holder. -/
structure MI (s : St) : Prop where
  lo : Fine s.tr .mutex .locked
  sl : ∀ x, Fine s.tr (exHold s x) (.slice x)
  rs : ∀ i, i < s.items → Fine s.tr (iHold s i) (.res i)
  k1 : ∀ i, i < s.items → KnownF s.tr (iHold s i) i
  k2 : ∀ x i, i ∈ s.has x → KnownF s.tr (exHold s x) i
  of : ∀ i, OrdF s.tr i
  fr : ∀ o ∈ s.tr, ∀ i, o.at (.res i) = true ∨ o.at (.fixed i) = true → i < s.items
  l0 : ∀ o ∈ s.tr, ∀ b, o.at (.list b) = true → b < s.batches
  l1 : ∀ b, s.bst b = .fill → ∀ o ∈ s.tr, o.at (.list b) = true → o.gor = .work (s.own b)
  l2 : ∀ b, OrdL s.tr b
  l3 : ∀ i, i < s.items → KnownL s.tr (iHold s i) (s.ib i)
  l4 : ∀ b, ∀ o ∈ s.tr, o.fills b → o.gor = .work (s.own b)
  l5 : ∀ x i, i ∈ s.has x → KnownL s.tr (exHold s x) (s.ib i)

theorem mi_init : MI St.init := by
  constructor <;> simp [St.init, Fine, KnownF, OrdF, KnownL, OrdL]

theorem Ok.none {h' : Holder} {L : Loc} : ∀ (l : List Op) (S : List Holder), (∀ o ∈ l, o.at L = false) → Ok h' L S l
  | [], _, _ => trivial
  | o :: l, _, h => ⟨fun ha => (by have := h o (by simp); rw [ha] at this; cases this), Ok.none l _ fun o' ho => h o' (List.mem_cons_of_mem _ ho)⟩

theorem OkF.none {i : Nat} : ∀ (l : List Op) (S : List Holder), (∀ o ∈ l, o.at (.fixed i) = false) → OkF i S l
  | [], _, _ => trivial
  | o :: l, _, h => ⟨fun ha => (by have := h o (by simp); rw [ha] at this; cases this), OkF.none l _ fun o' ho => h o' (List.mem_cons_of_mem _ ho)⟩

theorem makes_at {o : Op} {i : Nat} (h : o.makes i) : o.at (.fixed i) = true := by
  obtain ⟨g, rfl⟩ := h
  simp [Op.at]

theorem MI.extend {s s' : St} (M : MI s) (_ : SI s) (l : List Op) (g : Gor) (htr : s'.tr = s.tr ++ l) (hit : s'.items = s.items) (hg : ∀ o ∈ l, o.gor = g) (hn : ∀ o ∈ l, ∀ i, ¬ o.makes i)
    (hL : Ok .mutex .locked [.mutex] l)
    (hS : ∀ y, exHold s' y ∈ after [exHold s y] l ∧ Ok (exHold s' y) (.slice y) [exHold s y] l)
    (hR : ∀ j, j < s.items → iHold s' j ∈ after [iHold s j] l ∧ Ok (iHold s' j) (.res j) [iHold s j] l)
    (hH : ∀ y j, j ∈ s'.has y → j ∈ s.has y ∨ (j < s.items ∧ exHold s' y ∈ after [iHold s j] l))
    (hF : ∀ j, j < s.items → OkF j [iHold s j] l ∨ ∃ x, j ∈ s.has x ∧ OkF j [exHold s x] l)
    (hi : ∀ o ∈ l, ∀ i, o.at (.res i) = true ∨ o.at (.fixed i) = true → i < s.items)
    (hst : s'.batches = s.batches ∧ s'.own = s.own ∧ s'.ib = s.ib ∧ ∀ b, s'.bst b = .fill → s.bst b = .fill)
    (hla : ∀ o ∈ l, ∀ b, o.at (.list b) = true → ¬ o.fills b ∧ s.bst b ≠ .fill ∧ b < s.batches ∧ (o.gor = .work (s.own b) ∨ ∃ i, i < s.items ∧ s.ib i = b ∧ iHold s i = .gor o.gor)) : MI s' := by
  obtain ⟨lo, sl, rs, k1, k2, of, fr, l0, l1, l2, l3, l4, l5⟩ := M
  obtain ⟨t1, t2, t3, t4⟩ := hst
  have nf : ∀ b, ∀ o ∈ l, ¬ o.fills b := fun b o ho hf => (hla o ho b (fills_at hf)).1 hf
  have know : ∀ b, ∀ o ∈ l, o.at (.list b) = true → KnownL s.tr (.gor o.gor) b := by
    intro b o ho ha
    rcases (hla o ho b ha).2.2.2 with h | ⟨i, h1, h2, h3⟩
    · rw [h]; exact KnownL.own (l4 b)
    · rw [← h3, ← h2]; exact l3 i h1
  refine ⟨?_, fun y => ?_, fun j hj => ?_, fun j hj => ?_, fun y j hj => ?_, fun j => ?_, fun o ho i ha => ?_, fun o ho b ha => ?_, fun b hb o ho ha => ?_, fun b => ?_, fun j hj => ?_, fun b o ho hf => ?_, fun y j hj => ?_⟩
  · rw [htr]; exact lo.extend hg hL (after_sub l _ (by simp))
  · rw [htr]; exact (sl y).extend hg (hS y).2 (hS y).1
  · rw [hit] at hj; rw [htr]; exact (rs j hj).extend hg (hR j hj).2 (hR j hj).1
  · rw [hit] at hj; rw [htr]; exact (k1 j hj).extend (fun o ho => hn o ho j) (hR j hj).1
  · rw [htr]
    rcases hH y j hj with h | ⟨h1, h2⟩
    · exact (k2 y j h).extend (fun o ho => hn o ho j) (hS y).1
    · exact (k1 j h1).extend (fun o ho => hn o ho j) h2
  · rw [htr]
    by_cases hj : j < s.items
    · rcases hF j hj with h | ⟨x, h1, h2⟩
      · exact (of j).extend (k1 j hj) (fun o ho => hn o ho j) h
      · exact (of j).extend (k2 x j h1) (fun o ho => hn o ho j) h2
    · exact (of j).skip fun o ho => by
        cases h : o.at (.fixed j) with
        | false => rfl
        | true => exact absurd (hi o ho j (.inr h)) hj
  · rw [htr] at ho
    rw [hit]
    rcases List.mem_append.mp ho with ho | ho
    · exact fr o ho i ha
    · exact hi o ho i ha
  · rw [htr] at ho
    rw [t1]
    rcases List.mem_append.mp ho with ho | ho
    · exact l0 o ho b ha
    · exact (hla o ho b ha).2.2.1
  · rw [htr] at ho
    rw [t2]
    rcases List.mem_append.mp ho with ho | ho
    · exact l1 b (t4 b hb) o ho ha
    · exact absurd (t4 b hb) (hla o ho b ha).2.1
  · rw [htr]; exact (l2 b).extend (nf b) (know b)
  · rw [hit] at hj; rw [htr, t3]; exact (l3 j hj).extend (nf _) (hR j hj).1
  · rw [htr] at ho
    rw [t2]
    rcases List.mem_append.mp ho with ho | ho
    · exact l4 b o ho hf
    · exact absurd hf (nf b o ho)
  · rw [htr, t3]
    rcases hH y j hj with h | ⟨h1, h2⟩
    · exact (l5 y j h).extend (nf _) (hS y).1
    · exact (l3 j h1).extend (nf _) h2

theorem exHold_run {s : St} (I : SI s) {r : Nat} (h1 : r < s.runs) (h2 : s.rst r = .run) : exHold s (s.rx r) = .gor (.run r) := by
  simp [exHold, I.e2 r h1 (by rw [h2]; simp), h2]

theorem exHold_free {s : St} {x : Nat} (h : s.exe x = none) : exHold s x = .mutex := by
  simp [exHold, h]

/-- An item is put somewhere, by one who holds it or gets it with the lock. -/
theorem MI.put {s : St} (M : MI s) (I : SI s) {i : Nat} {x : Option Nat} {g : Gor} (hi : i < s.items) (hr : room s x = true) (hh : iHold s i = .gor g ∨ iHold s i = .mutex) (hb : s.bst (s.ib i) ≠ .fill) (pre : List Op) (hpre : pre = [] ∨ (g = .work (s.own (s.ib i)) ∧ pre = [.acc g (.list (s.ib i)) false])) :
    MI { Verif.Items.put s i x with tr := s.tr ++ (pre ++ [.lock g, .acc g .locked true, .acc g (.fixed i) false] ++ touch g x ++ [.unlock g]) } := by
  have he : ∀ y, exHold { Verif.Items.put s i x with tr := s.tr ++ (pre ++ [.lock g, .acc g .locked true, .acc g (.fixed i) false] ++ touch g x ++ [.unlock g]) } y = exHold s y := by
    intro y; cases x <;> rfl
  have hj : ∀ j, j ≠ i → iHold { Verif.Items.put s i x with tr := s.tr ++ (pre ++ [.lock g, .acc g .locked true, .acc g (.fixed i) false] ++ touch g x ++ [.unlock g]) } j = iHold s j := by
    intro j hj
    cases x with
    | none => simp only [iHold, Verif.Items.put, upd_ne _ _ hj]; rfl
    | some x => simp only [iHold, Verif.Items.put, upd_ne _ _ hj]; rfl
  have hii : iHold { Verif.Items.put s i x with tr := s.tr ++ (pre ++ [.lock g, .acc g .locked true, .acc g (.fixed i) false] ++ touch g x ++ [.unlock g]) } i = .mutex := by
    cases x with
    | none => simp [iHold, Verif.Items.put, upd_same]
    | some x =>
      have : s.exe x = none := by simpa [room] using hr
      simp only [iHold, Verif.Items.put, upd_same]
      exact exHold_free this
  have hx : ∀ x', x = some x' → exHold s x' = .mutex := by
    intro x' h; subst h
    exact exHold_free (by simpa [room] using hr)
  have toMutex : ∀ h : Holder, h = .gor g ∨ h = .mutex → Holder.mutex ∈ after [h] (pre ++ [.lock g, .acc g .locked true, .acc g (.fixed i) false] ++ touch g x ++ [.unlock g]) := by
    intro h hh
    rcases hpre with rfl | ⟨_, rfl⟩ <;> rcases hh with rfl | rfl <;> cases x <;> simp [after, touch, takes, gives, Op.gor]
  refine M.extend I _ g rfl (by cases x <;> rfl) ?_ ?_ ?_ ?_ ?_ ?_ ?_ ?_ ?_ ?_
  · rcases hpre with rfl | ⟨_, rfl⟩ <;> cases x <;> simp [touch, Op.gor]
  · rcases hpre with rfl | ⟨_, rfl⟩ <;> cases x <;> simp [touch, Op.makes]
  · rcases hpre with rfl | ⟨_, rfl⟩ <;> cases x <;> simp [Ok, touch, Op.at, takes, gives, after, Op.gor]
  · intro y
    rw [he y]
    refine ⟨after_sub _ _ (by simp), ?_⟩
    cases x with
    | none => rcases hpre with rfl | ⟨_, rfl⟩ <;> exact Ok.none _ _ (by simp [touch, Op.at])
    | some x =>
      by_cases hy : x = y
      · subst hy; rw [hx x rfl]; rcases hpre with rfl | ⟨_, rfl⟩ <;> simp [Ok, touch, Op.at, takes, gives, after, Op.gor]
      · rcases hpre with rfl | ⟨_, rfl⟩ <;> exact Ok.none _ _ (by simp [touch, Op.at, hy])
  · intro j hjl
    refine ⟨?_, by rcases hpre with rfl | ⟨_, rfl⟩ <;> exact Ok.none _ _ (by cases x <;> simp [touch, Op.at])⟩
    by_cases h : j = i
    · subst h; rw [hii]; exact toMutex _ hh
    · rw [hj j h]; exact after_sub _ _ (by simp)
  · intro y j hjy
    rw [he y]
    cases x with
    | none => exact .inl hjy
    | some x =>
      simp only [Verif.Items.put] at hjy
      by_cases hy : y = x
      · subst hy
        rw [upd_same] at hjy
        rcases List.mem_append.mp hjy with h | h
        · exact .inl h
        · rw [List.mem_singleton.mp h, hx y rfl]; exact .inr ⟨hi, toMutex _ hh⟩
      · rw [upd_ne _ _ hy] at hjy; exact .inl hjy
  · intro j hjl
    refine .inl ?_
    by_cases h : i = j
    · subst h
      rcases hpre with rfl | ⟨_, rfl⟩ <;> rcases hh with h | h <;> rw [h] <;> cases x <;> simp [OkF, touch, Op.at, takes, gives, Op.gor]
    · rcases hpre with rfl | ⟨_, rfl⟩ <;> exact OkF.none _ _ (by cases x <;> simp [touch, Op.at, h])
  · rcases hpre with rfl | ⟨_, rfl⟩ <;> cases x <;> simp [touch, Op.at] <;> omega
  · cases x <;> exact ⟨rfl, rfl, rfl, fun _ h => h⟩
  · have hil := I.il i hi
    rcases hpre with rfl | ⟨hg, rfl⟩
    · cases x <;> simp [touch, Op.at]
    · cases x <;> simp [touch, Op.at, Op.fills, hb, hil, Op.gor, hg]

/-- One execution does something to its executor and perhaps one of its items; nothing changes hands. -/
theorem MI.quiet {s : St} (M : MI s) (I : SI s) {r i : Nat} (h1 : r < s.runs) (h2 : s.rst r = .run) (hm : i ∈ s.has (s.rx r)) (l : List Op)
    (hl : l = [.acc (.run r) (.slice (s.rx r)) false, .acc (.run r) (.fixed i) false] ∨ (s.ist i = .ex (s.rx r) ∧ l = [.acc (.run r) (.slice (s.rx r)) false, .acc (.run r) (.fixed i) false, .acc (.run r) (.res i) true])) : MI { s with tr := s.tr ++ l } := by
  have hx := exHold_run I h1 h2
  have hil := I.hl _ _ hm
  refine M.extend I l (.run r) rfl rfl ?_ ?_ ?_ ?_ ?_ ?_ ?_ ?_ ?_ ?_
  · rcases hl with rfl | ⟨_, rfl⟩ <;> simp [Op.gor]
  · rcases hl with rfl | ⟨_, rfl⟩ <;> simp [Op.makes]
  · rcases hl with rfl | ⟨_, rfl⟩ <;> exact Ok.none _ _ (by simp [Op.at])
  · intro y
    refine ⟨after_sub _ _ (by simp [exHold]), ?_⟩
    show Ok (exHold s y) _ _ _
    by_cases hy : s.rx r = y
    · subst hy
      rw [hx]
      rcases hl with rfl | ⟨_, rfl⟩ <;> simp [Ok, Op.at, takes, gives, after, Op.gor]
    · rcases hl with rfl | ⟨_, rfl⟩ <;> exact Ok.none _ _ (by simp [Op.at, hy])
  · intro j hj
    refine ⟨after_sub _ _ (by simp [iHold, exHold]), ?_⟩
    show Ok (iHold s j) _ _ _
    rcases hl with rfl | ⟨he, rfl⟩
    · exact Ok.none _ _ (by simp [Op.at])
    · by_cases hji : i = j
      · subst hji
        have : iHold s i = .gor (.run r) := by simp only [iHold, he]; exact hx
        rw [this]
        simp [Ok, Op.at, takes, gives, after, Op.gor]
      · exact Ok.none _ _ (by simp [Op.at, hji])
  · intro y j hj; exact .inl hj
  · intro j hj
    by_cases hji : i = j
    · subst hji
      refine .inr ⟨_, hm, ?_⟩
      rw [hx]
      rcases hl with rfl | ⟨_, rfl⟩ <;> simp [OkF, Op.at, takes, gives, Op.gor]
    · refine .inl (OkF.none _ _ ?_)
      rcases hl with rfl | ⟨_, rfl⟩ <;> simp [Op.at, hji]
  · rcases hl with rfl | ⟨_, rfl⟩ <;> simp [Op.at] <;> omega
  · exact ⟨rfl, rfl, rfl, fun _ h => h⟩
  · rcases hl with rfl | ⟨_, rfl⟩ <;> simp [Op.at]

/-- An item is completed. -/
theorem MI.complete {s : St} (M : MI s) (I : SI s) {r i : Nat} (h1 : r < s.runs) (h2 : s.rst r = .run) (hi : s.ist i = .ex (s.rx r)) (l : List Op) (st : BSt) (lf : Nat → List Nat)
    (hl : (s.ph (s.ib i) = true ∧ st = .sent ∧ l = [.acc (.run r) (.slice (s.rx r)) false, .acc (.run r) (.list (s.ib i)) false, .snd (.run r) (.job (s.ib i))]) ∨
      (st = .sent ∧ l = [.acc (.run r) (.slice (s.rx r)) false, .acc (.run r) (.fixed i) false, .atom (.run r) (s.ib i), .acc (.run r) (.list (s.ib i)) false, .snd (.run r) (.job (s.ib i))]) ∨
      (st = .given ∧ l = [.acc (.run r) (.slice (s.rx r)) false, .acc (.run r) (.fixed i) false, .atom (.run r) (s.ib i), .acc (.run r) (.list (s.ib i)) false])) :
    MI { s with tr := s.tr ++ l, ist := upd s.ist i .done, left := lf, bst := upd s.bst (s.ib i) st } := by
  have hx := exHold_run I h1 h2
  have hm := I.hx _ _ hi
  have hil := I.hl _ _ hm
  have hg := I.given hi
  have hmem : i ∈ s.left (s.ib i) := (I.lf _ _).mpr ⟨hil, rfl, by rw [hi]; simp⟩
  have hih : iHold s i = .gor (.run r) := by simp only [iHold, hi]; exact hx
  have hi' : iHold { s with tr := s.tr ++ l, ist := upd s.ist i .done, left := lf, bst := upd s.bst (s.ib i) st } i = match st with | .sent => .msg (.job (s.ib i)) | .called => .gor (.work (s.own (s.ib i))) | _ => .atom (s.ib i) := by
    simp only [iHold, upd_same]
    cases st <;> rfl
  refine M.extend I l (.run r) rfl rfl ?_ ?_ ?_ ?_ ?_ ?_ ?_ ?_ ?_ ?_
  · rcases hl with ⟨_, _, rfl⟩ | ⟨_, rfl⟩ | ⟨_, rfl⟩ <;> simp [Op.gor]
  · rcases hl with ⟨_, _, rfl⟩ | ⟨_, rfl⟩ | ⟨_, rfl⟩ <;> simp [Op.makes]
  · rcases hl with ⟨_, _, rfl⟩ | ⟨_, rfl⟩ | ⟨_, rfl⟩ <;> exact Ok.none _ _ (by simp [Op.at])
  · intro y
    refine ⟨after_sub _ _ (by simp [exHold]), ?_⟩
    show Ok (exHold s y) _ _ _
    by_cases hy : s.rx r = y
    · subst hy
      rw [hx]
      rcases hl with ⟨_, _, rfl⟩ | ⟨_, rfl⟩ | ⟨_, rfl⟩ <;> simp [Ok, Op.at, takes, gives, after, Op.gor]
    · rcases hl with ⟨_, _, rfl⟩ | ⟨_, rfl⟩ | ⟨_, rfl⟩ <;> exact Ok.none _ _ (by simp [Op.at, hy])
  · intro j hj
    refine ⟨?_, by rcases hl with ⟨_, _, rfl⟩ | ⟨_, rfl⟩ | ⟨_, rfl⟩ <;> exact Ok.none _ _ (by simp [Op.at])⟩
    by_cases hji : j = i
    · subst hji
      rw [hi', hih]
      rcases hl with ⟨_, rfl, rfl⟩ | ⟨rfl, rfl⟩ | ⟨rfl, rfl⟩ <;> simp [takes, gives, after, Op.gor]
    · by_cases hb : s.ib j = s.ib i ∧ s.ist j = .done
      · obtain ⟨hb, hd⟩ := hb
        have hjh : iHold s j = .atom (s.ib i) := by simp [iHold, hd, hb, hg]
        have hjh' : iHold { s with tr := s.tr ++ l, ist := upd s.ist i .done, left := lf, bst := upd s.bst (s.ib i) st } j = match st with | .sent => .msg (.job (s.ib i)) | .called => .gor (.work (s.own (s.ib i))) | _ => .atom (s.ib i) := by
          simp only [iHold, upd_ne _ _ hji, hd, hb, upd_same]
          cases st <;> rfl
        rw [hjh, hjh']
        rcases hl with ⟨hp, rfl, rfl⟩ | ⟨rfl, rfl⟩ | ⟨rfl, rfl⟩
        · have := I.pd j hj (by rw [hb]; exact hp) hd
          rw [hb] at this
          rw [I.sn _ this] at hmem
          cases hmem
        · simp [takes, gives, after, Op.gor]
        · simp [takes, gives, after, Op.gor]
      · have : iHold { s with tr := s.tr ++ l, ist := upd s.ist i .done, left := lf, bst := upd s.bst (s.ib i) st } j = iHold s j := by
          simp only [iHold, upd_ne _ _ hji]
          cases hd : s.ist j with
          | done =>
            have : s.ib j ≠ s.ib i := fun h => hb ⟨h, hd⟩
            simp only [upd_ne _ _ this]
          | _ => rfl
        rw [this]
        exact after_sub _ _ (by simp)
  · intro y j hj; exact .inl hj
  · intro j hj
    by_cases hji : i = j
    · subst hji
      refine .inl ?_
      rw [hih]
      rcases hl with ⟨_, _, rfl⟩ | ⟨_, rfl⟩ | ⟨_, rfl⟩ <;> simp [OkF, Op.at, takes, gives, Op.gor]
    · refine .inl (OkF.none _ _ ?_)
      rcases hl with ⟨_, _, rfl⟩ | ⟨_, rfl⟩ | ⟨_, rfl⟩ <;> simp [Op.at, hji]
  · rcases hl with ⟨_, _, rfl⟩ | ⟨_, rfl⟩ | ⟨_, rfl⟩ <;> simp [Op.at] <;> omega
  · refine ⟨rfl, rfl, rfl, fun b hb => ?_⟩
    simp only [] at hb
    by_cases h : b = s.ib i
    · subst h; rw [upd_same] at hb; rcases hl with ⟨_, rfl, _⟩ | ⟨rfl, _⟩ | ⟨rfl, _⟩ <;> cases hb
    · rw [upd_ne _ _ h] at hb; exact hb
  · have hil' := I.il i hil
    have : ∃ j, j < s.items ∧ s.ib j = s.ib i ∧ iHold s j = .gor (.run r) := ⟨i, hil, rfl, hih⟩
    rcases hl with ⟨_, _, rfl⟩ | ⟨_, rfl⟩ | ⟨_, rfl⟩ <;> simp [Op.at, Op.fills, hg, hil', Op.gor, this]

theorem mi_step {s s' : St} {x : Act} (M : MI s) (I : SI s) (h : step s x = some s') : MI s' := by
  cases x with
  | batch w =>
    simp only [step, Option.some.injEq] at h
    subst h
    obtain ⟨lo, sl, rs, k1, k2, of, fr, l0, l1, l2, l3, l4, l5⟩ := M
    have ihs : ∀ j, j < s.items → iHold { s with tr := s.tr ++ [.acc (.work w) (.list s.batches) true], batches := s.batches + 1, own := upd s.own s.batches w, ph := upd s.ph s.batches false, left := upd s.left s.batches [], bst := upd s.bst s.batches .fill } j = iHold s j := by
      intro j hj
      have := I.il j hj
      simp only [iHold, upd_ne s.own w (show s.ib j ≠ s.batches by omega), upd_ne s.bst .fill (show s.ib j ≠ s.batches by omega)]
      rfl
    have no : ∀ o ∈ s.tr, o.at (.list s.batches) = false := fun o ho => by
      cases h : o.at (.list s.batches) with
      | false => rfl
      | true => exact absurd (l0 o ho _ h) (by omega)
    have mine : ∀ o ∈ s.tr ++ [Op.acc (.work w) (.list s.batches) true], o.at (.list s.batches) = true → o.gor = .work w := by
      intro o ho ha
      rcases List.mem_append.mp ho with ho | ho
      · have := no o ho; rw [ha] at this; cases this
      · rw [List.mem_singleton.mp ho]; rfl
    refine ⟨lo.skip (by simp [Op.at]) (after_sub _ _ (by simp)), fun y => (sl y).skip (by simp [Op.at]) (after_sub _ _ (by simp [exHold])), fun j hj => ?_, fun j hj => ?_, fun y j hj => ?_, fun j => (of j).skip (by simp [Op.at]), fun o ho j ha => ?_, fun o ho b ha => ?_, fun b hb o ho ha => ?_, fun b => ?_, fun j hj => ?_, fun b o ho hf => ?_, fun y j hj => ?_⟩
    · rw [ihs j hj]; exact (rs j hj).skip (by simp [Op.at]) (after_sub _ _ (by simp))
    · rw [ihs j hj]; exact (k1 j hj).extend (by simp [Op.makes]) (after_sub _ _ (by simp))
    · exact (k2 y j hj).extend (by simp [Op.makes]) (after_sub _ _ (by simp [exHold]))
    · rcases List.mem_append.mp ho with ho | ho
      · exact fr o ho j ha
      · rw [List.mem_singleton.mp ho] at ha; simp [Op.at] at ha
    · simp only []
      rcases List.mem_append.mp ho with ho | ho
      · have := l0 o ho b ha; omega
      · rw [List.mem_singleton.mp ho] at ha; simp [Op.at] at ha; omega
    · simp only [] at hb ⊢
      by_cases hbb : b = s.batches
      · subst hbb; rw [upd_same]; exact mine o ho ha
      · rw [upd_ne _ _ hbb] at hb ⊢
        rcases List.mem_append.mp ho with ho | ho
        · exact l1 b hb o ho ha
        · rw [List.mem_singleton.mp ho] at ha; simp [Op.at] at ha; exact absurd ha.symm hbb
    · by_cases hbb : b = s.batches
      · subst hbb; exact OrdL.own mine
      · exact (l2 b).skip (by simp [Op.at]; omega)
    · have := I.il j hj
      rw [ihs j hj]
      exact (l3 j hj).extend (by simp [Op.fills]; omega) (after_sub _ _ (by simp))
    · simp only []
      by_cases hbb : b = s.batches
      · subst hbb; rw [upd_same]; exact mine o ho (fills_at hf)
      · rw [upd_ne _ _ hbb]
        rcases List.mem_append.mp ho with ho | ho
        · exact l4 b o ho hf
        · obtain ⟨g, rfl⟩ := hf
          simp at ho
          exact absurd ho.2 hbb
    · have := I.il j (I.hl y j hj)
      exact (l5 y j hj).extend (by simp [Op.fills]; omega) (after_sub _ _ (by simp [exHold]))
  | item b p =>
    simp only [step] at h
    split at h
    · rename_i hc
      obtain ⟨c1, c2, c3, c4⟩ := hc
      simp only [Option.some.injEq] at h
      subst h
      obtain ⟨lo, sl, rs, k1, k2, of, fr, l0, l1, l2, l3, l4, l5⟩ := M
      have ism : upd s.ist s.items .made = s.ist := upd_eta _ _ (I.fr _ (Nat.le_refl _))
      have f1 : ∀ o ∈ s.tr, o.at (.res s.items) = false := fun o ho => by
        cases h : o.at (.res s.items) with
        | false => rfl
        | true => exact absurd (fr o ho _ (.inl h)) (by omega)
      have f2 : ∀ o ∈ s.tr, o.at (.fixed s.items) = false := fun o ho => by
        cases h : o.at (.fixed s.items) with
        | false => rfl
        | true => exact absurd (fr o ho _ (.inr h)) (by omega)
      have old : ∀ j, j ≠ s.items → iHold { s with tr := s.tr ++ [.acc (.work (s.own b)) (.list b) true, .acc (.work (s.own b)) (.fixed s.items) true, .acc (.work (s.own b)) (.res s.items) true], items := s.items + 1, ib := upd s.ib s.items b, ist := upd s.ist s.items .made, left := upd s.left b (s.left b ++ [s.items]), ph := upd s.ph b p } j = iHold s j := by
        intro j hj
        simp only [iHold, ism, upd_ne _ _ hj]
        rfl
      have new : iHold { s with tr := s.tr ++ [.acc (.work (s.own b)) (.list b) true, .acc (.work (s.own b)) (.fixed s.items) true, .acc (.work (s.own b)) (.res s.items) true], items := s.items + 1, ib := upd s.ib s.items b, ist := upd s.ist s.items .made, left := upd s.left b (s.left b ++ [s.items]), ph := upd s.ph b p } s.items = .gor (.work (s.own b)) := by
        simp only [iHold, upd_same]
      have mine : ∀ o ∈ s.tr ++ [Op.acc (.work (s.own b)) (.list b) true, .acc (.work (s.own b)) (.fixed s.items) true, .acc (.work (s.own b)) (.res s.items) true], o.at (.list b) = true → o.gor = .work (s.own b) := by
        intro o ho ha
        rcases List.mem_append.mp ho with ho | ho
        · exact l1 b c2 o ho ha
        · simp at ho; rcases ho with rfl | rfl | rfl <;> rfl
      refine ⟨lo.skip (by simp [Op.at]) (after_sub _ _ (by simp)), fun y => (sl y).skip (by simp [Op.at]) (after_sub _ _ (by simp [exHold])), fun j hj => ?_, fun j hj => ?_, fun y j hj => ?_, fun j => ?_, fun o ho j ha => ?_, fun o ho b' ha => ?_, fun b' hb o ho ha => ?_, fun b' => ?_, fun j hj => ?_, fun b' o ho hf => ?_, fun y j hj => ?_⟩
      · by_cases hji : j = s.items
        · subst hji
          rw [new]
          exact Fine.fresh (g := .work (s.own b)) f1 (by simp [Op.gor]) fun _ _ _ _ _ => after_sub _ _ (by simp)
        · rw [old j hji]
          exact (rs j (by simp only [] at hj; omega)).skip (by simp [Op.at]; omega) (after_sub _ _ (by simp))
      · by_cases hji : j = s.items
        · subst hji
          rw [new]
          intro q o hq hm
          rcases get_append hq with hq | ⟨l1, l2, hl, rfl⟩
          · have := f2 o (List.mem_of_getElem? hq)
            rw [makes_at hm] at this
            cases this
          · have ho : o ∈ [Op.acc (.work (s.own b)) (.list b) true, .acc (.work (s.own b)) (.fixed s.items) true, .acc (.work (s.own b)) (.res s.items) true] := by rw [hl]; simp
            exact ⟨_, o, hq, by simp at ho; rcases ho with rfl | rfl | rfl <;> rfl, .inl rfl⟩
        · rw [old j hji]
          exact (k1 j (by simp only [] at hj; omega)).extend (by simp [Op.makes]; omega) (after_sub _ _ (by simp))
      · have := I.hl y j hj
        exact (k2 y j hj).extend (by simp [Op.makes]; omega) (after_sub _ _ (by simp [exHold]))
      · by_cases hji : j = s.items
        · subst hji
          have place : ∀ (q : Nat) (o : Op), (s.tr ++ [Op.acc (.work (s.own b)) (.list b) true, .acc (.work (s.own b)) (.fixed s.items) true, .acc (.work (s.own b)) (.res s.items) true])[q]? = some o → o.at (.fixed s.items) = true → q = s.tr.length + 1 := by
            intro q o hq ha
            rcases get_append hq with hq | ⟨l1, l2, hl, rfl⟩
            · have := f2 o (List.mem_of_getElem? hq)
              rw [ha] at this
              cases this
            · cases l1 with
              | nil => simp at hl; obtain ⟨rfl, _⟩ := hl; simp [Op.at] at ha
              | cons a l1 =>
                cases l1 with
                | nil => rfl
                | cons c l1 =>
                  cases l1 with
                  | nil => simp at hl; obtain ⟨_, _, rfl, _⟩ := hl; simp [Op.at] at ha
                  | cons d l1 => simp at hl
          intro p' q o o' hp hq hm ha
          exact .inl (by rw [place p' o hp (makes_at hm), place q o' hq ha])
        · exact (of j).skip (by simp [Op.at]; omega)
      · rcases List.mem_append.mp ho with ho | ho
        · have := fr o ho j ha; simp only []; omega
        · simp at ho
          rcases ho with rfl | rfl | rfl <;> simp [Op.at] at ha <;> (simp only []; omega)
      · rcases List.mem_append.mp ho with ho | ho
        · exact l0 o ho b' ha
        · simp at ho
          rcases ho with rfl | rfl | rfl <;> simp [Op.at] at ha
          subst ha; exact c1
      · by_cases hbb : b' = b
        · subst hbb; exact mine o ho ha
        · rcases List.mem_append.mp ho with ho | ho
          · exact l1 b' hb o ho ha
          · simp at ho
            rcases ho with rfl | rfl | rfl <;> simp [Op.at] at ha
            exact absurd ha.symm hbb
      · by_cases hbb : b' = b
        · subst hbb; exact OrdL.own mine
        · exact (l2 b').skip (by simp [Op.at]; omega)
      · simp only []
        by_cases hji : j = s.items
        · subst hji
          rw [new, upd_same]
          exact KnownL.own fun o ho hf => mine o ho (fills_at hf)
        · have hjl : j < s.items := by simp only [] at hj; omega
          rw [old j hji, upd_ne _ _ hji]
          by_cases hbb : s.ib j = b
          · have hm : s.ist j = .made := by
              cases hd : s.ist j with
              | made => rfl
              | _ => exact absurd (by rw [hbb]; exact c2) (I.fi j hjl (by rw [hd]; simp))
            have : iHold s j = .gor (.work (s.own b)) := by simp [iHold, hm, hbb]
            rw [this, hbb]
            exact KnownL.own fun o ho hf => mine o ho (fills_at hf)
          · exact (l3 j hjl).extend (by simp [Op.fills]; omega) (after_sub _ _ (by simp))
      · by_cases hbb : b' = b
        · subst hbb; exact mine o ho (fills_at hf)
        · rcases List.mem_append.mp ho with ho | ho
          · exact l4 b' o ho hf
          · obtain ⟨g, rfl⟩ := hf
            simp at ho
            exact absurd ho.2 hbb
      · have hjl := I.hl y j hj
        simp only []
        rw [upd_ne _ _ (show j ≠ s.items by omega)]
        by_cases hbb : s.ib j = b
        · have hm : s.ist j = .made := by
            cases hd : s.ist j with
            | made => rfl
            | _ => exact absurd (by rw [hbb]; exact c2) (I.fi j hjl (by rw [hd]; simp))
          exact absurd hm (I.hm y j hj)
        · exact (l5 y j hj).extend (by simp [Op.fills]; omega) (after_sub _ _ (by simp [exHold]))
    · cases h
  | give b =>
    simp only [step] at h
    split at h
    · rename_i hc
      simp only [Option.some.injEq] at h
      subst h
      have ihs : ∀ j, j < s.items → iHold { s with bst := upd s.bst b .given } j = iHold s j := by
        intro j hj
        simp only [iHold]
        cases hd : s.ist j with
        | done =>
          have := I.fi j hj (by rw [hd]; simp)
          simp only [upd_ne s.bst .given (show s.ib j ≠ b from fun h => this (by rw [h]; exact hc.2.1))]
        | _ => rfl
      obtain ⟨lo, sl, rs, k1, k2, of, fr, l0, l1, l2, l3, l4, l5⟩ := M
      refine ⟨lo, sl, fun j hj => by rw [ihs j hj]; exact rs j hj, fun j hj => by rw [ihs j hj]; exact k1 j hj, k2, of, fr, l0, fun b' hb => ?_, l2, fun j hj => by rw [ihs j hj]; exact l3 j hj, l4, l5⟩
      simp only [] at hb
      by_cases hbb : b' = b
      · subst hbb; rw [upd_same] at hb; cases hb
      · rw [upd_ne _ _ hbb] at hb; exact l1 b' hb
    · cases h
  | add i x =>
    simp only [step] at h
    split at h
    · rename_i hc
      obtain ⟨c1, c2, c3, c4⟩ := hc
      simp only [Option.some.injEq] at h
      subst h
      exact M.put I c1 c4 (.inl (by simp [iHold, c2])) (by rw [c3]; simp) _ (.inr ⟨rfl, rfl⟩)
    · cases h
  | start g x =>
    simp only [step] at h
    split at h
    · rename_i hc
      simp only [Option.some.injEq] at h
      subst h
      have hother : ∀ y, y ≠ x → exHold { s with tr := s.tr ++ [.lock g, .acc g .locked true, .acc g (.slice x) false, .snd g (.go s.runs), .unlock g], exe := upd s.exe x (some s.runs), rx := upd s.rx s.runs x, rst := upd s.rst s.runs .new, runs := s.runs + 1 } y = exHold s y := by
        intro y hy
        simp only [exHold, upd_ne _ _ hy]
        cases he : s.exe y with
        | none => rfl
        | some r =>
          have := (I.e1 y r he).1
          simp only [upd_ne s.rst .new (show r ≠ s.runs by omega)]
      have hthis : exHold { s with tr := s.tr ++ [.lock g, .acc g .locked true, .acc g (.slice x) false, .snd g (.go s.runs), .unlock g], exe := upd s.exe x (some s.runs), rx := upd s.rx s.runs x, rst := upd s.rst s.runs .new, runs := s.runs + 1 } x = .msg (.go s.runs) := by
        simp [exHold, upd_same]
      have hmv : ∀ y, exHold { s with tr := s.tr ++ [.lock g, .acc g .locked true, .acc g (.slice x) false, .snd g (.go s.runs), .unlock g], exe := upd s.exe x (some s.runs), rx := upd s.rx s.runs x, rst := upd s.rst s.runs .new, runs := s.runs + 1 } y ∈ after [exHold s y] [.lock g, .acc g .locked true, .acc g (.slice x) false, .snd g (.go s.runs), .unlock g] := by
        intro y
        by_cases hy : y = x
        · subst hy; rw [hthis, exHold_free hc]; simp [after, takes, gives, Op.gor]
        · rw [hother y hy]; exact after_sub _ _ (by simp)
      refine M.extend I _ g rfl rfl (by simp [Op.gor]) (by simp [Op.makes]) (by simp [Ok, Op.at, takes, gives, after, Op.gor]) ?_ ?_ (fun y j hj => .inl hj) (fun j hj => .inl (OkF.none _ _ (by simp [Op.at]))) (by simp [Op.at]) ⟨rfl, rfl, rfl, fun _ h => h⟩ (by simp [Op.at])
      · intro y
        refine ⟨hmv y, ?_⟩
        by_cases hy : x = y
        · subst hy; rw [hthis, exHold_free hc]; simp [Ok, Op.at, takes, gives, after, Op.gor]
        · exact Ok.none _ _ (by simp [Op.at, hy])
      · intro j hj
        refine ⟨?_, Ok.none _ _ (by simp [Op.at])⟩
        simp only [iHold]
        cases hd : s.ist j with
        | ex y => exact hmv y
        | _ => exact after_sub _ _ (by simp)
    · cases h
  | begin r =>
    simp only [step] at h
    split at h
    · rename_i hc
      obtain ⟨c1, c2⟩ := hc
      simp only [Option.some.injEq] at h
      subst h
      have hmv : ∀ y, exHold { s with tr := s.tr ++ [.rcv (.run r) (.go r)], rst := upd s.rst r .run } y ∈ after [exHold s y] [.rcv (.run r) (.go r)] := by
        intro y
        cases he : s.exe y with
        | none => rw [exHold_free he, exHold_free (show (St.exe { s with tr := s.tr ++ [.rcv (.run r) (.go r)], rst := upd s.rst r .run }) y = none from he)]; exact after_sub _ _ (by simp)
        | some r' =>
          simp only [exHold, he]
          by_cases hr : r' = r
          · subst hr; simp [c2, upd_same, after, takes, gives, Op.gor]
          · rw [upd_ne _ _ hr]; exact after_sub _ _ (by simp)
      refine M.extend I _ (.run r) rfl rfl (by simp [Op.gor]) (by simp [Op.makes]) (Ok.none _ _ (by simp [Op.at])) (fun y => ⟨hmv y, Ok.none _ _ (by simp [Op.at])⟩) (fun j hj => ⟨?_, Ok.none _ _ (by simp [Op.at])⟩) (fun y j hj => .inl hj) (fun j hj => .inl (OkF.none _ _ (by simp [Op.at]))) (by simp [Op.at]) ⟨rfl, rfl, rfl, fun _ h => h⟩ (by simp [Op.at])
      simp only [iHold]
      cases hd : s.ist j with
      | ex y => exact hmv y
      | _ => exact after_sub _ _ (by simp)
    · cases h
  | exec r i =>
    simp only [step] at h
    split at h
    · rename_i hc
      simp only [Option.some.injEq] at h
      subst h
      exact M.quiet I hc.1 hc.2.1 (I.hx _ _ hc.2.2.1) _ (.inr ⟨hc.2.2.1, rfl⟩)
    · cases h
  | complete r i =>
    simp only [step] at h
    split at h
    · rename_i hc
      obtain ⟨c1, c2, c3⟩ := hc
      split at h
      · rename_i hp
        simp only [Option.some.injEq] at h
        subst h
        exact M.complete I c1 c2 c3 _ .sent _ (.inl ⟨hp, rfl, rfl⟩)
      · split at h
        · simp only [Option.some.injEq] at h
          subst h
          exact M.complete I c1 c2 c3 _ .sent _ (.inr (.inl ⟨rfl, rfl⟩))
        · simp only [Option.some.injEq] at h
          subst h
          have := M.complete I c1 c2 c3 _ .given (upd s.left (s.ib i) ((s.left (s.ib i)).erase i)) (.inr (.inr ⟨rfl, rfl⟩))
          rw [upd_eta _ _ (I.given c3)] at this
          exact this
    · cases h
  | look r i =>
    simp only [step] at h
    split at h
    · rename_i hc
      simp only [Option.some.injEq] at h
      subst h
      exact M.quiet I hc.1 hc.2.1 hc.2.2 _ (.inl rfl)
    · cases h
  | finish r =>
    simp only [step] at h
    split at h
    · rename_i hc
      obtain ⟨c1, c2, c3⟩ := hc
      simp only [List.all_eq_true, beq_iff_eq] at c3
      simp only [Option.some.injEq] at h
      subst h
      have hx := exHold_run I c1 c2
      have hother : ∀ y, y ≠ s.rx r → exHold { s with tr := s.tr ++ [.lock (.run r), .acc (.run r) .locked true, .acc (.run r) (.slice (s.rx r)) true, .unlock (.run r)], has := upd s.has (s.rx r) [], exe := upd s.exe (s.rx r) none, rst := upd s.rst r .late } y = exHold s y := by
        intro y hy
        simp only [exHold, upd_ne _ _ hy]
        cases he : s.exe y with
        | none => rfl
        | some r' =>
          have := (I.e1 y r' he).2.1
          simp only [upd_ne s.rst .late (show r' ≠ r by intro h; subst h; exact hy this.symm)]
      have hthis : exHold { s with tr := s.tr ++ [.lock (.run r), .acc (.run r) .locked true, .acc (.run r) (.slice (s.rx r)) true, .unlock (.run r)], has := upd s.has (s.rx r) [], exe := upd s.exe (s.rx r) none, rst := upd s.rst r .late } (s.rx r) = .mutex := by
        simp [exHold, upd_same]
      refine M.extend I _ (.run r) rfl rfl (by simp [Op.gor]) (by simp [Op.makes]) (by simp [Ok, Op.at, takes, gives, after, Op.gor]) ?_ ?_ ?_ (fun j hj => .inl (OkF.none _ _ (by simp [Op.at]))) (by simp [Op.at]) ⟨rfl, rfl, rfl, fun _ h => h⟩ (by simp [Op.at])
      · intro y
        by_cases hy : s.rx r = y
        · subst hy; rw [hthis, hx]; simp [Ok, Op.at, takes, gives, after, Op.gor]
        · rw [hother y (Ne.symm hy)]; exact ⟨after_sub _ _ (by simp), Ok.none _ _ (by simp [Op.at, hy])⟩
      · intro j hj
        refine ⟨?_, Ok.none _ _ (by simp [Op.at])⟩
        simp only [iHold]
        cases hd : s.ist j with
        | ex y =>
          have hy : y ≠ s.rx r := by
            intro h; subst h
            have := c3 j (I.hx _ _ hd)
            rw [hd] at this; cases this
          simp only []
          rw [hother y hy]
          exact after_sub _ _ (by simp)
        | _ => exact after_sub _ _ (by simp)
      · intro y j hj
        simp only [] at hj
        by_cases hy : y = s.rx r
        · subst hy; rw [upd_same] at hj; cases hj
        · rw [upd_ne _ _ hy] at hj; exact .inl hj
    · cases h
  | flush r i x =>
    simp only [step] at h
    split at h
    · rename_i hc
      obtain ⟨c1, c2, c3, c4, c5⟩ := hc
      simp only [Option.some.injEq] at h
      subst h
      exact M.put I c3 c5 (.inr (by simp [iHold, c4])) (I.fi i c3 (by rw [c4]; simp)) [] (.inl rfl)
    · cases h
  | call b =>
    simp only [step] at h
    split at h
    · rename_i hc
      simp only [Option.some.injEq] at h
      subst h
      refine M.extend I _ (.work (s.own b)) rfl rfl (by simp [Op.gor]) (by simp [Op.makes]) (Ok.none _ _ (by simp [Op.at])) (fun y => ⟨after_sub _ _ (by simp [exHold]), Ok.none _ _ (by simp [Op.at])⟩) (fun j hj => ⟨?_, Ok.none _ _ (by simp [Op.at])⟩) (fun y j hj => .inl hj) (fun j hj => .inl (OkF.none _ _ (by simp [Op.at]))) (by simp [Op.at]) ⟨rfl, rfl, rfl, fun b' h => ?_⟩ (by simp [Op.at, Op.fills, Op.gor, hc.1, hc.2])
      rotate_left
      · simp only [] at h
        by_cases hbb : b' = b
        · subst hbb; rw [upd_same] at h; cases h
        · rw [upd_ne _ _ hbb] at h; exact h
      simp only [iHold]
      cases hd : s.ist j with
      | done =>
        by_cases hb : s.ib j = b
        · subst hb; simp [hc.2, upd_same, after, takes, gives, Op.gor]
        · simp only [upd_ne _ _ hb]; exact after_sub _ _ (by simp)
      | ex y => exact after_sub _ _ (by simp [exHold])
      | _ => exact after_sub _ _ (by simp)
    · cases h
  | use i w =>
    simp only [step] at h
    split at h
    · rename_i hc
      obtain ⟨c1, c2⟩ := hc
      simp only [Option.some.injEq] at h
      subst h
      have hd : s.ist i = .done := by
        have h1 := I.sn _ (.inr c2)
        have h2 := I.lf (s.ib i) i
        rw [h1] at h2
        cases hd : s.ist i with
        | done => rfl
        | _ => exact absurd (h2.mpr ⟨c1, rfl, by rw [hd]; simp⟩) (by simp)
      have hih : iHold s i = .gor (.work (s.own (s.ib i))) := by simp [iHold, hd, c2]
      refine M.extend I _ (.work (s.own (s.ib i))) rfl rfl (by simp [Op.gor]) (by simp [Op.makes]) (Ok.none _ _ (by simp [Op.at])) (fun y => ⟨after_sub _ _ (by simp [exHold]), Ok.none _ _ (by simp [Op.at])⟩) (fun j hj => ?_) (fun y j hj => .inl hj) (fun j hj => .inl ?_) (by simp [Op.at]; omega) ⟨rfl, rfl, rfl, fun _ h => h⟩ (by simp [Op.at, Op.fills, Op.gor, c2, I.il i c1])
      · refine ⟨after_sub _ _ (by simp [iHold, exHold]), ?_⟩
        show Ok (iHold s j) _ _ _
        by_cases hji : i = j
        · subst hji; rw [hih]; simp [Ok, Op.at, takes, gives, after, Op.gor]
        · exact Ok.none _ _ (by simp [Op.at, hji])
      · by_cases hji : i = j
        · subst hji; rw [hih]; simp [OkF, Op.at, takes, gives, Op.gor]
        · exact OkF.none _ _ (by simp [Op.at, hji])
    · cases h

theorem mi_reach {s : St} (hs : Reach s) : MI s := by
  induction hs with
  | init => exact mi_init
  | step x h0 h ih => exact mi_step ih (si_reach h0) h

end Verif.Items

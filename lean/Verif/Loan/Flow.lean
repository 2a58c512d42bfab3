import Verif.Loan.Spec
import Mathlib.Tactic.Common
/-
Who knows of an access: the goroutines, messages, counters and locks after whose next use it is ordered.
-/
namespace Verif.Loan

/-- Who or what can know of an access. -/
inductive Holder where
  | gor (g : Gor) | lck (m : Lck) | msg (m : Msg) | atom (b : Nat)
  deriving DecidableEq, Repr

/-- What makes known: the own operations of a goroutine, unlocking, sending, an atomic operation. -/
def Holder.has : Holder → Op → Prop
  | .gor g, o => o.gor = g
  | .lck m, o => ∃ g, o = .unlock g m
  | .msg m, o => ∃ g, o = .snd g m
  | .atom b, o => ∃ g, o = .atom g b

/-- The access at place `p` is known there. -/
def Known (tr : List Op) (h : Holder) (p : Nat) : Prop := ∃ q o, tr[q]? = some o ∧ h.has o ∧ (p = q ∨ Before tr p q)

theorem get_left {tr l : List Op} {i : Nat} {o : Op} (h : tr[i]? = some o) : (tr ++ l)[i]? = some o := by
  rw [List.getElem?_append_left (List.getElem?_eq_some_iff.mp h).1]; exact h

theorem lt_of_get {tr : List Op} {i : Nat} {o : Op} (h : tr[i]? = some o) : i < tr.length := (List.getElem?_eq_some_iff.mp h).1

theorem Before.append {tr : List Op} (l : List Op) {i j : Nat} (h : Before tr i j) : Before (tr ++ l) i j := by
  induction h with
  | same h1 h2 h3 h4 => exact .same h1 (get_left h2) (get_left h3) h4
  | chan h1 h2 h3 => exact .chan h1 (get_left h2) (get_left h3)
  | lock h1 h2 h3 => exact .lock h1 (get_left h2) (get_left h3)
  | atom h1 h2 h3 => exact .atom h1 (get_left h2) (get_left h3)
  | trans _ _ h1 h2 => exact .trans h1 h2

theorem Known.append {tr : List Op} (l : List Op) {h : Holder} {p : Nat} (hk : Known tr h p) : Known (tr ++ l) h p := by
  obtain ⟨q, o, h1, h2, h3⟩ := hk
  exact ⟨q, o, get_left h1, h2, h3.imp id (Before.append l)⟩

/-- The operation takes over what is known there. -/
def takes (h : Holder) (o : Op) : Bool :=
  h == .gor o.gor ||
    match o with
    | .lock _ m => h == .lck m
    | .rcv _ m => h == .msg m
    | .atom _ b => h == .atom b
    | _ => false

/-- Where the operation makes known what its goroutine knows. -/
def gives (o : Op) : List Holder :=
  .gor o.gor ::
    match o with
    | .unlock _ m => [.lck m]
    | .snd _ m => [.msg m]
    | .atom _ b => [.atom b]
    | _ => []

/-- Where it is known after some operations. -/
def after : List Holder → List Op → List Holder
  | S, [] => S
  | S, o :: l => after (if S.any (takes · o) then S ++ gives o else S) l

theorem gives_has {o : Op} {h : Holder} (hh : h ∈ gives o) : h.has o := by
  cases o <;> simp only [gives, List.mem_cons, List.not_mem_nil, or_false] at hh
  all_goals
    first
    | subst hh; rfl
    | rcases hh with rfl | rfl
      · rfl
      · exact ⟨_, rfl⟩

/-- What is known where an operation takes over happens before it. -/
theorem before_takes {tr : List Op} {h : Holder} {o : Op} {p : Nat} (hk : Known tr h p) (ht : takes h o = true) : Before (tr ++ [o]) p tr.length := by
  obtain ⟨q, o', h1, h2, h3⟩ := hk
  have hq : q < tr.length := lt_of_get h1
  have g1 : (tr ++ [o])[q]? = some o' := get_left h1
  have g2 : (tr ++ [o])[tr.length]? = some o := by simp
  have hb : Before (tr ++ [o]) q tr.length := by
    simp only [takes, Bool.or_eq_true, beq_iff_eq] at ht
    rcases ht with rfl | ht
    · exact .same hq g1 g2 h2
    · cases o with
      | lock g m => simp only [beq_iff_eq] at ht; subst ht; obtain ⟨g', rfl⟩ := h2; exact .lock hq g1 g2
      | rcv g m => simp only [beq_iff_eq] at ht; subst ht; obtain ⟨g', rfl⟩ := h2; exact .chan hq g1 g2
      | atom g b => simp only [beq_iff_eq] at ht; subst ht; obtain ⟨g', rfl⟩ := h2; exact .atom hq g1 g2
      | _ => cases ht
  rcases h3 with rfl | h3
  · exact hb
  · exact .trans (h3.append [o]) hb

theorem known_one {tr : List Op} {S : List Holder} {o : Op} {p : Nat} (hS : ∀ h ∈ S, Known tr h p) : ∀ h ∈ (if S.any (takes · o) then S ++ gives o else S), Known (tr ++ [o]) h p := by
  intro h hh
  split at hh
  · rename_i ha
    rw [List.any_eq_true] at ha
    obtain ⟨h0, m0, t0⟩ := ha
    rcases List.mem_append.mp hh with hh | hh
    · exact (hS h hh).append _
    · exact ⟨tr.length, o, by simp, gives_has hh, .inr (before_takes (hS h0 m0) t0)⟩
  · exact (hS h hh).append _

theorem known_after {p : Nat} {h : Holder} : ∀ (l tr : List Op) (S : List Holder), (∀ h ∈ S, Known tr h p) → h ∈ after S l → Known (tr ++ l) h p
  | [], tr, S, hS, hh => by simpa using hS h hh
  | o :: l, tr, S, hS, hh => by
    have := known_after l (tr ++ [o]) _ (known_one hS) hh
    simpa using this

theorem after_sub {h : Holder} : ∀ (l : List Op) (S : List Holder), h ∈ S → h ∈ after S l
  | [], _, hh => hh
  | o :: l, S, hh => by
    apply after_sub l
    split
    · exact List.mem_append_left _ hh
    · exact hh

/-- The access of the operation to a place in memory. -/
def Op.at : Op → Loc → Bool
  | .acc _ l _, l' => l == l'
  | _, _ => false

/-- The new operations are in order for the place in memory: it is known to whoever accesses it, and will be known to `h'`. -/
def Ok (h' : Holder) (L : Loc) : List Holder → List Op → Prop
  | _, [] => True
  | S, o :: l => (o.at L = true → Holder.gor o.gor ∈ S ∧ h' ∈ after [.gor o.gor] l) ∧ Ok h' L (if S.any (takes · o) then S ++ gives o else S) l

/-- The accesses to a place in memory are known to `h`, and ordered. -/
def Fine (tr : List Op) (h : Holder) (L : Loc) : Prop :=
  (∀ (p : Nat) (o : Op), tr[p]? = some o → o.at L = true → Known tr h p) ∧ ∀ (p q : Nat) (o o' : Op), p < q → tr[p]? = some o → tr[q]? = some o' → o.at L = true → o'.at L = true → Before tr p q

theorem Ok.split {h' : Holder} {L : Loc} {o : Op} {l2 : List Op} : ∀ (l1 : List Op) (S : List Holder), Ok h' L S (l1 ++ o :: l2) → o.at L = true → Holder.gor o.gor ∈ after S l1 ∧ h' ∈ after [.gor o.gor] l2
  | [], _, h, ha => h.1 ha
  | _ :: l1, _, h, ha => Ok.split l1 _ h.2 ha

theorem get_append {tr l : List Op} {p : Nat} {o : Op} (h : (tr ++ l)[p]? = some o) : tr[p]? = some o ∨ ∃ l1 l2, l = l1 ++ o :: l2 ∧ p = tr.length + l1.length := by
  by_cases hp : p < tr.length
  · rw [List.getElem?_append_left hp] at h; exact .inl h
  · rw [List.getElem?_append_right (by omega)] at h
    refine .inr ⟨l.take (p - tr.length), l.drop (p - tr.length + 1), ?_, ?_⟩
    · obtain ⟨h1, rfl⟩ := List.getElem?_eq_some_iff.mp h
      rw [← List.drop_eq_getElem_cons h1, List.take_append_drop]
    · have := lt_of_get h
      rw [List.length_take]
      omega

theorem gor_takes (o : Op) : takes (.gor o.gor) o = true := by simp [takes]

/-- New operations of one goroutine. -/
theorem Fine.extend {tr l : List Op} {h h' : Holder} {L : Loc} {g : Gor} (hf : Fine tr h L) (hg : ∀ o ∈ l, o.gor = g) (hok : Ok h' L [h] l) (hh : h' ∈ after [h] l) : Fine (tr ++ l) h' L := by
  obtain ⟨f1, f2⟩ := hf
  constructor
  · intro p o hp ha
    rcases get_append hp with hp | ⟨l1, l2, rfl, rfl⟩
    · exact known_after l tr [h] (fun x hx => by rw [List.mem_singleton.mp hx]; exact f1 p o hp ha) hh
    · have := (Ok.split l1 [h] hok ha).2
      have := known_after (p := tr.length + l1.length) l2 (tr ++ (l1 ++ [o])) [.gor o.gor] (fun x hx => by
        rw [List.mem_singleton.mp hx]
        exact ⟨tr.length + l1.length, o, by simp, rfl, .inl rfl⟩) this
      simpa using this
  · intro p q o o' hpq hp hq ha ha'
    rcases get_append hq with hq0 | ⟨l1, l2, rfl, rfl⟩
    · have hp0 : tr[p]? = some o := by
        rw [List.getElem?_append_left (by have := lt_of_get hq0; omega)] at hp; exact hp
      exact (f2 p q o o' hpq hp0 hq0 ha ha').append l
    · rcases get_append hp with hp0 | ⟨m1, m2, hm, rfl⟩
      · have hk := (Ok.split l1 [h] hok ha').1
        have hk := known_after l1 tr [h] (fun x hx => by rw [List.mem_singleton.mp hx]; exact f1 p o hp0 ha) hk
        have := (before_takes hk (gor_takes o')).append l2
        simpa using this
      · refine .same hpq hp hq ?_
        rw [hg o (by rw [hm]; simp), hg o' (by simp)]

/-- New operations that do not touch the place. -/
theorem Fine.skip {tr l : List Op} {h h' : Holder} {L : Loc} (hf : Fine tr h L) (hn : ∀ o ∈ l, o.at L = false) (hh : h' ∈ after [h] l) : Fine (tr ++ l) h' L := by
  obtain ⟨f1, f2⟩ := hf
  have old : ∀ {p : Nat} {o : Op}, (tr ++ l)[p]? = some o → o.at L = true → tr[p]? = some o := by
    intro p o hp ha
    rcases get_append hp with hp | ⟨l1, l2, rfl, rfl⟩
    · exact hp
    · have := hn o (by simp)
      rw [ha] at this
      cases this
  exact ⟨fun p o hp ha => known_after l tr [h] (fun x hx => by rw [List.mem_singleton.mp hx]; exact f1 p o (old hp ha) ha) hh,
    fun p q o o' hpq hp hq ha ha' => (f2 p q o o' hpq (old hp ha) (old hq ha') ha ha').append l⟩

/-- A place that nobody has touched so far. -/
theorem Fine.fresh {tr l : List Op} {h' : Holder} {L : Loc} {g : Gor} (hf : ∀ o ∈ tr, o.at L = false) (hg : ∀ o ∈ l, o.gor = g) (hh : ∀ l1 o l2, l = l1 ++ o :: l2 → o.at L = true → h' ∈ after [.gor g] l2) : Fine (tr ++ l) h' L := by
  have new : ∀ {p : Nat} {o : Op}, (tr ++ l)[p]? = some o → o.at L = true → ∃ l1 l2, l = l1 ++ o :: l2 ∧ p = tr.length + l1.length := by
    intro p o hp ha
    rcases get_append hp with hp | h
    · have := hf o (List.mem_of_getElem? hp)
      rw [ha] at this
      cases this
    · exact h
  constructor
  · intro p o hp ha
    obtain ⟨l1, l2, rfl, rfl⟩ := new hp ha
    have := hh l1 o l2 rfl ha
    have := known_after (p := tr.length + l1.length) l2 (tr ++ (l1 ++ [o])) [.gor g] (fun x hx => by
      rw [List.mem_singleton.mp hx]
      exact ⟨tr.length + l1.length, o, by simp, hg o (by simp), .inl rfl⟩) this
    simpa using this
  · intro p q o o' hpq hp hq ha ha'
    obtain ⟨l1, l2, hl, _⟩ := new hp ha
    obtain ⟨m1, m2, hm, _⟩ := new hq ha'
    exact .same hpq hp hq (by rw [hg o (by rw [hl]; simp), hg o' (by rw [hm]; simp)])

end Verif.Loan

import Verif.Shared.Spec
import Mathlib.Tactic.Common
/-
Proofs for C111.
-/
namespace Verif.Shared
open Verif.Eos (upd)

variable {tr : List Op}

/-! ### What a goroutine and a message know -/

theorem get_mono {l : List Op} {i : Nat} {a : Op} (h : tr[i]? = some a) : (tr ++ l)[i]? = some a := by
  have hi : i < tr.length := by
    by_contra hn
    rw [List.getElem?_eq_none (by omega)] at h; cases h
  rw [List.getElem?_append_left hi]; exact h

theorem before_mono {l : List Op} {i j : Nat} (h : Before tr i j) : Before (tr ++ l) i j := by
  induction h with
  | same h1 h2 h3 h4 => exact .same h1 (get_mono h2) (get_mono h3) h4
  | chan h1 h2 h3 => exact .chan h1 (get_mono h2) (get_mono h3)
  | trans _ _ ih1 ih2 => exact .trans ih1 ih2

/-- The operation at `i` is one of `g` or happens before one. -/
def Kn (tr : List Op) (g : Gor) (i : Nat) : Prop := ∃ j a, tr[j]? = some a ∧ a.gor = g ∧ (i = j ∨ Before tr i j)

/-- The operation at `i` happens before the sending of `m`. -/
def Ms (tr : List Op) (m : Msg) (i : Nat) : Prop := ∃ j g, tr[j]? = some (.snd g m) ∧ (i = j ∨ Before tr i j)

theorem Kn.mono {l : List Op} {g : Gor} {i : Nat} (h : Kn tr g i) : Kn (tr ++ l) g i := by
  obtain ⟨j, a, h1, h2, h3⟩ := h
  exact ⟨j, a, get_mono h1, h2, h3.imp id before_mono⟩

theorem Ms.mono {l : List Op} {m : Msg} {i : Nat} (h : Ms tr m i) : Ms (tr ++ l) m i := by
  obtain ⟨j, a, h1, h3⟩ := h
  exact ⟨j, a, get_mono h1, h3.imp id before_mono⟩

theorem get_lt {i : Nat} {a : Op} (h : tr[i]? = some a) : i < tr.length := by
  by_contra hn
  rw [List.getElem?_eq_none (by omega)] at h; cases h

theorem get_last (tr : List Op) (a : Op) : (tr ++ [a])[tr.length]? = some a := by simp

theorem Kn.before {g : Gor} {i : Nat} (h : Kn tr g i) {a : Op} (ha : a.gor = g) : Before (tr ++ [a]) i tr.length := by
  obtain ⟨j, b, h1, h2, h3⟩ := h
  have hs : Before (tr ++ [a]) j tr.length := .same (get_lt h1) (get_mono h1) (get_last tr a) (by rw [h2, ha])
  rcases h3 with rfl | h3
  · exact hs
  · exact .trans (before_mono h3) hs

theorem kn_self (a : Op) : Kn (tr ++ [a]) a.gor tr.length := ⟨_, a, get_last tr a, rfl, .inl rfl⟩

theorem Kn.snd {g : Gor} {i : Nat} (h : Kn tr g i) (m : Msg) : Ms (tr ++ [.snd g m]) m i :=
  ⟨_, g, get_last tr _, .inr (h.before rfl)⟩

theorem Ms.rcv {m : Msg} {i : Nat} (h : Ms tr m i) (g : Gor) : Kn (tr ++ [.rcv g m]) g i := by
  obtain ⟨j, g', h1, h2⟩ := h
  have hs : Before (tr ++ [.rcv g m]) j tr.length := .chan (get_lt h1) (get_mono h1) (get_last tr _)
  refine ⟨_, _, get_last tr _, rfl, .inr ?_⟩
  rcases h2 with rfl | h2
  · exact hs
  · exact .trans (before_mono h2) hs

/-! ### The invariant -/

/-- What is known where a context is on its way to the handler. -/
def PW (tr : List Op) (st : WSt) (k e i : Nat) : Prop :=
  match st with
  | .pushed => Kn tr (.push k) i
  | .queued => Ms tr (.input e) i
  | .taken => Kn tr (.work k) i
  | .assigned => True

/-- What is known where a producer node is. -/
def PN (tr : List Op) (ns : NSt) (i : Nat) : Prop :=
  match ns with
  | .deck => Kn tr .fwd i
  | .queued t => Ms tr (.node t) i
  | .commit => Kn tr .com i
  | _ => True

/-- What is known where a context is on its way to the commit. -/
def PF (tr : List Op) (st : FSt) (node : Nat → NSt) (e i : Nat) : Prop :=
  match st with
  | .buffered => Ms tr (.buffer e) i
  | .got => Kn tr .fwd i
  | .node n => PN tr (node n) i
  | .out => True

/-- What is known by those who have the context. -/
def PR (tr : List Op) (refs : List (Gor × Nat)) (e i : Nat) : Prop := ∀ g, (g, e) ∈ refs → Kn tr g i

theorem PW.mono {l : List Op} {st : WSt} {k e i : Nat} (h : PW tr st k e i) : PW (tr ++ l) st k e i := by
  cases st with
  | pushed => exact Kn.mono h
  | queued => exact Ms.mono h
  | taken => exact Kn.mono h
  | assigned => trivial

theorem PN.mono {l : List Op} {st : NSt} {i : Nat} (h : PN tr st i) : PN (tr ++ l) st i := by
  cases st with
  | deck => exact Kn.mono h
  | queued t => exact Ms.mono h
  | commit => exact Kn.mono h
  | free t => trivial
  | lost => trivial

theorem PF.mono {l : List Op} {st : FSt} {node : Nat → NSt} {e i : Nat} (h : PF tr st node e i) : PF (tr ++ l) st node e i := by
  cases st with
  | buffered => exact Ms.mono h
  | got => exact Kn.mono h
  | node n => exact PN.mono h
  | out => trivial

theorem PR.mono {l : List Op} {refs : List (Gor × Nat)} {e i : Nat} (h : PR tr refs e i) : PR (tr ++ l) refs e i :=
  fun g hg => (h g hg).mono

/-- An access to a field; `w`: a write. -/
def At (tr : List Op) (i : Nat) (g : Gor) (e : Nat) (f : Fld) (w : Bool) : Prop := tr[i]? = some (.acc g e f w)

/-- All conflicting accesses are ordered, except those to a producer by the commit loop. -/
def Free (tr : List Op) : Prop :=
  ∀ i j g e f w g' w', i < j → At tr i g e f w → At tr j g' e f w' → (w = true ∨ w' = true) → (f = .producer → g ≠ .com ∧ g' ≠ .com) → Before tr i j

structure Inv (s : St) : Prop where
  lt : ∀ i g e f w, At s.tr i g e f w → e < s.born
  refs : ∀ g e, (g, e) ∈ s.refs → e < s.born ∧ s.w e = .assigned
  mem : ∀ n e, e ∈ s.mem n → e < s.born ∧ s.f e = .node n
  fixed : ∀ i g e, At s.tr i g e .fixed true → PW s.tr (s.w e) (s.own e) e i ∧ PF s.tr (s.f e) s.node e i ∧ PR s.tr s.refs e i
  link : ∀ i g e f w, At s.tr i g e f w → f = .prev ∨ f = .next → PF s.tr (s.f e) s.node e i
  prod : ∀ i g e w, At s.tr i g e .producer w → g ≠ .com → PW s.tr (s.w e) (s.own e) e i
  prodW : ∀ i g e, At s.tr i g e .producer true → PR s.tr s.refs e i
  free : Free s.tr
  gone : ∀ n t e, s.node n = .free t → e < s.born → s.f e ≠ .node n
  comr : ∀ i e f, ¬ At s.tr i .com e f true

theorem inv_init (p : Nat) : Inv (St.init p) := by
  have no : ∀ {i g e f w}, ¬ At (St.init p).tr i g e f w := by intro i g e f w h; simp [At, St.init] at h
  exact ⟨fun _ _ _ _ _ h => absurd h no, fun _ _ h => by simp [St.init] at h, fun _ _ h => by simp [St.init] at h, fun _ _ _ h => absurd h no,
    fun _ _ _ _ _ h => absurd h no, fun _ _ _ _ h => absurd h no, fun _ _ _ h => absurd h no, fun _ _ _ _ _ _ _ _ _ h => absurd h no,
    fun _ _ _ _ h => by simp [St.init] at h, fun _ _ _ h => absurd h no⟩

/-- An operation that is not an access. -/
def Op.quiet : Op → Bool
  | .acc _ _ _ _ => false
  | _ => true

theorem at_quiet {l : List Op} (hl : ∀ a ∈ l, a.quiet = true) {i : Nat} {g : Gor} {e : Nat} {f : Fld} {w : Bool} (h : At (tr ++ l) i g e f w) : At tr i g e f w := by
  unfold At at h ⊢
  by_cases hi : i < tr.length
  · rwa [List.getElem?_append_left hi] at h
  · rw [List.getElem?_append_right (by omega)] at h
    have := hl _ (List.mem_of_getElem? h)
    cases this

/-- Contexts and nodes are handed on. -/
theorem Inv.move {s s' : St} (I : Inv s) (l : List Op) (hl : ∀ a ∈ l, a.quiet = true) (htr : s'.tr = s.tr ++ l) (hb : s.born ≤ s'.born)
    (href : ∀ g e, (g, e) ∈ s'.refs → e < s'.born ∧ s'.w e = .assigned) (hmem : ∀ n e, e ∈ s'.mem n → e < s'.born ∧ s'.f e = .node n)
    (hg : ∀ n t e, s'.node n = .free t → e < s'.born → s'.f e ≠ .node n)
    (hW : ∀ e i, e < s.born → PW s.tr (s.w e) (s.own e) e i → PW s'.tr (s'.w e) (s'.own e) e i)
    (hF : ∀ e i, e < s.born → PF s.tr (s.f e) s.node e i → PF s'.tr (s'.f e) s'.node e i)
    (hR : ∀ i g e, At s.tr i g e .fixed true ∨ At s.tr i g e .producer true → PR s'.tr s'.refs e i) : Inv s' := by
  have back : ∀ {i g e f w}, At s'.tr i g e f w → At s.tr i g e f w := by
    intro i g e f w h; rw [htr] at h; exact at_quiet hl h
  refine ⟨?_, href, hmem, ?_, ?_, ?_, ?_, ?_, hg, fun i e f h => I.comr i e f (back h)⟩
  · intro i g e f w h; have := I.lt i g e f w (back h); omega
  · intro i g e h
    have h0 := back h
    obtain ⟨h1, h2, -⟩ := I.fixed i g e h0
    exact ⟨hW e i (I.lt _ _ _ _ _ h0) h1, hF e i (I.lt _ _ _ _ _ h0) h2, hR i g e (.inl h0)⟩
  · intro i g e f w h hf
    exact hF e i (I.lt _ _ _ _ _ (back h)) (I.link i g e f w (back h) hf)
  · intro i g e w h hg
    exact hW e i (I.lt _ _ _ _ _ (back h)) (I.prod i g e w (back h) hg)
  · intro i g e h
    exact hR i g e (.inr (back h))
  · intro i j g e f w g' w' hij h1 h2 hw hf
    rw [htr]
    exact before_mono (I.free i j g e f w g' w' hij (back h1) (back h2) hw hf)

/-- An access. -/
theorem Inv.acc {s : St} (I : Inv s) {g : Gor} {e : Nat} {f : Fld} {w : Bool} (he : e < s.born) (hc : g = .com → w = false)
    (hk : ∀ i g' w', At s.tr i g' e f w' → (w = true ∨ w' = true) → (f = .producer → g ≠ .com ∧ g' ≠ .com) → Kn s.tr g i)
    (hW : (f = .fixed ∧ w = true) ∨ (f = .producer ∧ g ≠ .com) → PW (s.tr ++ [.acc g e f w]) (s.w e) (s.own e) e s.tr.length)
    (hF : (f = .fixed ∧ w = true) ∨ f = .prev ∨ f = .next → PF (s.tr ++ [.acc g e f w]) (s.f e) s.node e s.tr.length)
    (hR : w = true → f = .fixed ∨ f = .producer → PR (s.tr ++ [.acc g e f w]) s.refs e s.tr.length) :
    Inv { s with tr := s.tr ++ [.acc g e f w] } := by
  have back : ∀ {i g' e' f' w'}, At (s.tr ++ [.acc g e f w]) i g' e' f' w' →
      At s.tr i g' e' f' w' ∨ (i = s.tr.length ∧ g' = g ∧ e' = e ∧ f' = f ∧ w' = w) := by
    intro i g' e' f' w' h
    unfold At at h ⊢
    by_cases hi : i < s.tr.length
    · rw [List.getElem?_append_left hi] at h; exact .inl h
    · rw [List.getElem?_append_right (by omega)] at h
      by_cases h0 : i - s.tr.length = 0
      · rw [h0] at h
        simp only [List.getElem?_cons_zero, Option.some.injEq, Op.acc.injEq] at h
        exact .inr ⟨by omega, h.1.symm, h.2.1.symm, h.2.2.1.symm, h.2.2.2.symm⟩
      · rw [List.getElem?_eq_none (by simp; omega)] at h; cases h
  refine ⟨?_, I.refs, I.mem, ?_, ?_, ?_, ?_, ?_, I.gone, ?_⟩
  · intro i g' e' f' w' h
    rcases back h with h | ⟨-, -, rfl, -, -⟩
    · exact I.lt _ _ _ _ _ h
    · exact he
  · intro i g' e' h
    rcases back h with h | ⟨rfl, rfl, rfl, rfl, rfl⟩
    · obtain ⟨h1, h2, h3⟩ := I.fixed _ _ _ h
      exact ⟨h1.mono, h2.mono, h3.mono⟩
    · exact ⟨hW (.inl ⟨rfl, rfl⟩), hF (.inl ⟨rfl, rfl⟩), hR rfl (.inl rfl)⟩
  · intro i g' e' f' w' h hf
    rcases back h with h | ⟨rfl, rfl, rfl, rfl, rfl⟩
    · exact (I.link _ _ _ _ _ h hf).mono
    · exact hF (.inr hf)
  · intro i g' e' w' h hg
    rcases back h with h | ⟨rfl, rfl, rfl, rfl, rfl⟩
    · exact (I.prod _ _ _ _ h hg).mono
    · exact hW (.inr ⟨rfl, hg⟩)
  · intro i g' e' h
    rcases back h with h | ⟨rfl, rfl, rfl, rfl, rfl⟩
    · exact (I.prodW _ _ _ h).mono
    · exact hR rfl (.inr rfl)
  · intro i j g1 e1 f1 w1 g2 w2 hij h1 h2 hw hf
    rcases back h2 with h2' | ⟨rfl, rfl, rfl, rfl, rfl⟩
    · rcases back h1 with h1' | ⟨rfl, -⟩
      · exact before_mono (I.free _ _ _ _ _ _ _ _ hij h1' h2' hw hf)
      · have := get_lt h2'; omega
    · rcases back h1 with h1' | ⟨rfl, -⟩
      · exact (hk i g1 w1 h1' (by tauto) (by tauto)).before rfl
      · omega
  · intro i e' f' h
    rcases back h with h | ⟨-, h2, -, -, h5⟩
    · exact I.comr _ _ _ h
    · rw [hc h2.symm] at h5; cases h5

/-- Reading one of the fixed fields. -/
theorem Inv.look {s : St} (I : Inv s) {g : Gor} {e : Nat} (he : e < s.born) (hk : ∀ i g', At s.tr i g' e .fixed true → Kn s.tr g i) :
    Inv { s with tr := s.tr ++ [.acc g e .fixed false] } := by
  refine I.acc he (fun _ => rfl) ?_ (by rintro (⟨-, h⟩ | ⟨h, -⟩) <;> cases h) (by rintro (⟨-, h⟩ | h | h) <;> cases h) (by intro h; cases h)
  intro i g' w' h hw _
  rcases hw with hw | rfl
  · cases hw
  · exact hk i g' h

/-- Fields of the chains: accesses of a goroutine that knows all others. -/
theorem Inv.chain {s : St} (I : Inv s) {g : Gor} {e : Nat} {f : Fld} {w : Bool} (hf : f = .prev ∨ f = .next) (he : e < s.born) (hc : g = .com → w = false)
    (hk : ∀ i g' w', At s.tr i g' e f w' → Kn s.tr g i) (hF : Kn (s.tr ++ [.acc g e f w]) g s.tr.length → PF (s.tr ++ [.acc g e f w]) (s.f e) s.node e s.tr.length) :
    Inv { s with tr := s.tr ++ [.acc g e f w] } := by
  have hn1 : f ≠ .fixed := by rcases hf with rfl | rfl <;> simp
  have hn2 : f ≠ .producer := by rcases hf with rfl | rfl <;> simp
  exact I.acc he hc (fun i g' w' h _ _ => hk i g' w' h) (by rintro (⟨h, -⟩ | ⟨h, -⟩); exacts [absurd h hn1, absurd h hn2]) (fun _ => hF (kn_self _))
    (by rintro _ (h | h); exacts [absurd h hn1, absurd h hn2])

end Verif.Shared

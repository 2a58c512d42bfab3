import Verif.Confine.Spec
import Mathlib.Tactic.Common
/-
Proofs for C115: what goroutines know, and that the making of a store happens before all else that is done with it.
-/
namespace Verif.Confine
open Verif.Eos (upd)

variable {tr : List Op}

/-! ### What a goroutine, a message and the lock know -/

theorem get_lt {i : Nat} {a : Op} (h : tr[i]? = some a) : i < tr.length := by
  by_contra hn
  rw [List.getElem?_eq_none (by omega)] at h; cases h

theorem get_mono {l : List Op} {i : Nat} {a : Op} (h : tr[i]? = some a) : (tr ++ l)[i]? = some a := by
  rw [List.getElem?_append_left (get_lt h)]; exact h

theorem before_mono {l : List Op} {i j : Nat} (h : Before tr i j) : Before (tr ++ l) i j := by
  induction h with
  | same h1 h2 h3 h4 => exact .same h1 (get_mono h2) (get_mono h3) h4
  | chan h1 h2 h3 => exact .chan h1 (get_mono h2) (get_mono h3)
  | lock h1 h2 h3 => exact .lock h1 (get_mono h2) (get_mono h3)
  | trans _ _ ih1 ih2 => exact .trans ih1 ih2

/-- The operation at `i` is one of `g` or happens before one. -/
def Kn (tr : List Op) (g : Gor) (i : Nat) : Prop := ∃ j a, tr[j]? = some a ∧ a.gor = g ∧ (i = j ∨ Before tr i j)

/-- The operation at `i` happens before the sending of `m`. -/
def Ms (tr : List Op) (m : Msg) (i : Nat) : Prop := ∃ j g, tr[j]? = some (.snd g m) ∧ (i = j ∨ Before tr i j)

/-- The operation at `i` happens before an unlocking. -/
def Mx (tr : List Op) (i : Nat) : Prop := ∃ j g, tr[j]? = some (.unlock g) ∧ (i = j ∨ Before tr i j)

theorem Kn.mono {l : List Op} {g : Gor} {i : Nat} (h : Kn tr g i) : Kn (tr ++ l) g i := by
  obtain ⟨j, a, h1, h2, h3⟩ := h
  exact ⟨j, a, get_mono h1, h2, h3.imp id before_mono⟩

theorem Ms.mono {l : List Op} {m : Msg} {i : Nat} (h : Ms tr m i) : Ms (tr ++ l) m i := by
  obtain ⟨j, a, h1, h3⟩ := h
  exact ⟨j, a, get_mono h1, h3.imp id before_mono⟩

theorem Mx.mono {l : List Op} {i : Nat} (h : Mx tr i) : Mx (tr ++ l) i := by
  obtain ⟨j, a, h1, h3⟩ := h
  exact ⟨j, a, get_mono h1, h3.imp id before_mono⟩

theorem get_last (tr : List Op) (a : Op) : (tr ++ [a])[tr.length]? = some a := by simp

theorem Kn.before {g : Gor} {i : Nat} (h : Kn tr g i) {a : Op} (ha : a.gor = g) : Before (tr ++ [a]) i tr.length := by
  obtain ⟨j, b, h1, h2, h3⟩ := h
  have hs : Before (tr ++ [a]) j tr.length := .same (get_lt h1) (get_mono h1) (get_last tr a) (by rw [h2, ha])
  rcases h3 with rfl | h3
  · exact hs
  · exact .trans (before_mono h3) hs

theorem kn_self (a : Op) : Kn (tr ++ [a]) a.gor tr.length := ⟨_, a, get_last tr a, rfl, .inl rfl⟩

theorem Kn.snd {g : Gor} {i : Nat} (h : Kn tr g i) (m : Msg) : Ms (tr ++ [.snd g m]) m i :=
  ⟨_, g, get_last tr _, .inr (h.before rfl)⟩

theorem Kn.unlock {g : Gor} {i : Nat} (h : Kn tr g i) : Mx (tr ++ [.unlock g]) i :=
  ⟨_, g, get_last tr _, .inr (h.before rfl)⟩

theorem Ms.rcv {m : Msg} {i : Nat} (h : Ms tr m i) (g : Gor) : Kn (tr ++ [.rcv g m]) g i := by
  obtain ⟨j, g', h1, h2⟩ := h
  have hs : Before (tr ++ [.rcv g m]) j tr.length := .chan (get_lt h1) (get_mono h1) (get_last tr _)
  refine ⟨_, _, get_last tr _, rfl, .inr ?_⟩
  rcases h2 with rfl | h2
  · exact hs
  · exact .trans (before_mono h2) hs

theorem Mx.lock {i : Nat} (h : Mx tr i) (g : Gor) : Kn (tr ++ [.lock g]) g i := by
  obtain ⟨j, g', h1, h2⟩ := h
  have hs : Before (tr ++ [.lock g]) j tr.length := .lock (get_lt h1) (get_mono h1) (get_last tr _)
  refine ⟨_, _, get_last tr _, rfl, .inr ?_⟩
  rcases h2 with rfl | h2
  · exact hs
  · exact .trans (before_mono h2) hs

/-! ### The making of a store -/

/-- An access. -/
def At (tr : List Op) (i : Nat) (g : Gor) (st : Nat) (k : Kind) : Prop := tr[i]? = some (.acc g st k)

/-- What a `populate` goroutine knows, or will when it begins. -/
def PK (tr : List Op) (x : PSt) (n i : Nat) : Prop :=
  match x with
  | .new => Ms tr (.goPop n) i
  | _ => Kn tr (.pop n) i

/-- What a worker knows, or will when it begins. -/
def WK (tr : List Op) (x : WSt) (k i : Nat) : Prop :=
  match x with
  | .no => Ms tr (.goWork k) i
  | _ => Kn tr (.work k) i

theorem PK.mono {l : List Op} {x : PSt} {n i : Nat} (h : PK tr x n i) : PK (tr ++ l) x n i := by
  cases x with
  | new => exact Ms.mono h
  | run => exact Kn.mono h
  | done => exact Kn.mono h

theorem WK.mono {l : List Op} {x : WSt} {n i : Nat} (h : WK tr x n i) : WK (tr ++ l) x n i := by
  cases x with
  | no => exact Ms.mono h
  | sent => exact Kn.mono h
  | closed => exact Kn.mono h
  | got => exact Kn.mono h

/-- Who does what with which store. -/
def Shape (s : St) (g : Gor) (st : Nat) : Kind → Prop
  | .made => ∃ c, g = .caller c
  | .change => ∃ n, g = .pop n ∧ n < s.pops ∧ st = s.pStore n
  | .handled _ => ∃ k, g = .work k ∧ k < s.works ∧ st = s.wStore k ∧ s.has k = true
  | .revoked => ∃ c, g = .caller c

structure MI (s : St) : Prop where
  lt : ∀ i g st k, At s.tr i g st k → st < s.stores
  shape : ∀ i g st k, At s.tr i g st k → Shape s g st k
  pst : ∀ n, n < s.pops → s.pStore n < s.stores
  wst : ∀ k, k < s.works → s.wStore k < s.stores
  dat : ∀ p st, s.data p = some st → st < s.stores
  noW : ∀ k, s.works ≤ k → s.wait (.work k) = .no
  hasw : ∀ k, k < s.works → s.has k = true → s.wait (.work k) = .got
  mx : ∀ i g st, At s.tr i g st .made → Mx s.tr i
  pk : ∀ i g st n, At s.tr i g st .made → n < s.pops → s.pStore n = st → PK s.tr (s.pSt n) n i
  wk : ∀ i g st k, At s.tr i g st .made → k < s.works → s.wStore k = st → WK s.tr (s.wait (.work k)) k i
  mkd : ∀ st, st < s.stores → ∃ i g, At s.tr i g st .made
  one : ∀ i j g g' st k, At s.tr i g st .made → At s.tr j g' st k → i ≠ j → Before s.tr i j

theorem mi_init : MI St.init := by
  have no : ∀ {i g st k}, ¬ At St.init.tr i g st k := by intro i g st k h; simp [At, St.init] at h
  exact ⟨fun _ _ _ _ h => absurd h no, fun _ _ _ _ h => absurd h no, fun n h => absurd h (by simp [St.init]), fun n h => absurd h (by simp [St.init]), fun p st h => by simp [St.init] at h,
    fun _ _ => rfl, fun n h => absurd h (by simp [St.init]), fun _ _ _ h => absurd h no, fun _ _ _ _ h => absurd h no, fun _ _ _ _ h => absurd h no, fun _ h => absurd h (by simp [St.init]),
    fun _ _ _ _ _ _ h => absurd h no⟩

/-- An operation that is not an access. -/
def Op.quiet : Op → Bool
  | .acc _ _ _ => false
  | _ => true

theorem at_quiet {l : List Op} (hl : ∀ a ∈ l, a.quiet = true) {i : Nat} {g : Gor} {st : Nat} {k : Kind} (h : At (tr ++ l) i g st k) : At tr i g st k := by
  unfold At at h ⊢
  by_cases hi : i < tr.length
  · rwa [List.getElem?_append_left hi] at h
  · rw [List.getElem?_append_right (by omega)] at h
    have := hl _ (List.mem_of_getElem? h)
    cases this

theorem at_acc {g : Gor} {st : Nat} {k : Kind} {i : Nat} {g' : Gor} {st' : Nat} {k' : Kind} (h : At (tr ++ [.acc g st k]) i g' st' k') :
    At tr i g' st' k' ∨ (i = tr.length ∧ g' = g ∧ st' = st ∧ k' = k) := by
  unfold At at h ⊢
  by_cases hi : i < tr.length
  · rw [List.getElem?_append_left hi] at h; exact .inl h
  · rw [List.getElem?_append_right (by omega)] at h
    by_cases h0 : i - tr.length = 0
    · rw [h0] at h
      simp only [List.getElem?_cons_zero, Option.some.injEq, Op.acc.injEq] at h
      exact .inr ⟨by omega, h.1.symm, h.2.1.symm, h.2.2.symm⟩
    · rw [List.getElem?_eq_none (by simp; omega)] at h; cases h

/-- Nothing is done with a store. -/
theorem MI.move {s s' : St} (I : MI s) (l : List Op) (hl : ∀ a ∈ l, a.quiet = true) (htr : s'.tr = s.tr ++ l) (h1 : s'.stores = s.stores)
    (h2 : ∀ n, n < s.pops → n < s'.pops ∧ s'.pStore n = s.pStore n) (h3 : ∀ k, k < s.works → k < s'.works ∧ s'.wStore k = s.wStore k ∧ (s.has k = true → s'.has k = true))
    (pst : ∀ n, n < s'.pops → s'.pStore n < s.stores) (wst : ∀ k, k < s'.works → s'.wStore k < s.stores) (dat : ∀ p st, s'.data p = some st → st < s.stores)
    (noW : ∀ k, s'.works ≤ k → s'.wait (.work k) = .no) (hasw : ∀ k, k < s'.works → s'.has k = true → s'.wait (.work k) = .got)
    (pk : ∀ i g n, At s.tr i g (s'.pStore n) .made → n < s'.pops → PK s'.tr (s'.pSt n) n i)
    (wk : ∀ i g k, At s.tr i g (s'.wStore k) .made → k < s'.works → WK s'.tr (s'.wait (.work k)) k i) : MI s' := by
  have back : ∀ {i g st k}, At s'.tr i g st k → At s.tr i g st k := by
    intro i g st k h; rw [htr] at h; exact at_quiet hl h
  refine ⟨?_, ?_, ?_, ?_, ?_, noW, hasw, ?_, ?_, ?_, ?_, ?_⟩
  · intro i g st k h; rw [h1]; exact I.lt i g st k (back h)
  · intro i g st k h
    have := I.shape i g st k (back h)
    cases k with
    | made => exact this
    | revoked => exact this
    | change =>
      obtain ⟨n, a, b, c⟩ := this
      exact ⟨n, a, (h2 n b).1, by rw [(h2 n b).2]; exact c⟩
    | handled w =>
      obtain ⟨n, a, b, c, d⟩ := this
      exact ⟨n, a, (h3 n b).1, by rw [(h3 n b).2.1]; exact c, (h3 n b).2.2 d⟩
  · rw [h1]; exact pst
  · rw [h1]; exact wst
  · rw [h1]; exact dat
  · intro i g st h; rw [htr]; exact (I.mx i g st (back h)).mono
  · rintro i g st n h hn rfl; exact pk i g n (back h) hn
  · rintro i g st n h hn rfl; exact wk i g n (back h) hn
  · intro st h
    rw [h1] at h
    obtain ⟨i, g, h⟩ := I.mkd st h
    exact ⟨i, g, by rw [htr]; exact get_mono h⟩
  · intro i j g g' st k h h' hne; rw [htr]; exact before_mono (I.one i j g g' st k (back h) (back h') hne)

/-- Something is done with a store that was made. -/
theorem MI.acc {s : St} (I : MI s) {g : Gor} {st : Nat} {k : Kind} (hs : st < s.stores) (hk : k ≠ .made) (hsh : Shape s g st k) (hm : ∀ i g', At s.tr i g' st .made → Kn s.tr g i) :
    MI { s with tr := s.tr ++ [.acc g st k] } := by
  refine ⟨?_, ?_, I.pst, I.wst, I.dat, I.noW, I.hasw, ?_, ?_, ?_, fun st h => (I.mkd st h).imp fun i h => h.imp fun g h => get_mono h, ?_⟩
  · intro i g' st' k' h
    rcases at_acc h with h | ⟨-, -, rfl, -⟩
    · exact I.lt i g' st' k' h
    · exact hs
  · intro i g' st' k' h
    rcases at_acc h with h | ⟨-, rfl, rfl, rfl⟩
    · exact I.shape i g' st' k' h
    · exact hsh
  · intro i g' st' h
    rcases at_acc h with h | ⟨-, -, -, h⟩
    · exact (I.mx i g' st' h).mono
    · exact absurd h.symm hk
  · intro i g' st' n h h1 h2
    rcases at_acc h with h | ⟨-, -, -, h⟩
    · exact (I.pk i g' st' n h h1 h2).mono
    · exact absurd h.symm hk
  · intro i g' st' n h h1 h2
    rcases at_acc h with h | ⟨-, -, -, h⟩
    · exact (I.wk i g' st' n h h1 h2).mono
    · exact absurd h.symm hk
  · intro i j g1 g2 st' k' h h' hne
    rcases at_acc h with h0 | ⟨-, -, -, h0⟩
    · rcases at_acc h' with h1 | ⟨rfl, rfl, rfl, rfl⟩
      · exact before_mono (I.one i j g1 g2 st' k' h0 h1 hne)
      · exact (hm i g1 h0).before rfl
    · exact absurd h0.symm hk

/-- A store is made, under the lock. -/
theorem MI.make {s : St} (I : MI s) (c p : Nat) :
    MI { s with tr := s.tr ++ [.acc (.caller c) s.stores .made, .unlock (.caller c)], data := upd s.data p (some s.stores), stores := s.stores + 1 } := by
  have back : ∀ {i g st k}, At (s.tr ++ [.acc (.caller c) s.stores .made, .unlock (.caller c)]) i g st k →
      (At s.tr i g st k ∧ st < s.stores) ∨ (i = s.tr.length ∧ g = .caller c ∧ st = s.stores ∧ k = .made) := by
    intro i g st k h
    have h' : At ((s.tr ++ [.acc (.caller c) s.stores .made]) ++ [.unlock (.caller c)]) i g st k := by simpa using h
    rcases at_acc (at_quiet (by simp [Op.quiet]) h') with h | h
    · exact .inl ⟨h, I.lt _ _ _ _ h⟩
    · exact .inr h
  have e : s.tr ++ [.acc (.caller c) s.stores .made, .unlock (.caller c)] = (s.tr ++ [.acc (.caller c) s.stores .made]) ++ [.unlock (.caller c)] := by simp
  refine ⟨?_, ?_, fun n h => Nat.lt_succ_of_lt (I.pst n h), fun n h => Nat.lt_succ_of_lt (I.wst n h), ?_, I.noW, I.hasw, ?_, ?_, ?_, ?_, ?_⟩
  · intro i g st k h
    rcases back h with ⟨-, h⟩ | ⟨-, -, h, -⟩
    · exact Nat.lt_succ_of_lt h
    · exact h ▸ Nat.lt_succ_self _
  · intro i g st k h
    rcases back h with ⟨h, -⟩ | ⟨-, rfl, rfl, rfl⟩
    · exact I.shape i g st k h
    · exact ⟨c, rfl⟩
  · intro q st h
    change upd s.data p (some s.stores) q = some st at h
    unfold upd at h
    split at h
    · exact (Option.some.inj h) ▸ Nat.lt_succ_self _
    · exact Nat.lt_succ_of_lt (I.dat q st h)
  · intro i g st h
    rcases back h with ⟨h, -⟩ | ⟨rfl, -⟩
    · exact (I.mx i g st h).mono
    · show Mx (s.tr ++ [.acc (.caller c) s.stores .made, .unlock (.caller c)]) s.tr.length
      rw [e]
      exact (kn_self (tr := s.tr) (.acc (.caller c) s.stores .made)).unlock
  · intro i g st n h hn h2
    rcases back h with ⟨h, -⟩ | ⟨-, -, h, -⟩
    · exact (I.pk i g st n h hn h2).mono
    · have := I.pst n hn
      have h2' : s.pStore n = st := h2
      omega
  · intro i g st n h hn h2
    rcases back h with ⟨h, -⟩ | ⟨-, -, h, -⟩
    · exact (I.wk i g st n h hn h2).mono
    · have := I.wst n hn
      have h2' : s.wStore n = st := h2
      omega
  · intro st h
    by_cases he : st = s.stores
    · subst he
      exact ⟨s.tr.length, .caller c, by simp [At]⟩
    · obtain ⟨i, g, h⟩ := I.mkd st (by have : st < s.stores + 1 := h; omega)
      exact ⟨i, g, get_mono h⟩
  · intro i j g g' st k h h' hne
    rcases back h with ⟨h, h1⟩ | ⟨h1, -, h2, -⟩ <;> rcases back h' with ⟨h', h1'⟩ | ⟨h1', -, h2', -⟩
    · exact before_mono (I.one i j g g' st k h h' hne)
    · omega
    · omega
    · omega

/-- An operation in between. -/
theorem MI.quiet {s : St} (I : MI s) (l : List Op) (hl : ∀ a ∈ l, a.quiet = true) : MI { s with tr := s.tr ++ l } :=
  I.move l hl rfl rfl (fun _ h => ⟨h, rfl⟩) (fun _ h => ⟨h, rfl, id⟩) I.pst I.wst I.dat I.noW I.hasw (fun i g n h hn => (I.pk i g _ n h hn rfl).mono)
    (fun i g n h hn => (I.wk i g _ n h hn rfl).mono)

/-- `assign` of the store: afterwards the caller knows the making of all stores, in particular of this one. -/
theorem MI.assignStore {s : St} (I : MI s) (c p : Nat) : MI (assignStore s c p) ∧ storeOf s p < (assignStore s c p).stores ∧
    ∀ i g st, At (assignStore s c p).tr i g st .made → Kn (assignStore s c p).tr (.caller c) i := by
  have I1 := I.quiet [.lock (.caller c)] (by simp [Op.quiet])
  have k1 : ∀ i g st, At s.tr i g st .made → Kn (s.tr ++ [.lock (.caller c)]) (.caller c) i := fun i g st h => (I.mx i g st h).lock _
  unfold Verif.Confine.assignStore storeOf
  cases hd : s.data p with
  | some st =>
    have e : s.tr ++ [.lock (.caller c), .unlock (.caller c)] = (s.tr ++ [.lock (.caller c)]) ++ [.unlock (.caller c)] := by simp
    refine ⟨?_, I.dat p st hd, ?_⟩
    · have := I1.quiet [.unlock (.caller c)] (by simp [Op.quiet])
      simpa using this
    · intro i g st' h
      have h0 : At s.tr i g st' .made := at_quiet (l := [.lock (.caller c), .unlock (.caller c)]) (by simp [Op.quiet]) h
      show Kn (s.tr ++ [.lock (.caller c), .unlock (.caller c)]) _ _
      rw [e]
      exact (k1 i g st' h0).mono
  | none =>
    have e : s.tr ++ [.lock (.caller c), .acc (.caller c) s.stores .made, .unlock (.caller c)] =
        ((s.tr ++ [.lock (.caller c)]) ++ [.acc (.caller c) s.stores .made]) ++ [.unlock (.caller c)] := by simp
    refine ⟨?_, Nat.lt_succ_self _, ?_⟩
    · have := I1.make c p
      simpa using this
    · intro i g st' h
      change At (s.tr ++ [.lock (.caller c), .acc (.caller c) s.stores .made, .unlock (.caller c)]) i g st' .made at h
      show Kn (s.tr ++ [.lock (.caller c), .acc (.caller c) s.stores .made, .unlock (.caller c)]) _ _
      rw [e] at h ⊢
      rcases at_acc (at_quiet (by simp [Op.quiet]) h) with h | ⟨rfl, -⟩
      · exact (k1 i g st' (at_quiet (by simp [Op.quiet]) h)).mono.mono
      · exact (kn_self (tr := s.tr ++ [.lock (.caller c)]) (.acc (.caller c) s.stores .made)).mono

/-- `populate` is started by somebody who knows the making of the store. -/
theorem MI.startPop {s : St} (I : MI s) (c p st : Nat) (x : SSt) (hs : st < s.stores) (hk : ∀ i g, At s.tr i g st .made → Kn s.tr (.caller c) i) : MI (startPop s c p st x) := by
  refine I.move [.snd (.caller c) (.goPop s.pops)] (by simp [Op.quiet]) rfl rfl ?_ (fun _ h => ⟨h, rfl, id⟩) ?_ I.wst I.dat I.noW I.hasw ?_ (fun i g n h hn => (I.wk i g _ n h hn rfl).mono)
  · intro n hn
    exact ⟨Nat.lt_succ_of_lt hn, if_neg (Nat.ne_of_lt hn)⟩
  · intro n hn
    show upd s.pStore s.pops st n < s.stores
    unfold upd
    split
    · exact hs
    · exact I.pst n (by have : n < s.pops + 1 := hn; omega)
  · intro i g n h hn
    change At s.tr i g (upd s.pStore s.pops st n) .made at h
    show PK (s.tr ++ _) (upd s.pSt s.pops .new n) n i
    unfold upd at h ⊢
    by_cases hne : n = s.pops
    · subst hne
      rw [if_pos rfl] at h ⊢
      exact (hk i g h).snd _
    · rw [if_neg hne] at h ⊢
      exact (I.pk i g _ n h (by have : n < s.pops + 1 := hn; omega) rfl).mono

/-- A worker is started by somebody who knows the making of the store. -/
theorem MI.startWork {s : St} (I : MI s) (c p st : Nat) (hs : st < s.stores) (hk : ∀ i g, At s.tr i g st .made → Kn s.tr (.caller c) i) : MI (startWork s c p st) := by
  refine I.move [.snd (.caller c) (.goWork s.works)] (by simp [Op.quiet]) rfl rfl (fun _ h => ⟨h, rfl⟩) ?_ I.pst ?_ I.dat ?_ ?_ (fun i g n h hn => (I.pk i g _ n h hn rfl).mono) ?_
  · intro n hn
    refine ⟨Nat.lt_succ_of_lt hn, if_neg (Nat.ne_of_lt hn), ?_⟩
    intro h
    show upd s.has s.works false n = true
    unfold upd
    rw [if_neg (Nat.ne_of_lt hn)]; exact h
  · intro n hn
    show upd s.wStore s.works st n < s.stores
    unfold upd
    split
    · exact hs
    · exact I.wst n (by have : n < s.works + 1 := hn; omega)
  · intro n hn; exact I.noW n (by have : s.works + 1 ≤ n := hn; omega)
  · intro n hn h
    change upd s.has s.works false n = true at h
    unfold upd at h
    split at h
    · cases h
    · exact I.hasw n (by have : n < s.works + 1 := hn; omega) h
  · intro i g n h hn
    change At s.tr i g (upd s.wStore s.works st n) .made at h
    show WK (s.tr ++ _) (s.wait (.work n)) n i
    unfold upd at h
    by_cases hne : n = s.works
    · subst hne
      rw [if_pos rfl] at h
      rw [I.noW _ (Nat.le_refl _)]
      exact (hk i g h).snd _
    · rw [if_neg hne] at h
      exact (I.wk i g _ n h (by have : n < s.works + 1 := hn; omega) rfl).mono

/-- Fields that have nothing to do with it. -/
theorem MI.other {s : St} (I : MI s) (a : Nat → SSt) (b : Nat → Option Nat) (c : Nat → Option Nat) (d : Nat → Bool) (p : Nat → Nat) :
    MI { s with ss := a, prepping := b, workers := c, revoked := d, pPart := p } :=
  ⟨I.lt, I.shape, I.pst, I.wst, I.dat, I.noW, I.hasw, I.mx, I.pk, I.wk, I.mkd, I.one⟩

theorem mi_step {s s' : St} {x : Act} (I : MI s) (h : step s x = some s') : MI s' := by
  cases x with
  | prepare c p =>
    simp only [step] at h
    cases hp : s.prepping p with
    | some n => simp only [hp, Option.some.injEq] at h; subst h; exact I
    | none =>
      simp only [hp, Option.some.injEq] at h; subst h
      obtain ⟨J, h1, h2⟩ := I.assignStore c p
      have J2 := J.startPop c p (storeOf s p) .prepping h1 (fun i g h => h2 i g _ h)
      exact J2.other _ _ _ _ _
  | forget p =>
    simp only [step] at h
    cases hp : s.prepping p with
    | none => simp only [hp, Option.some.injEq] at h; subst h; exact I
    | some n => simp only [hp, Option.some.injEq] at h; subst h; exact I.other _ _ _ _ _
  | assign c p =>
    simp only [step] at h
    obtain ⟨J, h1, h2⟩ := I.assignStore c p
    cases hp : s.prepping p with
    | some n =>
      simp only [hp, Option.some.injEq] at h; subst h
      have J2 := J.startWork c p (storeOf s p) h1 (fun i g h => h2 i g _ h)
      exact J2.other _ _ _ _ _
    | none =>
      simp only [hp] at h
      cases hw : s.workers p with
      | some k => simp only [hw, Option.some.injEq] at h; subst h; exact J
      | none =>
        simp only [hw, Option.some.injEq] at h; subst h
        have J2 := J.startPop c p (storeOf s p) .ready h1 (fun i g h => h2 i g _ h)
        refine J2.startWork c p (storeOf s p) h1 ?_
        intro i g h
        exact (h2 i g _ (at_quiet (l := [.snd (.caller c) (.goPop (Verif.Confine.assignStore s c p).pops)]) (by simp [Op.quiet]) h)).mono
  | revoke c p =>
    simp only [step] at h
    have main : ∀ s1 : St, MI s1 → s1.tr = s.tr → s1.data = s.data → s1.stores = s.stores → MI (match s.data p with
        | some st => { s1 with tr := s.tr ++ [.lock (.caller c), .acc (.caller c) st .revoked, .unlock (.caller c)], data := upd s.data p none }
        | none => { s1 with tr := s.tr ++ [.lock (.caller c), .unlock (.caller c)] }) := by
      intro s1 I1 e1 e2 e3
      have I2 := I1.quiet [.lock (.caller c)] (by simp [Op.quiet])
      cases hd : s.data p with
      | none =>
        have := I2.quiet [.unlock (.caller c)] (by simp [Op.quiet])
        simp only [e1] at this
        simpa using this
      | some st =>
        have I3 := I2.acc (g := .caller c) (st := st) (k := .revoked) (by show st < s1.stores; rw [e3]; exact I.dat p st hd) (by simp) ⟨c, rfl⟩ (by
          intro i g h
          have h0 : At s1.tr i g st .made := at_quiet (l := [.lock (.caller c)]) (by simp [Op.quiet]) h
          exact (I1.mx i g st h0).lock _)
        have I4 := I3.quiet [.unlock (.caller c)] (by simp [Op.quiet])
        have I5 : MI { s1 with tr := s.tr ++ [.lock (.caller c), .acc (.caller c) st .revoked, .unlock (.caller c)] } := by
          simp only [e1] at I4
          simpa using I4
        refine ⟨I5.lt, I5.shape, I5.pst, I5.wst, ?_, I5.noW, I5.hasw, I5.mx, I5.pk, I5.wk, I5.mkd, I5.one⟩
        intro q st' h
        change upd s.data p none q = some st' at h
        unfold upd at h
        split at h
        · cases h
        · show st' < s1.stores
          rw [e3]; exact I.dat q st' h
    cases hw : s.workers p with
    | none =>
      have := main s I rfl rfl rfl
      cases hd : s.data p <;> simp only [hw, hd, Option.some.injEq] at h this <;> subst h <;> exact this
    | some k =>
      have := main { s with revoked := upd s.revoked k true, workers := upd s.workers p none } (I.other s.ss s.prepping _ _ s.pPart) rfl rfl rfl
      cases hd : s.data p <;> simp only [hw, hd, Option.some.injEq] at h this <;> subst h <;> exact this
  | begin n =>
    simp only [step] at h
    split at h <;> cases h
    rename_i hn
    refine I.move [.rcv (.pop n) (.goPop n)] (by simp [Op.quiet]) rfl rfl (fun _ h => ⟨h, rfl⟩) (fun _ h => ⟨h, rfl, id⟩) I.pst I.wst I.dat I.noW I.hasw ?_ (fun i g k h hk => (I.wk i g _ k h hk rfl).mono)
    intro i g m h hm
    have := I.pk i g _ m h hm rfl
    show PK (s.tr ++ _) (upd s.pSt n .run m) m i
    unfold upd
    by_cases he : m = n
    · subst he
      rw [if_pos rfl]
      rw [hn.2] at this
      exact Ms.rcv this _
    · rw [if_neg he]; exact this.mono
  | apply n =>
    simp only [step] at h
    split at h <;> cases h
    rename_i hn
    refine I.acc (I.pst n hn.1) (by simp) ⟨n, rfl, hn.1, rfl⟩ ?_
    intro i g h
    have := I.pk i g _ n h hn.1 rfl
    rw [hn.2] at this
    exact this
  | mark n w =>
    simp only [step] at h
    split at h
    · rename_i hw
      have key : ∀ (ss : Nat → SSt) (f : Nat → PSt), (f = s.pSt ∨ f = upd s.pSt n .done) →
          MI { s with tr := s.tr ++ [.snd (.pop n) (.closed w)], ss := ss, pSt := f, wait := setW s.wait w .closed } := by
        intro ss f hf
        refine I.move [.snd (.pop n) (.closed w)] (by simp [Op.quiet]) rfl rfl (fun _ h => ⟨h, rfl⟩) (fun _ h => ⟨h, rfl, id⟩) I.pst I.wst I.dat ?_ ?_ ?_ ?_
        · intro k hk
          show setW s.wait w .closed (.work k) = .no
          have hne : Wt.work k ≠ w := by rintro rfl; rw [I.noW k hk] at hw; cases hw.2.2.1
          unfold setW; rw [if_neg hne]; exact I.noW k hk
        · intro k hk hh
          show setW s.wait w .closed (.work k) = .got
          have hne : Wt.work k ≠ w := by rintro rfl; rw [I.hasw k hk hh] at hw; cases hw.2.2.1
          unfold setW; rw [if_neg hne]; exact I.hasw k hk hh
        · intro i g m h hm
          have := I.pk i g _ m h hm rfl
          show PK (s.tr ++ _) (f m) m i
          rcases hf with rfl | rfl
          · exact this.mono
          · unfold upd
            by_cases he : m = n
            · subst he
              rw [if_pos rfl]
              rw [hw.2.1] at this
              exact Kn.mono this
            · rw [if_neg he]; exact this.mono
        · intro i g k h hk
          have := I.wk i g _ k h hk rfl
          show WK (s.tr ++ _) (setW s.wait w .closed (.work k)) k i
          unfold setW
          by_cases he : Wt.work k = w
          · subst he
            rw [if_pos rfl]
            rw [hw.2.2.1] at this
            exact Kn.mono this
          · rw [if_neg he]; exact this.mono
      split at h <;> cases h
      · exact key _ _ (.inl rfl)
      · exact key _ _ (.inr rfl)
      · exact key _ _ (.inl rfl)
    · cases h
  | drain n =>
    simp only [step] at h
    split at h <;> cases h
    rename_i hn
    refine I.move [] (by simp) (by simp) rfl (fun _ h => ⟨h, rfl⟩) (fun _ h => ⟨h, rfl, id⟩) I.pst I.wst I.dat I.noW I.hasw ?_ (fun i g k h hk => I.wk i g _ k h hk rfl)
    intro i g m h hm
    have := I.pk i g _ m h hm rfl
    show PK s.tr (upd s.pSt n .done m) m i
    unfold upd
    by_cases he : m = n
    · subst he
      rw [if_pos rfl]
      rw [hn.2] at this
      exact this
    · rw [if_neg he]; exact this
  | sync w =>
    simp only [step] at h
    split at h
    · rename_i hw
      cases w with
      | prep m =>
        cases h
        refine I.move [] (by simp) (by simp) rfl (fun _ h => ⟨h, rfl⟩) (fun _ h => ⟨h, rfl, id⟩) I.pst I.wst I.dat ?_ ?_ (fun i g n h hn => I.pk i g _ n h hn rfl) ?_
        · intro k hk; exact I.noW k hk
        · intro k hk; exact I.hasw k hk
        · intro i g k h hk; exact I.wk i g _ k h hk rfl
      | work m =>
        cases h
        simp only [Wt.exists, decide_eq_true_eq] at hw
        refine I.move [.rcv (.work m) (.goWork m)] (by simp [Op.quiet]) rfl rfl (fun _ h => ⟨h, rfl⟩) (fun _ h => ⟨h, rfl, id⟩) I.pst I.wst I.dat ?_ ?_
          (fun i g n h hn => (I.pk i g _ n h hn rfl).mono) ?_
        · intro k hk
          show setW s.wait (.work m) .sent (.work k) = .no
          unfold setW
          rw [if_neg (by intro e; cases e; have := hw.1; have : s.works ≤ m := hk; omega)]
          exact I.noW k hk
        · intro k hk hh
          show setW s.wait (.work m) .sent (.work k) = .got
          unfold setW
          rw [if_neg (by intro e; cases e; rw [I.hasw _ hk hh] at hw; cases hw.2)]
          exact I.hasw k hk hh
        · intro i g k h hk
          have := I.wk i g _ k h hk rfl
          show WK (s.tr ++ _) (setW s.wait (.work m) .sent (.work k)) k i
          unfold setW
          by_cases he : Wt.work k = .work m
          · cases he
            rw [if_pos rfl]
            rw [hw.2] at this
            exact Ms.rcv this _
          · rw [if_neg he]; exact this.mono
    · cases h
  | got w =>
    simp only [step] at h
    split at h <;> cases h
    rename_i hw
    refine I.move [.rcv w.gor (.closed w)] (by simp [Op.quiet]) rfl rfl (fun _ h => ⟨h, rfl⟩) (fun _ h => ⟨h, rfl, id⟩) I.pst I.wst I.dat ?_ ?_
      (fun i g n h hn => (I.pk i g _ n h hn rfl).mono) ?_
    · intro k hk
      show setW s.wait w .got (.work k) = .no
      have hne : Wt.work k ≠ w := by rintro rfl; rw [I.noW k hk] at hw; cases hw
      unfold setW; rw [if_neg hne]; exact I.noW k hk
    · intro k hk hh
      show setW s.wait w .got (.work k) = .got
      unfold setW
      split
      · rfl
      · exact I.hasw k hk hh
    · intro i g k h hk
      have := I.wk i g _ k h hk rfl
      show WK (s.tr ++ _) (setW s.wait w .got (.work k)) k i
      unfold setW
      by_cases he : Wt.work k = w
      · subst he
        rw [if_pos rfl]
        rw [hw] at this
        exact Kn.mono this
      · rw [if_neg he]; exact this.mono
  | sched k =>
    simp only [step] at h
    split at h <;> cases h
    rename_i hk
    refine I.move [] (by simp) (by simp) rfl (fun _ h => ⟨h, rfl⟩) ?_ I.pst I.wst I.dat I.noW ?_ (fun i g n h hn => I.pk i g _ n h hn rfl) (fun i g k h hk => I.wk i g _ k h hk rfl)
    · intro l hl
      refine ⟨hl, rfl, fun h => ?_⟩
      show upd s.has k true l = true
      unfold upd
      split
      · rfl
      · exact h
    · intro l hl h
      change upd s.has k true l = true at h
      unfold upd at h
      split at h
      · rename_i e; subst e; exact hk.2.1
      · exact I.hasw l hl h
  | handle k w =>
    simp only [step] at h
    split at h <;> cases h
    rename_i hk
    refine I.acc (I.wst k hk.1) (by simp) ⟨k, rfl, hk.1, rfl, hk.2⟩ ?_
    intro i g h
    have := I.wk i g _ k h hk.1 rfl
    rw [I.hasw k hk.1 hk.2] at this
    exact this

theorem mi_reach {s : St} (h : Reach s) : MI s := by
  induction h with
  | init => exact mi_init
  | step x _ hx ih => exact mi_step ih hx

end Verif.Confine

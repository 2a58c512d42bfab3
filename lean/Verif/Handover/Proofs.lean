import Verif.Handover.Model
import Mathlib.Tactic.Common
import Mathlib.Data.List.Induction
/-
Invariant of the hand-over model under the condition that no transaction of another session is open without a commit record when a marker is sent.
-/
namespace Verif.Handover
set_option linter.unusedSimpArgs false
set_option linter.unusedVariables false

/-- The effect of an entry on the watermark. -/
def wmStep (w : Nat) : Entry → Nat
  | .cmt _ o .committed => o
  | _ => w

/-- The watermark after reading these entries. -/
def wmOf (l : List Entry) : Nat := l.foldl wmStep 0

def Entry.und : Entry → Bool
  | .cmt _ _ .undecided => true
  | _ => false

def Entry.isCmt : Entry → Bool
  | .cmt _ _ _ => true
  | .mark _ => false

theorem wmOf_append_of_not {l m : List Entry} (h : ∀ e ∈ m, ∀ i o, e ≠ .cmt i o .committed) : wmOf (l ++ m) = wmOf l := by
  unfold wmOf
  rw [List.foldl_append]
  generalize List.foldl _ 0 l = w
  induction m with
  | nil => rfl
  | cons e m ih =>
    rw [List.foldl_cons]
    have he := h e (by simp)
    have : wmStep w e = w := by
      cases e with
      | mark i => rfl
      | cmt i o st => cases st <;> first | rfl | exact absurd rfl (he i o)
    rw [this]
    exact ih (fun e' h' => h e' (by simp [h']))

theorem wmOf_committed {l m : List Entry} {i o : Nat} (h : ∀ e ∈ m, e.isCmt = false) : wmOf (l ++ .cmt i o .committed :: m) = o := by
  have : l ++ .cmt i o .committed :: m = (l ++ [.cmt i o .committed]) ++ m := by simp
  rw [this, wmOf_append_of_not]
  · unfold wmOf; rw [List.foldl_append]; rfl
  · intro e he j o' hx; have := h e he; rw [hx] at this; cases this

theorem settle_of_not_und {e : Entry} {i : Nat} {st : Status} (h : e.und = false) : settle i st e = e := by
  cases e with
  | mark j => rfl
  | cmt j o s => cases s <;> first | rfl | cases h

theorem map_settle {l : List Entry} {i : Nat} {st : Status} (h : ∀ e ∈ l, e.und = false) : l.map (settle i st) = l := by
  induction l with
  | nil => rfl
  | cons e l ih =>
    rw [List.map_cons, settle_of_not_und (h e (by simp)), ih (fun e' h' => h e' (by simp [h']))]

theorem settle_mark_iff {e : Entry} {i j : Nat} {st : Status} : settle i st e = .mark j ↔ e = .mark j := by
  cases e with
  | mark k => simp [settle]
  | cmt k o s =>
    cases s <;> simp [settle]
    split <;> simp

theorem settle_isCmt {e : Entry} {i : Nat} {st : Status} : (settle i st e).isCmt = e.isCmt := by
  cases e with
  | mark k => rfl
  | cmt k o s => cases s <;> (simp only [settle]; try split) <;> rfl

theorem count_map_settle (l : List Entry) (i j : Nat) (st : Status) : (l.map (settle i st)).count (.mark j) = l.count (.mark j) := by
  simp only [List.count_eq_countP, List.countP_map]
  apply List.countP_congr
  intro e _
  simp only [Function.comp, beq_iff_eq]
  exact settle_mark_iff

theorem split_range {a b : List Nat} {w n : Nat} (h : a ++ b = List.range' w n) :
    a = List.range' w a.length ∧ b = List.range' (w + a.length) b.length := by
  have hl : n = a.length + b.length := by have := congrArg List.length h; simpa using this.symm
  rw [hl, ← List.range'_append_1] at h
  exact List.append_inj h (by simp)

theorem last_range {t : List Nat} {w : Nat} (h : t = List.range' w t.length) (ht : t ≠ []) : t.getLastD 0 + 1 = w + t.length := by
  have hp : 0 < t.length := List.length_pos_iff.mpr ht
  obtain ⟨k, hk⟩ : ∃ k, t.length = k + 1 := ⟨t.length - 1, by omega⟩
  rw [hk] at h ⊢
  rw [h, List.range'_concat, List.getLastD_concat]
  omega

theorem addEvent_spec {v : Sess} {new : Bool} {p : List (List Nat)} (h : addEvent v new = some p) :
    p.flatten = v.pend.flatten ++ [v.next] ∧ p ≠ [] ∧ ((∀ t ∈ v.pend, t ≠ []) → ∀ t ∈ p, t ≠ []) ∧
      (v.prep = true → ∀ t rest, v.pend = t :: rest → ∃ rest', p = t :: rest') := by
  unfold addEvent at h
  by_cases hnew : new = true
  · rw [if_pos hnew] at h
    simp only [Option.some.injEq] at h; subst h
    refine ⟨by simp, by simp, ?_, ?_⟩
    · intro ht t hm
      simp only [List.mem_append, List.mem_singleton] at hm
      rcases hm with hm | rfl
      · exact ht t hm
      · simp
    · intro _ t rest e; rw [e]; exact ⟨_, rfl⟩
  · rw [if_neg hnew] at h
    by_cases hlen : (if v.prep = true then 1 else 0) < v.pend.length
    · rw [if_pos hlen] at h
      simp only [Option.map_eq_some_iff] at h
      obtain ⟨t, ht, rfl⟩ := h
      have he : v.pend = v.pend.dropLast ++ [t] := by
        rw [List.getLast?_eq_some_iff] at ht
        obtain ⟨ys, hy⟩ := ht
        rw [hy]; simp
      refine ⟨?_, by simp, ?_, ?_⟩
      · conv => rhs; rw [he]
        simp
      · intro ht' u hm
        simp only [List.mem_append, List.mem_singleton] at hm
        rcases hm with hm | rfl
        · exact ht' u (List.dropLast_subset _ hm)
        · simp
      · intro hp t' rest e
        rw [e] at hlen ⊢
        rw [hp] at hlen
        cases rest with
        | nil => simp at hlen
        | cons a rest => exact ⟨_, by rw [List.dropLast_cons_cons]; rfl⟩
    · rw [if_neg hlen] at h; simp at h

/-- The condition at a hand-over: when session `i` sends its marker, no other session has a transaction without a commit record. -/
def Clean (s : St) (i : Nat) : Prop :=
  ∀ j, j ≠ i → (s.sess j).pend = [] ∨ ((s.sess j).prep = true ∧ ∃ t, (s.sess j).pend = [t])

structure Inv (s : St) : Prop where
  eff : s.effects = List.range s.effects.length
  wmlog : wmOf s.log = s.effects.length
  fresh : ∀ i, s.n ≤ i → s.sess i = Sess.init
  last : ∀ i, i + 1 < s.n → (s.sess i).revoked = true
  cnt : ∀ i, s.log.count (.mark i) ≤ if (s.sess i).marked then 1 else 0
  seen : ∀ i, (s.sess i).start.isSome → (s.sess i).marked = true ∧ .mark i ∉ s.log.drop (s.sess i).pos
  und : ∀ i o, .cmt i o .undecided ∈ s.log → (s.sess i).prep = true
  prepd : ∀ i, (s.sess i).prep = true → ∃ t rest pre post, (s.sess i).pend = t :: rest ∧
    s.log = pre ++ .cmt i (s.effects.length + t.length) .undecided :: post ∧ (∀ e ∈ pre, e.und = false) ∧ (∀ e ∈ post, e.isCmt = false)
  act : ∀ i, (s.sess i).pend ≠ [] → (s.sess i).start.isSome ∧ (s.sess i).pend.flatten = List.range' s.effects.length (s.sess i).pend.flatten.length ∧
    (∀ t ∈ (s.sess i).pend, t ≠ [])
  nxt : ∀ i, (s.sess i).failed = false → ((s.sess i).pend ≠ [] ∨ (i < s.n ∧ (s.sess i).revoked = false ∧ (s.sess i).start.isSome)) →
    (s.sess i).next = s.effects.length + (s.sess i).pend.flatten.length
  excl : ∀ i j, (s.sess i).pend ≠ [] → (s.sess j).pend ≠ [] → i = j
  startd : ∀ i, i < s.n → (s.sess i).revoked = false → (s.sess i).start.isSome → ∀ j, j ≠ i → (s.sess j).pend = []
  markd : ∀ i, i < s.n → (s.sess i).revoked = false → (s.sess i).marked = true → ∀ j, j ≠ i →
    (s.sess j).pend = [] ∨ ((s.sess j).prep = true ∧ ∃ t, (s.sess j).pend = [t])
  rd : ∀ i, i < s.n → (s.sess i).revoked = false → (s.sess i).marked = true → (s.sess i).start = none →
    ∃ pre post, s.log = pre ++ .mark i :: post ∧ ∀ e ∈ post, e.isCmt = false
  rpos : ∀ i, (s.sess i).wm = wmOf (s.log.take (s.sess i).pos) ∧ (s.sess i).pos ≤ s.log.length ∧ ∀ e ∈ s.log.take (s.sess i).pos, e.und = false

theorem inv_init : Inv St.init := by
  constructor <;> simp [St.init, Sess.init, wmOf]

theorem sess_set (s : St) (i j : Nat) (v : Sess) : (s.set i v).sess j = if j = i then v else s.sess j := rfl

theorem und_iff {e : Entry} : e.und = true ↔ ∃ i o, e = .cmt i o .undecided := by
  cases e with
  | mark i => simp [Entry.und]
  | cmt i o st => cases st <;> simp [Entry.und]


theorem set_n (s : St) (i : Nat) (v : Sess) : (s.set i v).n = s.n := rfl
theorem set_log (s : St) (i : Nat) (v : Sess) : (s.set i v).log = s.log := rfl
theorem set_effects (s : St) (i : Nat) (v : Sess) : (s.set i v).effects = s.effects := rfl

theorem inv_assign {s s' : St} (I : Inv s) (h : step s .assign = some s') : Inv s' := by
  simp only [step] at h
  split at h
  · rename_i ha
    simp only [Option.some.injEq] at h; subst h
    have hrev : ∀ j, j < s.n → (s.sess j).revoked = true := by
      intro j hj
      simp only [List.all_eq_true, List.mem_range] at ha
      exact ha j hj
    have hnew : s.sess s.n = Sess.init := I.fresh _ (Nat.le_refl _)
    have hcase : ∀ j, j < s.n + 1 → (s.sess j).revoked = false → j = s.n := by
      intro j hj hr
      by_contra hne
      have := hrev j (by omega); rw [hr] at this; cases this
    refine { I with fresh := fun i hi => I.fresh i (by dsimp only at hi; omega), last := fun i hi => hrev i (by dsimp only at hi; omega), nxt := ?_, startd := ?_, markd := ?_, rd := ?_ }
    · intro i hf hc
      rcases hc with hc | ⟨h1, h2, h3⟩
      · exact I.nxt i hf (Or.inl hc)
      · have := hcase i h1 h2; subst this; rw [hnew] at h3; simp [Sess.init] at h3
    · intro i h1 h2 h3
      have := hcase i h1 h2; subst this; rw [hnew] at h3; simp [Sess.init] at h3
    · intro i h1 h2 h3
      have := hcase i h1 h2; subst this; rw [hnew] at h3; simp [Sess.init] at h3
    · intro i h1 h2 h3
      have := hcase i h1 h2; subst this; rw [hnew] at h3; simp [Sess.init] at h3
  · simp at h

theorem inv_revoke {s s' : St} {i : Nat} (I : Inv s) (h : step s (.revoke i) = some s') : Inv s' := by
  simp only [step] at h
  split at h
  · rename_i hi
    simp only [Option.some.injEq] at h; subst h
    have key : ∀ j, ∃ b, (s.set i { s.sess i with revoked := true }).sess j = { s.sess j with revoked := b } ∧ (b = false → (s.sess j).revoked = false) ∧
        ((s.sess j).revoked = true → b = true) ∧ (s.n ≤ j → b = false) := by
      intro j
      by_cases h : j = i
      · subst h; exact ⟨true, by simp [sess_set], by simp, by simp, fun a => by omega⟩
      · refine ⟨(s.sess j).revoked, by simp [sess_set, h], by simp, by simp, ?_⟩
        intro hj; rw [I.fresh j hj]; rfl
    constructor
    · exact I.eff
    · exact I.wmlog
    · intro j hj; obtain ⟨b, e, _, _, hb⟩ := key j; rw [e, hb hj]
      have := I.fresh j hj; rw [this]; rfl
    · intro j hj; obtain ⟨b, e, _, hb, _⟩ := key j; rw [e]; exact hb (I.last j hj)
    · intro j; obtain ⟨b, e, _⟩ := key j; rw [e]; exact I.cnt j
    · intro j; obtain ⟨b, e, _⟩ := key j; rw [e]; exact I.seen j
    · intro j; obtain ⟨b, e, _⟩ := key j; rw [e]; exact I.und j
    · intro j; obtain ⟨b, e, _⟩ := key j; rw [e]; exact I.prepd j
    · intro j; obtain ⟨b, e, _⟩ := key j; rw [e]; exact I.act j
    · intro j; obtain ⟨b, e, hb, _⟩ := key j; rw [e]
      intro hf hc
      apply I.nxt j hf
      rcases hc with hc | ⟨h1, h2, h3⟩
      · exact Or.inl hc
      · exact Or.inr ⟨h1, hb h2, h3⟩
    · intro j k; obtain ⟨b, e, hb, _⟩ := key j; obtain ⟨b', e', hb', _⟩ := key k; rw [e, e']; exact I.excl j k
    · intro j h1 h2 h3 k hk
      obtain ⟨b, e, hb, _⟩ := key j; obtain ⟨b', e', hb', _⟩ := key k
      rw [e] at h2 h3; rw [e']
      exact I.startd j h1 (hb h2) h3 k hk
    · intro j h1 h2 h3 k hk
      obtain ⟨b, e, hb, _⟩ := key j; obtain ⟨b', e', hb', _⟩ := key k
      rw [e] at h2 h3; rw [e']
      exact I.markd j h1 (hb h2) h3 k hk
    · intro j h1 h2 h3 h4
      obtain ⟨b, e, hb, _⟩ := key j
      rw [e] at h2 h3 h4
      exact I.rd j h1 (hb h2) h3 h4
    · intro j; obtain ⟨b, e, _⟩ := key j; rw [e]; exact I.rpos j
  · simp at h

/-- Only the newest session is not revoked. -/
theorem Inv.newest {s : St} (I : Inv s) {i j : Nat} (hi : i < s.n) (hj : j < s.n) (h1 : (s.sess i).revoked = false) (h2 : (s.sess j).revoked = false) : i = j := by
  have a : ¬ i + 1 < s.n := fun h => by have := I.last i h; rw [h1] at this; cases this
  have b : ¬ j + 1 < s.n := fun h => by have := I.last j h; rw [h2] at this; cases this
  omega

theorem Inv.lt_of_marked {s : St} (I : Inv s) {i : Nat} (h : (s.sess i).marked = true) : i < s.n := by
  by_contra hn
  rw [I.fresh i (by omega)] at h; cases h

theorem Inv.lt_of_pend {s : St} (I : Inv s) {i : Nat} (h : (s.sess i).pend ≠ []) : i < s.n := by
  by_contra hn
  rw [I.fresh i (by omega)] at h; exact h rfl

theorem drop_append_mem {l : List Entry} {e x : Entry} {p : Nat} (hp : p ≤ l.length) (h : x ∈ (l ++ [e]).drop p) : x ∈ l.drop p ∨ x = e := by
  rw [List.drop_append_of_le_length hp] at h
  simpa using h

theorem inv_mark {s s' : St} {i : Nat} (I : Inv s) (hc : Clean s i) (h : step s (.mark i) = some s') : Inv s' := by
  simp only [step] at h
  split at h
  · rename_i hi
    simp only [Option.some.injEq] at h; subst h
    have hsess : ∀ j, (s.set i { s.sess i with marked := true }).sess j = { s.sess j with marked := if j = i then true else (s.sess j).marked } := by
      intro j; rw [sess_set]; split
      · rename_i e; subst e; rfl
      · rfl
    have hstart : (s.sess i).start = none := by
      cases hx : (s.sess i).start with
      | none => rfl
      | some x => have := (I.seen i (by rw [hx]; rfl)).1; rw [hi.2] at this; cases this
    constructor <;> dsimp only [set_n, set_log, set_effects]
    · exact I.eff
    · rw [wmOf_append_of_not]
      · exact I.wmlog
      · intro e he; simp only [List.mem_singleton] at he; subst he; intros; simp
    · intro j hj; rw [hsess, if_neg (by omega)]; exact I.fresh j hj
    · intro j hj; rw [hsess]; exact I.last j hj
    · intro j; rw [hsess]; dsimp only
      have hj := I.cnt j
      rw [List.count_append]
      by_cases e : j = i
      · subst e; rw [if_pos rfl]; rw [hi.2] at hj; simp at hj ⊢; exact hj
      · rw [if_neg e]
        have : List.count (Entry.mark j) [Entry.mark i] = 0 := by simp [List.count_singleton]; exact fun h => e h.symm
        omega
    · intro j; rw [hsess]; dsimp only
      intro hst
      have := I.seen j hst
      have hne : j ≠ i := by intro e; subst e; rw [hstart] at hst; cases hst
      rw [if_neg hne]
      refine ⟨this.1, fun hm => ?_⟩
      rcases drop_append_mem (I.rpos j).2.1 hm with h' | h'
      · exact this.2 h'
      · simp at h'; exact hne h'
    · intro j o hm; rw [hsess]; dsimp only
      simp at hm
      exact I.und j o hm
    · intro j; rw [hsess]; dsimp only
      intro hp
      obtain ⟨t, rest, pre, post, e1, e2, e3, e4⟩ := I.prepd j hp
      refine ⟨t, rest, pre, post ++ [.mark i], e1, by rw [e2]; simp, e3, ?_⟩
      intro e he
      simp only [List.mem_append, List.mem_singleton] at he
      rcases he with he | rfl
      · exact e4 e he
      · rfl
    · intro j; rw [hsess]; exact I.act j
    · intro j; rw [hsess]; exact I.nxt j
    · intro j k; rw [hsess, hsess]; exact I.excl j k
    · intro j h1 h2 h3 k hk; rw [hsess] at h2 h3 ⊢; exact I.startd j h1 h2 h3 k hk
    · intro j h1 h2 h3 k hk; rw [hsess] at h2 h3 ⊢; dsimp only at *
      by_cases e : j = i
      · subst e; exact hc k hk
      · rw [if_neg e] at h3; exact I.markd j h1 h2 h3 k hk
    · intro j h1 h2 h3 h4; rw [hsess] at h2 h3 h4; dsimp only at *
      by_cases e : j = i
      · subst e; exact ⟨s.log, [], by simp, by simp⟩
      · rw [if_neg e] at h3
        obtain ⟨pre, post, e1, e2⟩ := I.rd j h1 h2 h3 h4
        refine ⟨pre, post ++ [.mark i], by rw [e1]; simp, ?_⟩
        intro x hx
        simp only [List.mem_append, List.mem_singleton] at hx
        rcases hx with hx | rfl
        · exact e2 x hx
        · rfl
    · intro j; rw [hsess]; dsimp only
      obtain ⟨r1, r2, r3⟩ := I.rpos j
      rw [List.take_append_of_le_length r2]
      exact ⟨r1, by simp; omega, r3⟩
  · simp at h

/-- Reading an entry that is not the own marker. -/
theorem inv_readOther {s : St} {i : Nat} {e : Entry} (I : Inv s) (hi : i < s.n) (he : s.log[(s.sess i).pos]? = some e) (hu : e.und = false) (hm : e ≠ .mark i) :
    Inv (s.set i { s.sess i with pos := (s.sess i).pos + 1, wm := wmStep (s.sess i).wm e }) := by
  have hlt : (s.sess i).pos < s.log.length := by
    by_contra hn; rw [List.getElem?_eq_none (by omega)] at he; cases he
  have key : ∀ j, ∃ p w, (s.set i { s.sess i with pos := (s.sess i).pos + 1, wm := wmStep (s.sess i).wm e }).sess j = { s.sess j with pos := p, wm := w } ∧
      (s.sess j).pos ≤ p ∧ (s.n ≤ j → s.sess j = { s.sess j with pos := p, wm := w }) ∧
      w = wmOf (s.log.take p) ∧ p ≤ s.log.length ∧ (∀ e ∈ s.log.take p, e.und = false) := by
    intro j
    by_cases h : j = i
    · subst h
      refine ⟨(s.sess j).pos + 1, wmStep (s.sess j).wm e, by simp [sess_set], by omega, fun h => by omega, ?_, by omega, ?_⟩
      · rw [List.take_add_one, he]
        unfold wmOf
        rw [List.foldl_append]
        have := (I.rpos j).1
        unfold wmOf at this
        rw [← this]; rfl
      · rw [List.take_add_one, he]
        intro x hx
        simp only [List.mem_append, Option.toList_some, List.mem_singleton] at hx
        rcases hx with hx | rfl
        · exact (I.rpos j).2.2 x hx
        · exact hu
    · exact ⟨(s.sess j).pos, (s.sess j).wm, by simp [sess_set, h], by omega, fun _ => rfl, I.rpos j⟩
  constructor <;> (try dsimp only [set_n, set_log, set_effects])
  · exact I.eff
  · exact I.wmlog
  · intro j hj; obtain ⟨p, w, e, _, h2, _⟩ := key j; rw [e, ← h2 hj]; exact I.fresh j hj
  · intro j hj; obtain ⟨p, w, e, _⟩ := key j; rw [e]; exact I.last j hj
  · intro j; obtain ⟨p, w, e, _⟩ := key j; rw [e]; exact I.cnt j
  · intro j; obtain ⟨p, w, e, h1, _⟩ := key j; rw [e]; dsimp only
    intro hst
    have := I.seen j hst
    refine ⟨this.1, fun hm => this.2 ?_⟩
    have hp : p = (s.sess j).pos + (p - (s.sess j).pos) := by omega
    rw [hp, ← List.drop_drop] at hm
    exact List.mem_of_mem_drop hm
  · intro j; obtain ⟨p, w, e, _⟩ := key j; rw [e]; exact I.und j
  · intro j; obtain ⟨p, w, e, _⟩ := key j; rw [e]; exact I.prepd j
  · intro j; obtain ⟨p, w, e, _⟩ := key j; rw [e]; exact I.act j
  · intro j; obtain ⟨p, w, e, _⟩ := key j; rw [e]; exact I.nxt j
  · intro j k; obtain ⟨p, w, e, _⟩ := key j; obtain ⟨p', w', e', _⟩ := key k; rw [e, e']; exact I.excl j k
  · intro j h1 h2 h3 k hk
    obtain ⟨p, w, e, _⟩ := key j; obtain ⟨p', w', e', _⟩ := key k
    rw [e] at h2 h3; rw [e']; exact I.startd j h1 h2 h3 k hk
  · intro j h1 h2 h3 k hk
    obtain ⟨p, w, e, _⟩ := key j; obtain ⟨p', w', e', _⟩ := key k
    rw [e] at h2 h3; rw [e']; exact I.markd j h1 h2 h3 k hk
  · intro j h1 h2 h3 h4
    obtain ⟨p, w, e, _⟩ := key j
    rw [e] at h2 h3 h4; exact I.rd j h1 h2 h3 h4
  · intro j; obtain ⟨p, w, e, _, _, h3⟩ := key j; rw [e]; exact h3

/-- Nothing is pending elsewhere, and the watermark is that of the log, when the newest session reads its marker. -/
theorem Inv.at_mark {s : St} (I : Inv s) {i : Nat} (hi : i < s.n) (hr : (s.sess i).revoked = false) (he : s.log[(s.sess i).pos]? = some (.mark i))
    (hst : (s.sess i).start = none) : (s.sess i).wm = s.effects.length ∧ ∀ j, (s.sess j).pend = [] := by
  have hmk : (s.sess i).marked = true := by
    have := I.cnt i
    have hin : Entry.mark i ∈ s.log := List.mem_of_getElem? he
    have := List.count_pos_iff.mpr hin
    by_contra hn
    rw [if_neg hn] at *; omega
  obtain ⟨pre, post, e1, e2⟩ := I.rd i hi hr hmk hst
  have hc := I.cnt i
  rw [hmk, if_pos rfl, e1, List.count_append, List.count_cons_self] at hc
  have hpre : Entry.mark i ∉ pre := fun h => by have := List.count_pos_iff.mpr h; omega
  have hpost : Entry.mark i ∉ post := fun h => by have := List.count_pos_iff.mpr h; omega
  have hpos : (s.sess i).pos = pre.length := by
    rcases Nat.lt_trichotomy (s.sess i).pos pre.length with h | h | h
    · rw [e1, List.getElem?_append_left h] at he
      exact absurd (List.mem_of_getElem? he) hpre
    · exact h
    · rw [e1, List.getElem?_append_right (by omega)] at he
      obtain ⟨k, hk⟩ : ∃ k, (s.sess i).pos - pre.length = k + 1 := ⟨(s.sess i).pos - pre.length - 1, by omega⟩
      rw [hk, List.getElem?_cons_succ] at he
      exact absurd (List.mem_of_getElem? he) hpost
  obtain ⟨r1, r2, r3⟩ := I.rpos i
  have htake : s.log.take (s.sess i).pos = pre := by rw [hpos, e1]; simp
  rw [htake] at r1 r3
  constructor
  · rw [r1, ← I.wmlog, e1, wmOf_append_of_not]
    intro e he j o hx
    rcases List.mem_cons.mp he with rfl | he
    · cases hx
    · have := e2 e he; rw [hx] at this; cases this
  · intro j
    by_cases hj : j = i
    · subst hj
      by_contra hp
      have := (I.act j hp).1; rw [hst] at this; cases this
    · rcases I.markd i hi hr hmk j hj with h | ⟨hp, _⟩
      · exact h
      · exfalso
        obtain ⟨t, rest, pre', post', _, e4, _, _⟩ := I.prepd j hp
        have hin : Entry.cmt j (s.effects.length + t.length) .undecided ∈ s.log := by rw [e4]; simp
        rw [e1] at hin
        rcases List.mem_append.mp hin with h | h
        · have := r3 _ h; cases this
        · rcases List.mem_cons.mp h with h | h
          · cases h
          · have := e2 _ h; cases this

theorem inv_readMark {s : St} {i : Nat} (I : Inv s) (hi : i < s.n) (he : s.log[(s.sess i).pos]? = some (.mark i)) :
    Inv (s.set i { s.sess i with pos := (s.sess i).pos + 1, start := some (s.sess i).wm, next := (s.sess i).wm }) := by
  have hlt : (s.sess i).pos < s.log.length := by
    by_contra hn; rw [List.getElem?_eq_none (by omega)] at he; cases he
  have hst : (s.sess i).start = none := by
    cases hx : (s.sess i).start with
    | none => rfl
    | some x =>
      exfalso
      apply (I.seen i (by rw [hx]; rfl)).2
      rw [List.mem_iff_getElem?]
      exact ⟨0, by simpa using he⟩
  have hmk : (s.sess i).marked = true := by
    have := I.cnt i
    have hin : Entry.mark i ∈ s.log := List.mem_of_getElem? he
    have := List.count_pos_iff.mpr hin
    by_contra hn
    rw [if_neg hn] at *; omega
  have hpi : (s.sess i).pend = [] := by
    by_contra hp
    have := (I.act i hp).1; rw [hst] at this; cases this
  have ham := fun hr => I.at_mark hi hr he hst
  constructor <;> (try dsimp only [set_n, set_log, set_effects])
  · exact I.eff
  · exact I.wmlog
  · intro j hj; rw [sess_set, if_neg (by omega)]; exact I.fresh j hj
  · intro j hj; rw [sess_set]; split
    · rename_i e; subst e; exact I.last j hj
    · exact I.last j hj
  · intro j; rw [sess_set]; split
    · rename_i e; subst e; have := I.cnt j; rw [hmk] at this; exact this
    · exact I.cnt j
  · intro j; rw [sess_set]; split
    · rename_i e; subst e; dsimp only; intro _
      refine ⟨hmk, fun hm => ?_⟩
      have hc := I.cnt j
      rw [hmk, if_pos rfl, ← List.take_append_drop ((s.sess j).pos + 1) s.log, List.count_append, List.take_add_one, he, List.count_append] at hc
      have := List.count_pos_iff.mpr hm
      simp at hc
      omega
    · exact I.seen j
  · intro j o hm; rw [sess_set]; split
    · rename_i e; subst e; exact I.und j o hm
    · exact I.und j o hm
  · intro j; rw [sess_set]; split
    · rename_i e; subst e; exact I.prepd j
    · exact I.prepd j
  · intro j; rw [sess_set]; split
    · rename_i e; subst e; intro hp; exact absurd hpi hp
    · exact I.act j
  · intro j; rw [sess_set]; split
    · rename_i e; subst e; dsimp only
      intro hf hc
      rcases hc with hc | ⟨h1, h2, h3⟩
      · exact absurd hpi hc
      · rw [(ham h2).1, hpi]; rfl
    · exact I.nxt j
  · intro j k; rw [sess_set, sess_set]
    split <;> split <;> (rename_i a b; first | subst a | skip) <;> (first | subst b | skip) <;> exact I.excl _ _
  · intro j h1 h2 h3 k hk
    rw [sess_set] at h2 h3 ⊢
    have hk' : (if k = i then { s.sess i with pos := (s.sess i).pos + 1, start := some (s.sess i).wm, next := (s.sess i).wm } else s.sess k).pend = (s.sess k).pend := by
      split
      · rename_i e; subst e; rfl
      · rfl
    rw [hk']
    by_cases e : j = i
    · subst e; rw [if_pos rfl] at h2; exact (ham h2).2 k
    · rw [if_neg e] at h2 h3; exact I.startd j h1 h2 h3 k hk
  · intro j h1 h2 h3 k hk
    rw [sess_set] at h2 h3 ⊢
    have hk1 : (if k = i then { s.sess i with pos := (s.sess i).pos + 1, start := some (s.sess i).wm, next := (s.sess i).wm } else s.sess k).pend = (s.sess k).pend := by
      split
      · rename_i e; subst e; rfl
      · rfl
    have hk2 : (if k = i then { s.sess i with pos := (s.sess i).pos + 1, start := some (s.sess i).wm, next := (s.sess i).wm } else s.sess k).prep = (s.sess k).prep := by
      split
      · rename_i e; subst e; rfl
      · rfl
    rw [hk1, hk2]
    by_cases e : j = i
    · subst e; rw [if_pos rfl] at h2; exact Or.inl ((ham h2).2 k)
    · rw [if_neg e] at h2 h3; exact I.markd j h1 h2 h3 k hk
  · intro j h1 h2 h3 h4
    rw [sess_set] at h2 h3 h4
    by_cases e : j = i
    · subst e; rw [if_pos rfl] at h4; cases h4
    · rw [if_neg e] at h2 h3 h4; exact I.rd j h1 h2 h3 h4
  · intro j; rw [sess_set]; split
    · rename_i e; subst e; dsimp only
      obtain ⟨r1, r2, r3⟩ := I.rpos j
      rw [List.take_add_one, he]
      refine ⟨?_, by omega, ?_⟩
      · rw [wmOf_append_of_not]
        · exact r1
        · intro e he; simp at he; subst he; intros; simp
      · intro x hx
        simp only [List.mem_append, Option.toList_some, List.mem_singleton] at hx
        rcases hx with hx | rfl
        · exact r3 x hx
        · rfl
    · exact I.rpos j

theorem inv_read {s s' : St} {i : Nat} (I : Inv s) (h : step s (.read i) = some s') : Inv s' := by
  simp only [step] at h
  split at h
  · rename_i hi
    split at h
    · simp at h
    · rename_i o he
      simp only [Option.some.injEq] at h; subst h
      exact inv_readOther I hi he rfl (by simp)
    · rename_i o he
      simp only [Option.some.injEq] at h; subst h
      exact inv_readOther I hi he rfl (by simp)
    · rename_i j he
      split at h
      · rename_i e; subst e
        simp only [Option.some.injEq] at h; subst h
        exact inv_readMark I hi he
      · rename_i e
        simp only [Option.some.injEq] at h; subst h
        exact inv_readOther I hi he rfl (by simpa using e)
    · simp at h
  · simp at h

theorem inv_handle {s s' : St} {i : Nat} {new : Bool} (I : Inv s) (h : step s (.handle i new) = some s') : Inv s' := by
  simp only [step] at h
  split at h
  · rename_i hi
    obtain ⟨hi, hst, hr, hf⟩ := hi
    simp only [Option.map_eq_some_iff] at h
    obtain ⟨p, hp, rfl⟩ := h
    obtain ⟨a1, a2, a3, a4⟩ := addEvent_spec hp
    have hother : ∀ j, j ≠ i → (s.sess j).pend = [] := I.startd i hi hr hst
    have hnext := I.nxt i hf (Or.inr ⟨hi, hr, hst⟩)
    have hold : (s.sess i).pend.flatten = List.range' s.effects.length (s.sess i).pend.flatten.length := by
      by_cases hx : (s.sess i).pend = []
      · rw [hx]; rfl
      · exact (I.act i hx).2.1
    have hflat : p.flatten = List.range' s.effects.length p.flatten.length := by
      rw [a1, List.length_append, hnext]
      conv => lhs; rw [hold]
      rw [List.length_singleton, List.range'_concat]; simp
    constructor <;> (try dsimp only [set_n, set_log, set_effects])
    · exact I.eff
    · exact I.wmlog
    · intro j hj; rw [sess_set, if_neg (by omega)]; exact I.fresh j hj
    · intro j hj; rw [sess_set]; split
      · rename_i e; subst e; exact I.last j hj
      · exact I.last j hj
    · intro j; rw [sess_set]; split
      · rename_i e; subst e; exact I.cnt j
      · exact I.cnt j
    · intro j; rw [sess_set]; split
      · rename_i e; subst e; exact I.seen j
      · exact I.seen j
    · intro j o hm; rw [sess_set]; split
      · rename_i e; subst e; exact I.und j o hm
      · exact I.und j o hm
    · intro j; rw [sess_set]; split
      · rename_i e; subst e; dsimp only
        intro hpr
        obtain ⟨t, rest, pre, post, e1, e2⟩ := I.prepd j hpr
        obtain ⟨rest', e3⟩ := a4 hpr t rest e1
        exact ⟨t, rest', pre, post, e3, e2⟩
      · exact I.prepd j
    · intro j; rw [sess_set]; split
      · rename_i e; subst e; dsimp only
        intro _
        refine ⟨hst, hflat, ?_⟩
        apply a3
        by_cases hx : (s.sess j).pend = []
        · rw [hx]; simp
        · exact (I.act j hx).2.2
      · exact I.act j
    · intro j; rw [sess_set]; split
      · rename_i e; subst e; dsimp only
        intro _ _
        rw [a1, List.length_append, hnext]; simp; omega
      · exact I.nxt j
    · intro j k hj hk
      rw [sess_set] at hj hk
      by_cases ej : j = i
      · by_cases ek : k = i
        · omega
        · rw [if_neg ek] at hk; exact absurd (hother k ek) hk
      · rw [if_neg ej] at hj; exact absurd (hother j ej) hj
    · intro j h1 h2 h3 k hk
      rw [sess_set] at h2 h3 ⊢
      have hji : j = i := by
        by_contra ej
        rw [if_neg ej] at h2; exact ej (I.newest h1 hi h2 hr)
      rw [if_neg (by omega)]; exact hother k (by omega)
    · intro j h1 h2 h3 k hk
      rw [sess_set] at h2 h3 ⊢
      have hji : j = i := by
        by_contra ej
        rw [if_neg ej] at h2; exact ej (I.newest h1 hi h2 hr)
      rw [if_neg (by omega)]; exact Or.inl (hother k (by omega))
    · intro j h1 h2 h3 h4
      rw [sess_set] at h2 h3 h4
      have hji : j = i := by
        by_contra ej
        rw [if_neg ej] at h2; exact ej (I.newest h1 hi h2 hr)
      subst hji
      rw [if_pos rfl] at h4; rw [h4] at hst; cases hst
    · intro j; rw [sess_set]; split
      · rename_i e; subst e; exact I.rpos j
      · exact I.rpos j
  · simp at h

theorem inv_prepare {s s' : St} {i : Nat} (I : Inv s) (h : step s (.prepare i) = some s') : Inv s' := by
  simp only [step] at h
  split at h
  · rename_i hi
    obtain ⟨hpr, hf⟩ := hi
    split at h
    · simp at h
    · rename_i t rest hp
      simp only [Option.some.injEq] at h; subst h
      have hne : (s.sess i).pend ≠ [] := by rw [hp]; simp
      have hin := I.lt_of_pend hne
      obtain ⟨hst, hfl, hn0⟩ := I.act i hne
      have ht : t = List.range' s.effects.length t.length := by
        rw [hp, List.flatten_cons] at hfl
        exact (split_range hfl).1
      have hoff : t.getLastD 0 + 1 = s.effects.length + t.length := last_range ht (hn0 t (by rw [hp]; simp))
      rw [hoff]
      -- nobody else has anything pending
      have hother : ∀ j, j ≠ i → (s.sess j).pend = [] := by
        intro j hj; by_contra hx; exact hj (I.excl j i hx hne)
      have hnoprep : ∀ j, (s.sess j).prep = false := by
        intro j
        by_cases e : j = i
        · subst e; exact hpr
        · cases hx : (s.sess j).prep with
          | false => rfl
          | true => obtain ⟨_, _, _, _, e1, _⟩ := I.prepd j hx; rw [hother j e] at e1; cases e1
      have hdec : ∀ e ∈ s.log, e.und = false := by
        intro e he
        cases hx : e.und with
        | false => rfl
        | true =>
          obtain ⟨j, o, rfl⟩ := und_iff.mp hx
          have := I.und j o he; rw [hnoprep j] at this; cases this
      have hnomark : ∀ j, j < s.n → (s.sess j).revoked = false → (s.sess j).marked = true → j = i := by
        intro j h1 h2 h3
        by_contra e
        rcases I.markd j h1 h2 h3 i (fun h => e h.symm) with h | ⟨h, _⟩
        · exact hne h
        · rw [hpr] at h; cases h
      have hsess : ∀ j, (s.set i { s.sess i with prep := true }).sess j = { s.sess j with prep := if j = i then true else (s.sess j).prep } := by
        intro j; rw [sess_set]; split
        · rename_i e; subst e; rfl
        · rfl
      constructor <;> (try dsimp only [set_n, set_log, set_effects])
      · exact I.eff
      · rw [wmOf_append_of_not]
        · exact I.wmlog
        · intro e he; simp only [List.mem_singleton] at he; subst he; intros; simp
      · intro j hj; rw [hsess, if_neg (by omega)]; exact I.fresh j hj
      · intro j hj; rw [hsess]; exact I.last j hj
      · intro j; rw [hsess]; dsimp only
        rw [List.count_append]
        have := I.cnt j
        simpa using this
      · intro j; rw [hsess]; dsimp only
        intro hs
        have := I.seen j hs
        refine ⟨this.1, fun hm => ?_⟩
        rcases drop_append_mem (I.rpos j).2.1 hm with h' | h'
        · exact this.2 h'
        · cases h'
      · intro j o hm; rw [hsess]; dsimp only
        rcases List.mem_append.mp hm with hm | hm
        · have := hdec _ hm; cases this
        · simp only [List.mem_singleton, Entry.cmt.injEq] at hm; rw [if_pos hm.1]
      · intro j; rw [hsess]; dsimp only
        intro hx
        by_cases e : j = i
        · subst e; exact ⟨t, rest, s.log, [], hp, rfl, hdec, by simp⟩
        · rw [if_neg e, hnoprep j] at hx; cases hx
      · intro j; rw [hsess]; exact I.act j
      · intro j; rw [hsess]; exact I.nxt j
      · intro j k; rw [hsess, hsess]; exact I.excl j k
      · intro j h1 h2 h3 k hk; rw [hsess] at h2 h3 ⊢; exact I.startd j h1 h2 h3 k hk
      · intro j h1 h2 h3 k hk
        rw [hsess] at h2 h3 ⊢; dsimp only at *
        have := hnomark j h1 h2 h3
        exact Or.inl (hother k (by omega))
      · intro j h1 h2 h3 h4
        rw [hsess] at h2 h3 h4; dsimp only at *
        have := hnomark j h1 h2 h3
        subst this; rw [h4] at hst; cases hst
      · intro j; rw [hsess]; dsimp only
        obtain ⟨r1, r2, r3⟩ := I.rpos j
        rw [List.take_append_of_le_length r2]
        exact ⟨r1, by simp; omega, r3⟩
  · simp at h

/-- What the readers have is not changed when a transaction is decided. -/
theorem Inv.settle_frame {s : St} (I : Inv s) {i : Nat} (st : Status) (hst : st ≠ .undecided) (hp : (s.sess i).prep = true) :
    (∀ e ∈ s.log.map (settle i st), e.und = false) ∧
    (∀ j, wmOf ((s.log.map (settle i st)).take (s.sess j).pos) = (s.sess j).wm ∧ (s.sess j).pos ≤ (s.log.map (settle i st)).length) := by
  obtain ⟨t, rest, pre, post, e1, e2, e3, e4⟩ := I.prepd i hp
  have hpost : ∀ e ∈ post, e.und = false := by
    intro e he
    have := e4 e he
    cases e with
    | mark k => rfl
    | cmt k o s => cases this
  have hmap : s.log.map (settle i st) = pre ++ .cmt i (s.effects.length + t.length) st :: post := by
    rw [e2, List.map_append, List.map_cons, map_settle e3, map_settle hpost]
    simp [settle]
  constructor
  · rw [hmap]
    intro e he
    rcases List.mem_append.mp he with h | h
    · exact e3 e h
    · rcases List.mem_cons.mp h with rfl | h
      · cases st <;> first | rfl | exact absurd rfl hst
      · exact hpost e h
  · intro j
    obtain ⟨r1, r2, r3⟩ := I.rpos j
    have hle : (s.sess j).pos ≤ pre.length := by
      by_contra hn
      have : Entry.cmt i (s.effects.length + t.length) .undecided ∈ s.log.take (s.sess j).pos := by
        rw [List.mem_take_iff_getElem]
        refine ⟨pre.length, ?_, ?_⟩
        · rw [e2]; simp; omega
        · simp [e2]
      have := r3 _ this; cases this
    refine ⟨?_, by simpa using r2⟩
    rw [hmap, List.take_append_of_le_length hle, r1, e2, List.take_append_of_le_length hle]

theorem inv_decide {s : St} {i : Nat} (I : Inv s) (hp : (s.sess i).prep = true) (st : Status) (hst : st ≠ .undecided) (eff : List Nat) (v : Sess)
    (hv1 : v.marked = (s.sess i).marked) (hv2 : v.pos = (s.sess i).pos) (hv3 : v.wm = (s.sess i).wm) (hv4 : v.start = (s.sess i).start)
    (hv5 : v.prep = false) (hv6 : v.revoked = (s.sess i).revoked)
    (heff : eff = List.range eff.length) (hwm : wmOf (s.log.map (settle i st)) = eff.length)
    (hact : v.pend ≠ [] → v.pend.flatten = List.range' eff.length v.pend.flatten.length ∧ ∀ t ∈ v.pend, t ≠ [])
    (hnxt : v.failed = false → v.next = eff.length + v.pend.flatten.length)
    (hmarkd : (∃ t, (s.sess i).pend = [t]) → v.pend = []) :
    Inv { s.set i v with log := s.log.map (settle i st), effects := eff } := by
  obtain ⟨t, rest, pre, post, e1, e2, e3, e4⟩ := I.prepd i hp
  have hne : (s.sess i).pend ≠ [] := by rw [e1]; simp
  have hin := I.lt_of_pend hne
  have hsti := (I.act i hne).1
  have hother : ∀ j, j ≠ i → (s.sess j).pend = [] := by
    intro j hj; by_contra hx; exact hj (I.excl j i hx hne)
  obtain ⟨f1, f2⟩ := I.settle_frame st hst hp
  have hnoprep : ∀ j, j ≠ i → (s.sess j).prep = false := by
    intro j e
    cases hx : (s.sess j).prep with
    | false => rfl
    | true => obtain ⟨_, _, _, _, e1, _⟩ := I.prepd j hx; rw [hother j e] at e1; cases e1
  have hstarted : ∀ j, j < s.n → (s.sess j).revoked = false → (s.sess j).start.isSome → j = i := by
    intro j h1 h2 h3
    by_contra e
    exact hne (I.startd j h1 h2 h3 i (fun h => e h.symm))
  constructor <;> (try dsimp only [set_n, set_log, set_effects])
  · exact heff
  · exact hwm
  · intro j hj; rw [sess_set, if_neg (by omega)]; exact I.fresh j hj
  · intro j hj; rw [sess_set]; split
    · rename_i e; subst e; rw [hv6]; exact I.last j hj
    · exact I.last j hj
  · intro j; rw [sess_set, count_map_settle]; split
    · rename_i e; subst e; rw [hv1]; exact I.cnt j
    · exact I.cnt j
  · intro j; rw [sess_set]
    have : (s.sess j).start.isSome → (s.sess j).marked = true ∧ Entry.mark j ∉ (s.log.map (settle i st)).drop (s.sess j).pos := by
      intro h
      refine ⟨(I.seen j h).1, fun hm => (I.seen j h).2 ?_⟩
      rw [← List.map_drop, List.mem_map] at hm
      obtain ⟨e, he, h'⟩ := hm
      rw [settle_mark_iff] at h'; rw [← h']; exact he
    split
    · rename_i e; subst e; rw [hv1, hv2, hv4]; exact this
    · exact this
  · intro j o hm; have := f1 _ hm; cases this
  · intro j; rw [sess_set]; split
    · rw [hv5]; intro h; cases h
    · rename_i e; rw [hnoprep j e]; intro h; cases h
  · intro j; rw [sess_set]; split
    · rename_i e; subst e; intro h
      rw [hv4]; exact ⟨hsti, hact h⟩
    · rename_i e; intro h; exact absurd (hother j e) h
  · intro j; rw [sess_set]; split
    · rename_i e; subst e; intro h _; exact hnxt h
    · rename_i e; intro h hc
      rcases hc with hc | ⟨h1, h2, h3⟩
      · exact absurd (hother j e) hc
      · exact absurd (hstarted j h1 h2 h3) e
  · intro j k hj hk
    rw [sess_set] at hj hk
    by_cases ej : j = i
    · by_cases ek : k = i
      · omega
      · rw [if_neg ek] at hk; exact absurd (hother k ek) hk
    · rw [if_neg ej] at hj; exact absurd (hother j ej) hj
  · intro j h1 h2 h3 k hk
    rw [sess_set] at h2 h3 ⊢
    have hji : j = i := by
      by_contra ej
      rw [if_neg ej] at h2 h3; exact ej (hstarted j h1 h2 h3)
    rw [if_neg (by omega)]; exact hother k (by omega)
  · intro j h1 h2 h3 k hk
    rw [sess_set] at h2 h3 ⊢
    by_cases ek : k = i
    · subst ek
      rw [if_pos rfl]
      have ej : j ≠ k := fun h => hk h.symm
      rw [if_neg ej] at h2 h3
      rcases I.markd j h1 h2 h3 k hk with h | ⟨_, h⟩
      · exact absurd h hne
      · exact Or.inl (hmarkd h)
    · rw [if_neg ek]; exact Or.inl (hother k ek)
  · intro j h1 h2 h3 h4
    rw [sess_set] at h2 h3 h4
    have ej : j ≠ i := by
      intro e; subst e; rw [if_pos rfl, hv4] at h4; rw [h4] at hsti; cases hsti
    rw [if_neg ej] at h2 h3 h4
    obtain ⟨p, q, d1, d2⟩ := I.rd j h1 h2 h3 h4
    refine ⟨p.map (settle i st), q.map (settle i st), ?_, ?_⟩
    · rw [d1, List.map_append, List.map_cons]; rfl
    · intro e he
      rw [List.mem_map] at he
      obtain ⟨e', he', rfl⟩ := he
      rw [settle_isCmt]; exact d2 e' he'
  · intro j; rw [sess_set]
    have h1 := f2 j
    have h2 : ∀ e ∈ (s.log.map (settle i st)).take (s.sess j).pos, e.und = false := fun e he => f1 e (List.mem_of_mem_take he)
    split
    · rename_i e; subst e; rw [hv2, hv3]; exact ⟨h1.1.symm, h1.2, h2⟩
    · exact ⟨h1.1.symm, h1.2, h2⟩

theorem wm_settle {s : St} (I : Inv s) {i : Nat} (hp : (s.sess i).prep = true) {t : List Nat} {rest : List (List Nat)} (hpd : (s.sess i).pend = t :: rest) :
    wmOf (s.log.map (settle i .committed)) = s.effects.length + t.length ∧ wmOf (s.log.map (settle i .aborted)) = s.effects.length := by
  obtain ⟨t', rest', pre, post, e1, e2, e3, e4⟩ := I.prepd i hp
  rw [hpd] at e1
  obtain ⟨rfl, rfl⟩ := List.cons.inj e1
  have hpost : ∀ e ∈ post, e.und = false := by
    intro e he
    have := e4 e he
    cases e with
    | mark k => rfl
    | cmt k o s => cases this
  have hmap : ∀ st, s.log.map (settle i st) = pre ++ .cmt i (s.effects.length + t.length) st :: post := by
    intro st
    rw [e2, List.map_append, List.map_cons, map_settle e3, map_settle hpost]
    simp [settle]
  have hnc : ∀ e ∈ post, ∀ j o, e ≠ .cmt j o .committed := by
    intro e he j o hx; have := e4 e he; rw [hx] at this; cases this
  constructor
  · rw [hmap, wmOf_committed e4]
  · rw [hmap, wmOf_append_of_not]
    · rw [← I.wmlog, e2, wmOf_append_of_not]
      intro e he
      rcases List.mem_cons.mp he with rfl | he
      · intros; simp
      · exact hnc e he
    · intro e he
      rcases List.mem_cons.mp he with rfl | he
      · intros; simp
      · exact hnc e he

theorem inv_commit {s s' : St} {i : Nat} (I : Inv s) (h : step s (.commit i) = some s') : Inv s' := by
  simp only [step] at h
  split at h
  · rename_i hp
    split at h
    · simp at h
    · rename_i t rest hpd
      simp only [Option.some.injEq] at h; subst h
      have hne : (s.sess i).pend ≠ [] := by rw [hpd]; simp
      obtain ⟨hst, hfl, hn0⟩ := I.act i hne
      have hs := hfl
      rw [hpd, List.flatten_cons] at hs
      obtain ⟨ht, hr⟩ := split_range hs
      refine inv_decide I hp .committed (by simp) _ _ rfl rfl rfl rfl rfl rfl ?_ ?_ ?_ ?_ ?_
      · rw [List.length_append]
        conv => lhs; rw [I.eff, ht]
        rw [List.range_eq_range', List.range_eq_range', ← List.range'_append_1]; simp
      · rw [(wm_settle I hp hpd).1, List.length_append]
      · intro _
        refine ⟨by rw [List.length_append]; exact hr, fun u hu => hn0 u (by rw [hpd]; simp [hu])⟩
      · intro hf
        have := I.nxt i hf (Or.inl hne)
        rw [hpd, List.flatten_cons, List.length_append] at this
        rw [List.length_append]; dsimp only; omega
      · rintro ⟨u, hu⟩
        rw [hpd] at hu
        simpa using (List.cons.inj hu).2
  · simp at h

theorem inv_abort {s s' : St} {i : Nat} (I : Inv s) (h : step s (.abort i) = some s') : Inv s' := by
  simp only [step] at h
  split at h
  · rename_i hp
    simp only [Option.some.injEq] at h; subst h
    obtain ⟨t, rest, _, _, hpd, _⟩ := I.prepd i hp
    refine inv_decide I hp .aborted (by simp) s.effects _ rfl rfl rfl rfl rfl rfl I.eff (wm_settle I hp hpd).2 ?_ ?_ ?_
    · intro h; exact absurd rfl h
    · intro h; cases h
    · intro _; rfl
  · simp at h

theorem inv_fail {s s' : St} {i : Nat} (I : Inv s) (hi : i < s.n) (h : step s (.fail i) = some s') : Inv s' := by
  simp only [step, if_pos hi, Option.some.injEq] at h; subst h
  have hsub : ∀ j, ∃ f p, (s.set i { s.sess i with failed := true, pend := if (s.sess i).prep then (s.sess i).pend.take 1 else [] }).sess j =
      { s.sess j with failed := f, pend := p } ∧ (f = false → p = (s.sess j).pend ∧ (s.sess j).failed = false) ∧
      (p = (s.sess j).pend ∨ p = [] ∨ ((s.sess j).prep = true ∧ p = (s.sess j).pend.take 1)) ∧ ((s.sess j).prep = true → p ≠ [] ∨ (s.sess j).pend = []) ∧
      (j ≠ i → p = (s.sess j).pend ∧ f = (s.sess j).failed) := by
    intro j
    by_cases e : j = i
    · subst e
      refine ⟨true, _, by rw [sess_set, if_pos rfl], by simp, ?_, ?_, by simp⟩
      · split
        · rename_i hp; exact Or.inr (Or.inr ⟨hp, rfl⟩)
        · exact Or.inr (Or.inl rfl)
      · intro hp; rw [if_pos hp]
        cases (s.sess j).pend <;> simp
    · exact ⟨(s.sess j).failed, (s.sess j).pend, by rw [sess_set, if_neg e], fun h => ⟨rfl, h⟩, Or.inl rfl, fun _ => by
        cases (s.sess j).pend <;> simp, fun _ => ⟨rfl, rfl⟩⟩
  have hpn : ∀ j, (s.sess j).pend = [] → ((s.set i { s.sess i with failed := true, pend := if (s.sess i).prep then (s.sess i).pend.take 1 else [] }).sess j).pend = [] := by
    intro j hj
    obtain ⟨f, p, e, _, h2, _⟩ := hsub j
    rw [e]
    rcases h2 with h | h | ⟨_, h⟩
    · rw [h]; exact hj
    · exact h
    · rw [h, hj]; rfl
  constructor <;> (try dsimp only [set_n, set_log, set_effects])
  · exact I.eff
  · exact I.wmlog
  · intro j hj; rw [sess_set, if_neg (by omega)]; exact I.fresh j hj
  · intro j hj; obtain ⟨f, p, e, _⟩ := hsub j; rw [e]; exact I.last j hj
  · intro j; obtain ⟨f, p, e, _⟩ := hsub j; rw [e]; exact I.cnt j
  · intro j; obtain ⟨f, p, e, _⟩ := hsub j; rw [e]; exact I.seen j
  · intro j; obtain ⟨f, p, e, _⟩ := hsub j; rw [e]; exact I.und j
  · intro j; obtain ⟨f, p, e, _, h2, h3, _⟩ := hsub j; rw [e]; dsimp only
    intro hp
    obtain ⟨t, rest, pre, post, e1, e2⟩ := I.prepd j hp
    rcases h2 with h | h | ⟨_, h⟩
    · exact ⟨t, rest, pre, post, by rw [h]; exact e1, e2⟩
    · rcases h3 hp with h' | h'
      · exact absurd h h'
      · rw [e1] at h'; cases h'
    · exact ⟨t, [], pre, post, by rw [h, e1]; rfl, e2⟩
  · intro j; obtain ⟨f, p, e, _, h2, _⟩ := hsub j; rw [e]; dsimp only
    intro hne
    rcases h2 with h | h | ⟨hp, h⟩
    · rw [h] at hne ⊢; exact I.act j hne
    · exact absurd h hne
    · have : (s.sess j).pend ≠ [] := by intro hx; rw [hx] at h; exact hne h
      obtain ⟨a1, a2, a3⟩ := I.act j this
      refine ⟨a1, ?_, fun u hu => a3 u (by rw [h] at hu; exact List.mem_of_mem_take hu)⟩
      match hpd : (s.sess j).pend with
      | [] => exact absurd hpd this
      | t :: rest =>
        rw [hpd, List.flatten_cons] at a2
        rw [h, hpd]
        simpa using (split_range a2).1
  · intro j; obtain ⟨f, p, e, h1, _⟩ := hsub j; rw [e]; dsimp only
    intro hf hc
    obtain ⟨x, y⟩ := h1 hf
    rw [x] at hc ⊢
    exact I.nxt j y hc
  · intro j k hj hk
    exact I.excl j k (fun h => hj (hpn j h)) (fun h => hk (hpn k h))
  · intro j h1 h2 h3 k hk
    obtain ⟨f, p, e, _⟩ := hsub j
    rw [e] at h2 h3
    exact hpn k (I.startd j h1 h2 h3 k hk)
  · intro j h1 h2 h3 k hk
    obtain ⟨f, p, e, _⟩ := hsub j
    rw [e] at h2 h3
    rcases I.markd j h1 h2 h3 k hk with h | ⟨hp, t, ht⟩
    · exact Or.inl (hpn k h)
    · obtain ⟨f', p', e', _, g2, _⟩ := hsub k
      rw [e']; dsimp only
      rcases g2 with g | g | ⟨_, g⟩
      · exact Or.inr ⟨hp, t, by rw [g]; exact ht⟩
      · exact Or.inl g
      · exact Or.inr ⟨hp, t, by rw [g, ht]; rfl⟩
  · intro j h1 h2 h3 h4
    obtain ⟨f, p, e, _⟩ := hsub j
    rw [e] at h2 h3 h4
    exact I.rd j h1 h2 h3 h4
  · intro j; obtain ⟨f, p, e, _⟩ := hsub j; rw [e]; exact I.rpos j

theorem inv_step {s s' : St} {l : Label} (I : Inv s) (hc : ∀ i, l = .mark i → Clean s i) (h : step s l = some s') : Inv s' := by
  cases l with
  | assign => exact inv_assign I h
  | mark i => exact inv_mark I (hc i rfl) h
  | read i => exact inv_read I h
  | revoke i => exact inv_revoke I h
  | handle i new => exact inv_handle I h
  | prepare i => exact inv_prepare I h
  | commit i => exact inv_commit I h
  | abort i => exact inv_abort I h
  | fail i => exact inv_fail I (by simp only [step] at h; split at h <;> first | assumption | simp at h) h

end Verif.Handover

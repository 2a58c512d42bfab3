import Verif.Simple.Model
import Mathlib.Data.List.Nodup
/-
The invariant of the simple producer.
-/
namespace Verif.Simple

/-- What a goroutine (`some t`) or the callback that is running (`none`) does. -/
def Sys.phase (s : Sys) : Option Nat → Phase
  | some t => s.ph t
  | none => match s.cur with
    | some c => c.inner
    | none => .idle

/-- Function update. -/
def updA (f : Option Nat → Phase) (a : Option Nat) (v : Phase) : Option Nat → Phase := fun b => if b = a then v else f b

/-- Call `i` is one of `Produce`. -/
def isSync (calls : List Call) (i : Nat) : Bool := (calls[i]?.map Call.sync).getD false

/-- What the callback of call `i` sees, if it has one. -/
def cbOf (d : Bytes) (calls : List Call) (x : Nat × Option Nat) : Option (Nat × Bytes × Option Nat) :=
  match calls[x.1]? with
  | some c => if c.sync = false ∧ c.hasCb then some (x.1, topicOf d c, x.2) else none
  | none => none

structure InvF (d : Bytes) (calls : List Call) (ph : Option Nat → Phase) (buf : List Nat) (cur : Option (Nat × Option Nat)) (done : List (Nat × Option Nat)) (sent : List (Nat × Bytes))
    (ends ret : List (Nat × Option Nat)) (cbs : List (Nat × Bytes × Option Nat)) : Prop where
  pr : ∀ a i, ph a = .producing i → i < calls.length ∧ i ∉ sent.map Prod.fst
  prU : ∀ a b i, ph a = .producing i → ph b = .producing i → a = b
  all : ∀ i, i < calls.length → i ∈ sent.map Prod.fst ∨ ∃ a, ph a = .producing i
  sentN : (sent.map Prod.fst).Nodup
  sentT : ∀ x ∈ sent, ∃ c, calls[x.1]? = some c ∧ x.2 = topicOf d c
  bufN : buf.Nodup
  bufS : ∀ i ∈ buf, i ∈ sent.map Prod.fst
  endsN : (ends.map Prod.fst).Nodup
  endsS : ∀ i ∈ ends.map Prod.fst, i ∈ sent.map Prod.fst
  opn : ∀ i ∈ sent.map Prod.fst, i ∈ ends.map Prod.fst ∨ i ∈ buf
  bufE : ∀ i ∈ buf, i ∈ ends.map Prod.fst → ∃ e, cur = some (i, e)
  curB : ∀ x, cur = some x → x.1 ∈ buf ∧ x ∈ ends
  doneE : done = ends.filter fun x => isSync calls x.1
  cbsE : cbs = ends.filterMap (cbOf d calls)
  wt : ∀ a i, ph a = .waiting i → i ∈ sent.map Prod.fst ∧ isSync calls i = true ∧ i ∉ ret.map Prod.fst
  wtU : ∀ a b i, ph a = .waiting i → ph b = .waiting i → a = b
  retN : (ret.map Prod.fst).Nodup
  retD : ∀ x ∈ ret, x ∈ done
  retA : ∀ i ∈ sent.map Prod.fst, isSync calls i = true → i ∈ ret.map Prod.fst ∨ ∃ a, ph a = .waiting i

/-- The invariant. -/
def Inv (cfg : Cfg) (s : Sys) : Prop :=
  InvF cfg.default s.calls s.phase s.buf (s.cur.map fun c => (c.id, c.err)) s.done s.sent s.ends s.ret s.cbs

theorem inv_init (cfg : Cfg) : Inv cfg Sys.init := by
  have hp : Sys.init.phase = fun _ => .idle := by funext a; cases a <;> rfl
  unfold Inv
  rw [hp]
  constructor <;> simp [Sys.init]

theorem getElem?_old {calls : List Call} {c : Call} {i : Nat} (h : i < calls.length) : (calls ++ [c])[i]? = calls[i]? := List.getElem?_append_left h

variable {d : Bytes} {calls : List Call} {ph : Option Nat → Phase} {buf : List Nat} {cur : Option (Nat × Option Nat)} {done : List (Nat × Option Nat)} {sent : List (Nat × Bytes)}
  {ends ret : List (Nat × Option Nat)} {cbs : List (Nat × Bytes × Option Nat)}

theorem InvF.lt (I : InvF d calls ph buf cur done sent ends ret cbs) {i : Nat} (h : i ∈ sent.map Prod.fst) : i < calls.length := by
  obtain ⟨x, hx, rfl⟩ := List.mem_map.1 h
  obtain ⟨c, hc, _⟩ := I.sentT x hx
  exact (List.getElem?_eq_some_iff.1 hc).1

theorem updA_self (f : Option Nat → Phase) (a : Option Nat) (v : Phase) : updA f a v a = v := by simp [updA]
theorem updA_ne (f : Option Nat → Phase) {a b : Option Nat} (v : Phase) (h : b ≠ a) : updA f a v b = f b := by simp [updA, h]

theorem invF_call (I : InvF d calls ph buf cur done sent ends ret cbs) {a : Option Nat} (ha : ph a = .idle) (c : Call) :
    InvF d (calls ++ [c]) (updA ph a (.producing calls.length)) buf cur done sent ends ret cbs := by
  have hold : ∀ i, i ∈ sent.map Prod.fst → (calls ++ [c])[i]? = calls[i]? := fun i hi => getElem?_old (I.lt hi)
  have hsy : ∀ i, i ∈ sent.map Prod.fst → isSync (calls ++ [c]) i = isSync calls i := fun i hi => by unfold isSync; rw [hold i hi]
  have hnot : calls.length ∉ sent.map Prod.fst := fun hi => absurd (I.lt hi) (Nat.lt_irrefl _)
  have old : ∀ b i, updA ph a (.producing calls.length) b = .producing i → (b = a ∧ i = calls.length) ∨ (b ≠ a ∧ ph b = .producing i) := by
    intro b i hb
    by_cases hba : b = a
    · subst hba; rw [updA_self] at hb; injection hb with hb; exact .inl ⟨rfl, hb.symm⟩
    · rw [updA_ne _ _ hba] at hb; exact .inr ⟨hba, hb⟩
  have oldw : ∀ b i, updA ph a (.producing calls.length) b = .waiting i → ph b = .waiting i := by
    intro b i hb
    by_cases hba : b = a
    · subst hba; rw [updA_self] at hb; cases hb
    · rwa [updA_ne _ _ hba] at hb
  refine ⟨fun b i hb => ?_, fun b b' i hb hb' => ?_, fun i hi => ?_, I.sentN, fun x hx => ?_, I.bufN, I.bufS, I.endsN, I.endsS, I.opn, I.bufE, I.curB, ?_, ?_, fun b i hb => ?_, fun b b' i hb hb' => I.wtU b b' i (oldw b i hb) (oldw b' i hb'), I.retN, I.retD, fun i hi hs => ?_⟩
  · rcases old b i hb with ⟨_, rfl⟩ | ⟨_, hb⟩
    · exact ⟨by simp, hnot⟩
    · have := I.pr b i hb
      exact ⟨by simp; omega, this.2⟩
  · rcases old b i hb with ⟨rfl, e⟩ | ⟨_, h1⟩ <;> rcases old b' i hb' with ⟨rfl, e'⟩ | ⟨_, h2⟩
    · rfl
    · have := (I.pr b' i h2).1; omega
    · have := (I.pr b i h1).1; omega
    · exact I.prU b b' i h1 h2
  · rw [List.length_append, List.length_singleton] at hi
    by_cases hl : i = calls.length
    · exact .inr ⟨a, by rw [updA_self, hl]⟩
    · rcases I.all i (by omega) with h | ⟨b, hb⟩
      · exact .inl h
      · refine .inr ⟨b, ?_⟩
        have : b ≠ a := by rintro rfl; rw [ha] at hb; cases hb
        rw [updA_ne _ _ this]; exact hb
  · obtain ⟨c', h1, h2⟩ := I.sentT x hx
    exact ⟨c', by rw [hold x.1 (List.mem_map_of_mem hx)]; exact h1, h2⟩
  · rw [I.doneE]
    exact List.filter_congr fun x hx => (hsy x.1 (I.endsS _ (List.mem_map_of_mem hx))).symm
  · rw [I.cbsE]
    exact List.filterMap_congr fun x hx => by unfold cbOf; rw [hold x.1 (I.endsS _ (List.mem_map_of_mem hx))]
  · have := I.wt b i (oldw b i hb)
    exact ⟨this.1, by rw [hsy i this.1]; exact this.2.1, this.2.2⟩
  · rw [hsy i hi] at hs
    rcases I.retA i hi hs with h | ⟨b, hb⟩
    · exact .inl h
    · refine .inr ⟨b, ?_⟩
      have : b ≠ a := by rintro rfl; rw [ha] at hb; cases hb
      rw [updA_ne _ _ this]; exact hb

theorem invF_produce (I : InvF d calls ph buf cur done sent ends ret cbs) {a : Option Nat} {i : Nat} {c : Call} (ha : ph a = .producing i) (hc : calls[i]? = some c) :
    InvF d calls (updA ph a (afterProduce c i)) (buf ++ [i]) cur done (sent ++ [(i, topicOf d c)]) ends ret cbs := by
  obtain ⟨h1, h2⟩ := I.pr a i ha
  have hmap : (sent ++ [(i, topicOf d c)]).map Prod.fst = sent.map Prod.fst ++ [i] := by simp
  have hcs : isSync calls i = c.sync := by simp [isSync, hc]
  have oldp : ∀ b j, updA ph a (afterProduce c i) b = .producing j → b ≠ a ∧ ph b = .producing j := by
    intro b j hb
    by_cases hba : b = a
    · subst hba; rw [updA_self] at hb; unfold afterProduce at hb; split at hb <;> cases hb
    · rw [updA_ne _ _ hba] at hb; exact ⟨hba, hb⟩
  have oldw : ∀ b j, updA ph a (afterProduce c i) b = .waiting j → (b = a ∧ j = i ∧ c.sync = true) ∨ (b ≠ a ∧ ph b = .waiting j) := by
    intro b j hb
    by_cases hba : b = a
    · subst hba; rw [updA_self] at hb; unfold afterProduce at hb
      split at hb
      · rename_i hs; injection hb with hb; exact .inl ⟨rfl, hb.symm, hs⟩
      · cases hb
    · rw [updA_ne _ _ hba] at hb; exact .inr ⟨hba, hb⟩
  have hib : i ∉ buf := fun h => h2 (I.bufS i h)
  have hret : i ∉ ret.map Prod.fst := by
    intro h
    obtain ⟨x, hx, rfl⟩ := List.mem_map.1 h
    have := I.retD x hx
    rw [I.doneE] at this
    exact h2 (I.endsS _ (List.mem_map_of_mem (List.mem_filter.1 this).1))
  constructor
  case pr =>
    intro b j hb
    obtain ⟨hba, hb'⟩ := oldp b j hb
    have := I.pr b j hb'
    refine ⟨this.1, ?_⟩
    rw [hmap, List.mem_append, List.mem_singleton]
    rintro (h | rfl)
    · exact this.2 h
    · exact hba (I.prU b a j hb' ha)
  case prU => exact fun b b' j hb hb' => I.prU b b' j (oldp b j hb).2 (oldp b' j hb').2
  case all =>
    intro j hj
    rw [hmap, List.mem_append, List.mem_singleton]
    by_cases hji : j = i
    · exact .inl (.inr hji)
    · rcases I.all j hj with h | ⟨b, hb⟩
      · exact .inl (.inl h)
      · have : b ≠ a := by rintro rfl; rw [ha] at hb; injection hb with hb; exact hji hb.symm
        exact .inr ⟨b, by rw [updA_ne _ _ this]; exact hb⟩
  case sentN =>
    rw [hmap, List.nodup_append]
    exact ⟨I.sentN, by simp, fun x hx y hy => by simp only [List.mem_singleton] at hy; rintro rfl; exact h2 (hy ▸ hx)⟩
  case sentT =>
    intro x hx
    simp only [List.mem_append, List.mem_singleton] at hx
    rcases hx with hx | rfl
    · exact I.sentT x hx
    · exact ⟨c, hc, rfl⟩
  case bufN =>
    rw [List.nodup_append]
    exact ⟨I.bufN, by simp, fun x hx y hy => by simp only [List.mem_singleton] at hy; rintro rfl; exact hib (hy ▸ hx)⟩
  case bufS =>
    intro j hj
    rw [hmap, List.mem_append]
    simp only [List.mem_append, List.mem_singleton] at hj ⊢
    rcases hj with hj | hj
    · exact .inl (I.bufS j hj)
    · exact .inr hj
  case endsN => exact I.endsN
  case endsS => intro j hj; rw [hmap, List.mem_append]; exact .inl (I.endsS j hj)
  case opn =>
    intro j hj
    rw [hmap, List.mem_append, List.mem_singleton] at hj
    rcases hj with hj | hj
    · rcases I.opn j hj with h | h
      · exact .inl h
      · exact .inr (by simp [h])
    · exact .inr (by simp [hj])
  case bufE =>
    intro j hj he
    simp only [List.mem_append, List.mem_singleton] at hj
    rcases hj with hj | rfl
    · exact I.bufE j hj he
    · exact absurd (I.endsS j he) h2
  case curB => intro x hx; exact ⟨by simp [(I.curB x hx).1], (I.curB x hx).2⟩
  case doneE => exact I.doneE
  case cbsE => exact I.cbsE
  case wt =>
    intro b j hb
    rw [hmap, List.mem_append, List.mem_singleton]
    rcases oldw b j hb with ⟨_, rfl, hs⟩ | ⟨_, hb⟩
    · exact ⟨.inr rfl, by rw [hcs]; exact hs, hret⟩
    · have := I.wt b j hb
      exact ⟨.inl this.1, this.2⟩
  case wtU =>
    intro b b' j hb hb'
    rcases oldw b j hb with ⟨rfl, rfl, _⟩ | ⟨_, h⟩ <;> rcases oldw b' j hb' with ⟨rfl, e, _⟩ | ⟨_, h'⟩
    · rfl
    · exact absurd (I.wt b' j h').1 h2
    · subst e; exact absurd (I.wt b j h).1 h2
    · exact I.wtU b b' j h h'
  case retN => exact I.retN
  case retD => exact I.retD
  case retA =>
    intro j hj hs
    rw [hmap, List.mem_append, List.mem_singleton] at hj
    rcases hj with hj | rfl
    · rcases I.retA j hj hs with h | ⟨b, hb⟩
      · exact .inl h
      · have : b ≠ a := by rintro rfl; rw [ha] at hb; cases hb
        exact .inr ⟨b, by rw [updA_ne _ _ this]; exact hb⟩
    · refine .inr ⟨a, ?_⟩
      rw [hcs] at hs
      rw [updA_self, afterProduce, if_pos hs]

theorem invF_promise (I : InvF d calls ph buf none done sent ends ret cbs) {i : Nat} {e : Option Nat} {c : Call} (hb : i ∈ buf) (hc : calls[i]? = some c) :
    InvF d calls ph buf (some (i, e)) (if c.sync then done ++ [(i, e)] else done) sent (ends ++ [(i, e)]) ret
      (if c.sync = false ∧ c.hasCb then cbs ++ [(i, topicOf d c, e)] else cbs) := by
  have hne : i ∉ ends.map Prod.fst := fun h => by obtain ⟨e', he⟩ := I.bufE i hb h; cases he
  have hmap : (ends ++ [(i, e)]).map Prod.fst = ends.map Prod.fst ++ [i] := by simp
  have hcs : isSync calls i = c.sync := by simp [isSync, hc]
  constructor
  case pr => exact I.pr
  case prU => exact I.prU
  case all => exact I.all
  case sentN => exact I.sentN
  case sentT => exact I.sentT
  case bufN => exact I.bufN
  case bufS => exact I.bufS
  case endsN =>
    rw [hmap, List.nodup_append]
    exact ⟨I.endsN, by simp, fun x hx y hy => by simp only [List.mem_singleton] at hy; rintro rfl; exact hne (hy ▸ hx)⟩
  case endsS =>
    intro j hj
    rw [hmap, List.mem_append, List.mem_singleton] at hj
    rcases hj with hj | rfl
    · exact I.endsS j hj
    · exact I.bufS j hb
  case opn =>
    intro j hj
    rw [hmap, List.mem_append]
    rcases I.opn j hj with h | h
    · exact .inl (.inl h)
    · exact .inr h
  case bufE =>
    intro j hj he
    rw [hmap, List.mem_append, List.mem_singleton] at he
    rcases he with he | rfl
    · obtain ⟨e', he⟩ := I.bufE j hj he; cases he
    · exact ⟨e, rfl⟩
  case curB => intro x hx; simp only [Option.some.injEq] at hx; subst hx; exact ⟨hb, by simp⟩
  case doneE =>
    rw [List.filter_append, ← I.doneE]
    cases hs : c.sync <;> simp [hcs, hs]
  case cbsE =>
    rw [List.filterMap_append, ← I.cbsE]
    simp only [List.filterMap_cons, List.filterMap_nil, cbOf, hc]
    split <;> simp
  case wt => exact I.wt
  case wtU => exact I.wtU
  case retN => exact I.retN
  case retD =>
    intro x hx
    have := I.retD x hx
    split
    · simp [this]
    · exact this
  case retA => exact I.retA

theorem invF_finish {x : Nat × Option Nat} (I : InvF d calls ph buf (some x) done sent ends ret cbs) : InvF d calls ph (buf.erase x.1) none done sent ends ret cbs := by
  have hx := I.curB x rfl
  refine ⟨I.pr, I.prU, I.all, I.sentN, I.sentT, I.bufN.erase _, fun i hi => I.bufS i (List.mem_of_mem_erase hi), I.endsN, I.endsS, fun i hi => ?_, fun i hi he => ?_, by simp, I.doneE, I.cbsE, I.wt, I.wtU, I.retN, I.retD,
    I.retA⟩
  · by_cases hix : i = x.1
    · exact .inl (by rw [hix]; exact List.mem_map_of_mem hx.2)
    · rcases I.opn i hi with h | h
      · exact .inl h
      · exact .inr ((List.mem_erase_of_ne hix).2 h)
  · rw [I.bufN.mem_erase_iff] at hi
    obtain ⟨e, he⟩ := I.bufE i hi.2 he
    simp only [Option.some.injEq] at he
    exact absurd (by rw [he]) hi.1

theorem invF_ret (I : InvF d calls ph buf cur done sent ends ret cbs) {a : Option Nat} {i : Nat} {x : Nat × Option Nat} (ha : ph a = .waiting i)
    (hx : done.find? (fun x => x.1 = i) = some x) : InvF d calls (updA ph a .idle) buf cur done sent ends (ret ++ [x]) cbs := by
  have hxi : x.1 = i := by simpa using List.find?_some hx
  have hxd : x ∈ done := List.mem_of_find?_eq_some hx
  have hmap : (ret ++ [x]).map Prod.fst = ret.map Prod.fst ++ [i] := by simp [hxi]
  have hw := I.wt a i ha
  have oldp : ∀ b j, updA ph a .idle b = .producing j → ph b = .producing j := by
    intro b j hb
    by_cases hba : b = a
    · subst hba; rw [updA_self] at hb; cases hb
    · rwa [updA_ne _ _ hba] at hb
  have oldw : ∀ b j, updA ph a .idle b = .waiting j → b ≠ a ∧ ph b = .waiting j := by
    intro b j hb
    by_cases hba : b = a
    · subst hba; rw [updA_self] at hb; cases hb
    · rw [updA_ne _ _ hba] at hb; exact ⟨hba, hb⟩
  refine ⟨fun b j hb => I.pr b j (oldp b j hb), fun b b' j hb hb' => I.prU b b' j (oldp b j hb) (oldp b' j hb'), fun j hj => ?_, I.sentN, I.sentT, I.bufN, I.bufS, I.endsN, I.endsS, I.opn, I.bufE, I.curB,
    I.doneE, I.cbsE, fun b j hb => ?_, fun b b' j hb hb' => I.wtU b b' j (oldw b j hb).2 (oldw b' j hb').2, ?_, fun y hy => ?_, fun j hj hs => ?_⟩
  · rcases I.all j hj with h | ⟨b, hb⟩
    · exact .inl h
    · have : b ≠ a := by rintro rfl; rw [ha] at hb; cases hb
      exact .inr ⟨b, by rw [updA_ne _ _ this]; exact hb⟩
  · obtain ⟨hba, hb⟩ := oldw b j hb
    have := I.wt b j hb
    refine ⟨this.1, this.2.1, ?_⟩
    rw [hmap, List.mem_append, List.mem_singleton]
    rintro (h | rfl)
    · exact this.2.2 h
    · exact hba (I.wtU b a j hb ha)
  · rw [hmap, List.nodup_append]
    exact ⟨I.retN, by simp, fun y hy z hz => by simp only [List.mem_singleton] at hz; rintro rfl; exact hw.2.2 (hz ▸ hy)⟩
  · simp only [List.mem_append, List.mem_singleton] at hy
    rcases hy with hy | rfl
    · exact I.retD y hy
    · exact hxd
  · rw [hmap, List.mem_append, List.mem_singleton]
    by_cases hji : j = i
    · exact .inl (.inr hji)
    · rcases I.retA j hj hs with h | ⟨b, hb⟩
      · exact .inl (.inl h)
      · have : b ≠ a := by rintro rfl; rw [ha] at hb; injection hb with hb; exact hji hb.symm
        exact .inr ⟨b, by rw [updA_ne _ _ this]; exact hb⟩

/-! ### Steps -/

theorem phase_thread {s s' : Sys} {t : Nat} {v : Phase} (h1 : s'.ph = upd s.ph t v) (h2 : s'.cur = s.cur) : s'.phase = updA s.phase (some t) v := by
  funext a
  cases a with
  | none => simp [Sys.phase, updA, h2]
  | some u => simp [Sys.phase, updA, h1, upd]

theorem phase_inner {s s' : Sys} {c : Cur} (h1 : s'.ph = s.ph) (h2 : s'.cur = some c) : s'.phase = updA s.phase none c.inner := by
  funext a
  cases a with
  | none => simp [Sys.phase, updA, h2]
  | some u => simp [Sys.phase, updA, h1]

theorem inv_step {cfg : Cfg} {s s' : Sys} {a : Act} (I : Inv cfg s) (h : step cfg s a = some s') : Inv cfg s' := by
  unfold Inv at I ⊢
  cases a with
  | call t c =>
    simp only [step] at h
    split at h
    · rename_i hi
      simp only [Option.some.injEq] at h
      rw [show s'.phase = updA s.phase (some t) (.producing s.calls.length) from phase_thread (by rw [← h]) (by rw [← h])]
      subst h
      exact invF_call I (a := some t) hi c
    · simp at h
  | produce t =>
    simp only [step] at h
    split at h
    · rename_i i hi
      split at h
      · rename_i c hc
        split at h
        · simp only [Option.some.injEq] at h
          rw [show s'.phase = updA s.phase (some t) (afterProduce c i) from phase_thread (by rw [← h]) (by rw [← h])]
          subst h
          exact invF_produce I (a := some t) hi hc
        · simp at h
      · simp at h
    · simp at h
  | promise i e =>
    simp only [step] at h
    split at h
    · rename_i c hn hc
      split at h
      · rename_i hb
        simp only [Option.some.injEq] at h
        rw [hn] at I
        have : s.phase = updA s.phase none .idle := by
          funext a
          cases a with
          | none => simp [Sys.phase, updA, hn]
          | some u => simp [updA]
        rw [show s'.phase = updA s.phase none (⟨i, e, .idle⟩ : Cur).inner from phase_inner (by rw [← h]) (by rw [← h]), ← this]
        subst h
        exact invF_promise I hb hc
      · simp at h
    · simp at h
  | nested c =>
    simp only [step] at h
    split at h
    · rename_i i e hn
      split at h
      · simp only [Option.some.injEq] at h
        rw [show s'.phase = updA s.phase none (⟨i, e, .producing s.calls.length⟩ : Cur).inner from phase_inner (by rw [← h]) (by rw [← h])]
        subst h
        have := invF_call I (a := none) (by simp [Sys.phase, hn]) c
        rw [hn] at this
        exact this
      · simp at h
    · simp at h
  | nestedProduce =>
    simp only [step] at h
    split at h
    · rename_i i e j hn
      split at h
      · rename_i c hc
        split at h
        · simp only [Option.some.injEq] at h
          rw [show s'.phase = updA s.phase none (⟨i, e, afterProduce c j⟩ : Cur).inner from phase_inner (by rw [← h]) (by rw [← h])]
          subst h
          have := invF_produce I (a := none) (i := j) (by simp [Sys.phase, hn]) hc
          rw [hn] at this
          exact this
        · simp at h
      · simp at h
    · simp at h
  | nestedReturn =>
    simp only [step] at h
    split at h
    · rename_i i e j hn
      split at h
      · rename_i x hx
        simp only [Option.some.injEq] at h
        rw [show s'.phase = updA s.phase none (⟨i, e, .idle⟩ : Cur).inner from phase_inner (by rw [← h]) (by rw [← h])]
        subst h
        have := invF_ret I (a := none) (i := j) (by simp [Sys.phase, hn]) hx
        rw [hn] at this
        exact this
      · simp at h
    · simp at h
  | finish =>
    simp only [step] at h
    split at h
    · rename_i i e hn
      simp only [Option.some.injEq] at h; subst h
      rw [hn] at I
      have : ({ s with cur := none, buf := s.buf.erase i } : Sys).phase = s.phase := by
        funext a
        cases a with
        | none => simp [Sys.phase, hn]
        | some u => rfl
      rw [this]
      exact invF_finish I
    · simp at h
  | ret t =>
    simp only [step] at h
    split at h
    · rename_i i hi
      split at h
      · rename_i x hx
        simp only [Option.some.injEq] at h
        rw [show s'.phase = updA s.phase (some t) (.idle) from phase_thread (by rw [← h]) (by rw [← h])]
        subst h
        exact invF_ret I (a := some t) hi hx
      · simp at h
    · simp at h

theorem inv_run {cfg : Cfg} {s s' : Sys} {as : List Act} (I : Inv cfg s) (h : run cfg s as = some s') : Inv cfg s' := by
  induction as generalizing s with
  | nil => simp only [run, Option.some.injEq] at h; subst h; exact I
  | cons a as ih =>
    simp only [run, Option.bind_eq_some_iff] at h
    obtain ⟨s1, e1, e2⟩ := h
    exact ih (inv_step I e1) e2

theorem inv_reach {cfg : Cfg} {s : Sys} (h : Reach cfg s) : Inv cfg s := by
  obtain ⟨as, h⟩ := h
  exact inv_run (inv_init cfg) h

end Verif.Simple

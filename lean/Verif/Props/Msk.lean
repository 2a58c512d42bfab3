import Verif.Msk.Model
import Mathlib.Tactic.Common
/-
Property C61: `msk/cluster.go`.
-/
namespace Verif.Msk
set_option linter.unusedSimpArgs false

/-- The list with commas between (specification). -/
def Spec.join : List Bytes → Bytes
  | [] => []
  | [a] => a
  | a :: rest => a ++ [44#8] ++ Spec.join rest

/-- The broker string for an authentication type (specification, from the names of the types in `msk/cluster.go:53-61`). -/
inductive Spec.For : AuthType → Brokers → Option Bytes → Prop where
  | none b : For .none b b.plain
  | other n b : For (.other n) b b.plain
  | mutualTLS b : For .mutualTLS b b.tls
  | saslScram b : For .saslScram b b.scram
  | saslIam b : For .saslIam b b.iam
  | publicMutualTLS b : For .publicMutualTLS b b.publicTls
  | publicSaslScram b : For .publicSaslScram b b.publicScram
  | publicSaslIam b : For .publicSaslIam b b.publicIam

theorem split_spec (cur s : Bytes) (hc : comma ∉ cur) :
    splitOn comma cur s ≠ [] ∧ Spec.join (splitOn comma cur s) = cur ++ s ∧ ∀ p ∈ splitOn comma cur s, comma ∉ p := by
  induction s generalizing cur with
  | nil => simp [splitOn, Spec.join, hc]
  | cons b s ih =>
    unfold splitOn
    by_cases h : b = comma
    · rw [if_pos h]
      obtain ⟨h1, h2, h3⟩ := ih [] (by simp)
      refine ⟨by simp, ?_, ?_⟩
      · cases hl : splitOn comma [] s with
        | nil => exact absurd hl h1
        | cons a l => rw [hl] at h2; simp only [Spec.join]; rw [h2, h]; simp [comma]
      · intro p hp
        rcases List.mem_cons.mp hp with rfl | hp
        · exact hc
        · exact h3 p hp
    · rw [if_neg h]
      obtain ⟨h1, h2, h3⟩ := ih (cur ++ [b]) (by simp [hc, Ne.symm h])
      exact ⟨h1, by rw [h2]; simp, h3⟩

/-- C61. The brokers that are used are the comma-separated pieces of the broker string: joined with commas they give it back and no piece has a comma. -/
theorem C61_split (s : Bytes) : Spec.join (splitOn comma [] s) = s ∧ ∀ p ∈ splitOn comma [] s, 44#8 ∉ p :=
  (split_spec [] s (by simp)).2

example : splitOn comma [] [1, 44, 2, 3, 44, 4] = [[1], [2, 3], [4]] := by decide

theorem select_spec (a : AuthType) (b : Brokers) (s : Option Bytes) : Spec.For a b s ↔ s = select a b := by
  constructor
  · intro h; cases h <;> rfl
  · rintro rfl; cases a <;> constructor

/-- C61. The first successful `Config`: the brokers are those of the selected authentication type in the answer for the first cluster found, the TLS
configuration and the SASL mechanism are added exactly when they are asked for, then come the user's options; otherwise the result is an error and
nothing is stored. -/
theorem C61_config (api : Api) (c : Cluster) (hb : c.built = []) :
    (∀ opts c', config api c = (.ok opts, c') →
      ∃ nm arn more b s brokers, api.list c.name = .ok ((nm, some arn) :: more) ∧ api.brokers arn = .ok b ∧ Spec.For c.authType b (some s) ∧
        Spec.join brokers = s ∧ (∀ p ∈ brokers, 44#8 ∉ p) ∧
        opts = .seedBrokers brokers :: ((c.tls.map Opt.dialTls).toList
          ++ (if c.authType = .saslIam ∨ c.authType = .publicSaslIam then [.saslIam] else [])
          ++ (if c.authType = .saslScram ∨ c.authType = .publicSaslScram then [.saslScram c.user c.pass] else [])
          ++ c.clientOptions.map .user) ∧ c' = { c with built := opts }) ∧
    (∀ e c', config api c = (.error e, c') → c' = c ∧
      (api.list c.name = .error e ∨ (∃ nm arn more, api.list c.name = .ok ((nm, some arn) :: more) ∧ api.brokers arn = .error e) ∨ (e = .notFound ∧ api.list c.name = .ok []) ∨
        (e = .arnNil ∧ ∃ nm more, api.list c.name = .ok ((nm, none) :: more)) ∨
        (e = .brokersNil ∧ ∃ nm arn more b, api.list c.name = .ok ((nm, some arn) :: more) ∧ api.brokers arn = .ok b ∧ Spec.For c.authType b none))) := by
  have hcfg : config api c = match getBootstrapBrokers api c with
      | .error e => (.error e, c)
      | .ok brokers =>
        let opts := (if brokers.length > 0 then [Opt.seedBrokers brokers] else [])
          ++ (match c.tls with | some n => [.dialTls n] | none => [])
          ++ (match c.authType with
            | .saslIam | .publicSaslIam => [.saslIam]
            | .saslScram | .publicSaslScram => [.saslScram c.user c.pass]
            | _ => [])
        let built := opts ++ c.clientOptions.map .user
        (.ok built, { c with built := built }) := by
    unfold config; rw [if_pos (by simp [hb])]; rfl
  constructor
  · intro opts c' h
    rw [hcfg] at h
    unfold getBootstrapBrokers getClusterArn at h
    cases hl : api.list c.name with
    | error e => simp [hl] at h
    | ok l =>
      match l, hl with
      | [], hl => simp [hl] at h
      | (_, none) :: _, hl => simp [hl] at h
      | (nm, some arn) :: more, hl =>
        simp only [hl] at h
        cases hbk : api.brokers arn with
        | error e => simp [hbk] at h
        | ok b =>
          simp only [hbk] at h
          cases hs : select c.authType b with
          | none => simp [hs] at h
          | some s =>
            simp only [hs, Prod.mk.injEq, Except.ok.injEq] at h
            obtain ⟨h1, h2⟩ := h
            have sp := split_spec [] s (by simp)
            refine ⟨nm, arn, more, b, s, splitOn comma [] s, rfl, hbk, (select_spec _ _ _).mpr hs.symm, sp.2.1, sp.2.2, ?_, ?_⟩
            · rw [← h1, if_pos (List.length_pos_iff.mpr sp.1)]
              cases hx : c.tls <;> cases hy : c.authType <;> simp
            · rw [← h2, ← h1]
  · intro e c' h
    rw [hcfg] at h
    unfold getBootstrapBrokers getClusterArn at h
    cases hl : api.list c.name with
    | error e' => simp only [hl, Prod.mk.injEq, Except.error.injEq] at h; obtain ⟨rfl, rfl⟩ := h; exact ⟨rfl, .inl rfl⟩
    | ok l =>
      match l, hl with
      | [], hl =>
        simp only [hl, Prod.mk.injEq, Except.error.injEq] at h; obtain ⟨rfl, rfl⟩ := h
        exact ⟨rfl, .inr (.inr (.inl ⟨rfl, rfl⟩))⟩
      | (nm, none) :: more, hl =>
        simp only [hl, Prod.mk.injEq, Except.error.injEq] at h; obtain ⟨rfl, rfl⟩ := h
        exact ⟨rfl, .inr (.inr (.inr (.inl ⟨rfl, nm, more, rfl⟩)))⟩
      | (nm, some arn) :: more, hl =>
        simp only [hl] at h
        cases hbk : api.brokers arn with
        | error e' =>
          simp only [hbk, Prod.mk.injEq, Except.error.injEq] at h; obtain ⟨rfl, rfl⟩ := h
          exact ⟨rfl, .inr (.inl ⟨nm, arn, more, rfl, hbk⟩)⟩
        | ok b =>
          simp only [hbk] at h
          cases hs : select c.authType b with
          | none =>
            simp only [hs, Prod.mk.injEq, Except.error.injEq] at h; obtain ⟨rfl, rfl⟩ := h
            exact ⟨rfl, .inr (.inr (.inr (.inr ⟨rfl, nm, arn, more, b, rfl, hbk, (select_spec _ _ _).mpr hs.symm⟩)))⟩
          | some s => simp [hs] at h

/-- A cluster with one TLS string, and its API. -/
def exCluster (a : AuthType) : Cluster := ⟨[1], a, some 3, [5], [6], [7, 8], []⟩
/-- See `exCluster`. -/
def exApi : Api :=
  { list := fun _ => .ok [([1], some [9])], brokers := fun _ => .ok ⟨none, some [10, 44, 11], some [12], none, none, none, none⟩ }

example : (config exApi (exCluster .mutualTLS)).1 = .ok [.seedBrokers [[10], [11]], .dialTls 3, .user 7, .user 8] ∧
    (config exApi (exCluster .saslScram)).1 = .ok [.seedBrokers [[12]], .dialTls 3, .saslScram [5] [6], .user 7, .user 8] ∧
    (config exApi (exCluster .none)).1 = .error .brokersNil := ⟨rfl, rfl, rfl⟩

theorem config_ok_ne {api : Api} {c c' : Cluster} {o : List Opt} (h : config api c = (.ok o, c')) : c'.built = o ∧ o ≠ [] := by
  by_cases hb : c.built = []
  · obtain ⟨_, _, _, _, _, _, -, -, -, -, -, ho, hc⟩ := (C61_config api c hb).1 o c' h
    rw [hc]; exact ⟨rfl, by rw [ho]; simp⟩
  · unfold config at h
    rw [if_neg (by simpa using hb)] at h
    simp only [Prod.mk.injEq, Except.ok.injEq] at h
    obtain ⟨rfl, rfl⟩ := h; exact ⟨rfl, hb⟩

theorem config_built {api : Api} {c : Cluster} (h : c.built ≠ []) : config api c = (.ok c.built, c) := by
  unfold config; rw [if_neg (by simpa using h)]

/-- C61. Any number of calls: up to the first success every call gives what the API's answers at that time give (errors are not kept), and from the first
success on every call gives that same result whatever the API answers. -/
theorem C61_cached (c : Cluster) (hb : c.built = []) (apis : List Api) :
    ∃ n, (∀ i < n, ∃ e, (configs c apis).1[i]? = some (.error e) ∧ ∃ a, apis[i]? = some a ∧ (config a c).1 = .error e) ∧
      (n = apis.length ∨ ∃ o, o ≠ [] ∧ (∃ a, apis[n]? = some a ∧ (config a c).1 = .ok o) ∧
        ∀ i, n ≤ i → i < apis.length → (configs c apis).1[i]? = some (.ok o)) := by
  have stay : ∀ (apis : List Api) (c : Cluster), c.built ≠ [] → (configs c apis).1 = List.replicate apis.length (.ok c.built) := by
    intro apis
    induction apis with
    | nil => intro c _; rfl
    | cons a as ih =>
      intro c hc
      simp only [configs, config_built hc, List.length_cons, List.replicate_succ]
      rw [ih c hc]
  induction apis with
  | nil => exact ⟨0, by simp, .inl rfl⟩
  | cons a as ih =>
    cases hr : config a c with
    | mk res c' =>
      cases res with
      | error e =>
        have hc' := ((C61_config a c hb).2 e c' hr).1
        subst hc'
        obtain ⟨n, h1, h2⟩ := ih
        refine ⟨n + 1, ?_, ?_⟩
        · intro i hi
          cases i with
          | zero => exact ⟨e, by simp [configs, hr], a, rfl, by rw [hr]⟩
          | succ i =>
            obtain ⟨e', x, y⟩ := h1 i (by omega)
            exact ⟨e', by simpa [configs, hr] using x, by simpa using y⟩
        · rcases h2 with h2 | ⟨o, ho, hx, h3⟩
          · left; simp [h2]
          · right
            refine ⟨o, ho, by simpa using hx, ?_⟩
            intro i hi hl
            cases i with
            | zero => omega
            | succ i => simpa [configs, hr] using h3 i (by omega) (by simpa using hl)
      | ok o =>
        obtain ⟨h1, h2⟩ := config_ok_ne hr
        refine ⟨0, by simp, .inr ⟨o, h2, ⟨a, rfl, by rw [hr]⟩, ?_⟩⟩
        intro i _ hl
        cases i with
        | zero => simp [configs, hr]
        | succ i =>
          have := stay as c' (by rw [h1]; exact h2)
          simp only [configs, hr, List.getElem?_cons_succ, this, h1]
          simp only [List.length_cons] at hl
          rw [List.getElem?_replicate, if_pos (by omega)]

/-- Error, success, then an API that fails for good. -/
example : (configs (exCluster .mutualTLS) [{ exApi with list := fun _ => .error (.aws 1) }, exApi, { exApi with list := fun _ => .ok [] }]).1
    = [.error (.aws 1), .ok [.seedBrokers [[10], [11]], .dialTls 3, .user 7, .user 8],
      .ok [.seedBrokers [[10], [11]], .dialTls 3, .user 7, .user 8]] := rfl

/-- C61 is violated: when the provider returns credentials without an error they are not used; the mechanism gets empty ones. -/
theorem C61_violated_credentials (creds : Creds) : saslIamAuth (creds, none) = (⟨[], [], []⟩, none) := rfl

/-- C61 is violated: the name filter of the API selects by prefix and the first match is taken, so that the brokers of another cluster can be used
although the named one exists. -/
theorem C61_violated_prefix : ∃ (api : Api) (c : Cluster) (own : Bytes), api.list c.name = .ok [(c.name ++ [50], some [1]), (c.name, some own)] ∧
    api.brokers own = .ok ⟨none, some [20], none, none, none, none, none⟩ ∧ c.authType = .mutualTLS ∧
    (config api c).1 = .ok [.seedBrokers [[10]]] :=
  ⟨{ list := fun n => .ok [(n ++ [50], some [1]), (n, some [2])],
     brokers := fun a => if a = [1] then .ok ⟨none, some [10], none, none, none, none, none⟩ else .ok ⟨none, some [20], none, none, none, none, none⟩ },
   ⟨[9], .mutualTLS, none, [], [], [], []⟩, [2], rfl, rfl, rfl, rfl⟩

end Verif.Msk

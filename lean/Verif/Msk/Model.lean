import Verif.Record.Model
/-
`msk/cluster.go`: how the client options for an MSK cluster come about.

Simplifications: the AWS API is given by its answers, which can be anything and may change from call to call;
TLS configurations and client options are numbers; `kgo.Opt` values are their constructor and arguments. The mutex (`mux`, 142-143) makes calls
of `Config` sequential, so the model has one caller.
-/
namespace Verif.Msk

/-- `AuthType`, `msk/cluster.go:51-61`; `other n`: any other integer. -/
inductive AuthType where
  | none | mutualTLS | saslScram | saslIam | publicMutualTLS | publicSaslScram | publicSaslIam
  | other (n : Int)
  deriving DecidableEq

/-- `GetBootstrapBrokersOutput` of the AWS SDK: the fields that `msk/cluster.go:194-209` reads; `none` = nil. -/
structure Brokers where
  plain : Option Bytes
  tls : Option Bytes
  scram : Option Bytes
  iam : Option Bytes
  publicTls : Option Bytes
  publicScram : Option Bytes
  publicIam : Option Bytes
  deriving DecidableEq

/-- Errors: of an AWS call, or made here (`msk/cluster.go:211,226,231`). -/
inductive Err where
  | aws (n : Nat)
  | brokersNil
  | notFound
  | arnNil
  deriving DecidableEq

/-- The answers of the AWS API (`MskClient`, `msk/cluster.go:46-49`): to `ListClusters` with a name filter, names and ARNs (nil or not) of the clusters whose name begins with it;
to `GetBootstrapBrokers` for an ARN. -/
structure Api where
  list : Bytes → Except Err (List (Bytes × Option Bytes))
  brokers : Bytes → Except Err Brokers

/-- Client options (`kgo.Opt`) that occur in `msk/cluster.go:150-163`. -/
inductive Opt where
  | seedBrokers (l : List Bytes)
  | dialTls (n : Nat)
  | saslIam
  | saslScram (user pass : Bytes)
  | user (n : Nat)
  deriving DecidableEq

/-- `MskCluster`, `msk/cluster.go:64-74`. -/
structure Cluster where
  name : Bytes
  authType : AuthType
  tls : Option Nat
  user : Bytes
  pass : Bytes
  clientOptions : List Nat
  built : List Opt
  deriving DecidableEq

/-- `strings.Split` with a one-byte separator, `msk/cluster.go:214`: `cur` is the current piece. -/
def splitOn (sep : BitVec 8) (cur : Bytes) : Bytes → List Bytes
  | [] => [cur]
  | b :: rest => if b = sep then cur :: splitOn sep [] rest else splitOn sep (cur ++ [b]) rest

/-- The byte of "," (`msk/cluster.go:214`). -/
def comma : BitVec 8 := 44#8

/-- `getClusterArn`, `msk/cluster.go:218-236`. -/
def getClusterArn (api : Api) (c : Cluster) : Except Err Bytes :=
  match api.list c.name with
  | .error e => .error e
  | .ok [] => .error .notFound
  | .ok ((_, none) :: _) => .error .arnNil
  | .ok ((_, some arn) :: _) => .ok arn

/-- The `switch` in `getBootstrapBrokers`, `msk/cluster.go:194-209`. -/
def select (a : AuthType) (b : Brokers) : Option Bytes :=
  match a with
  | .mutualTLS => b.tls
  | .saslScram => b.scram
  | .saslIam => b.iam
  | .publicMutualTLS => b.publicTls
  | .publicSaslScram => b.publicScram
  | .publicSaslIam => b.publicIam
  | _ => b.plain

/-- `getBootstrapBrokers`, `msk/cluster.go:182-216`. -/
def getBootstrapBrokers (api : Api) (c : Cluster) : Except Err (List Bytes) :=
  match getClusterArn api c with
  | .error e => .error e
  | .ok arn =>
    match api.brokers arn with
    | .error e => .error e
    | .ok b =>
      match select c.authType b with
      | none => .error .brokersNil
      | some s => .ok (splitOn comma [] s)

/-- `Config`, `msk/cluster.go:141-165`. -/
def config (api : Api) (c : Cluster) : Except Err (List Opt) × Cluster :=
  if c.built.length = 0 then
    match getBootstrapBrokers api c with
    | .error e => (.error e, c)
    | .ok brokers =>
      let opts := (if brokers.length > 0 then [Opt.seedBrokers brokers] else [])
        ++ (match c.tls with | some n => [.dialTls n] | none => [])
        ++ (match c.authType with
          | .saslIam | .publicSaslIam => [.saslIam]
          | .saslScram | .publicSaslScram => [.saslScram c.user c.pass]
          | _ => [])
      let built := opts ++ c.clientOptions.map .user
      (.ok built, { c with built := built })
  else (.ok c.built, c)

/-- Several calls of `Config`, the API changing its answers between them (`msk/cluster.go:141-165`). -/
def configs (c : Cluster) : List Api → List (Except Err (List Opt)) × Cluster
  | [] => ([], c)
  | a :: as =>
    let r := config a c
    let rest := configs r.2 as
    (r.1 :: rest.1, rest.2)

/-- AWS credentials and `kaws.Auth`: key, secret, token (`msk/cluster.go:172-176`). -/
structure Creds where
  key : Bytes
  secret : Bytes
  token : Bytes
  deriving DecidableEq

/-- `saslIamAuth`, `msk/cluster.go:169-179`: `ret` is what `Retrieve` returns, credentials and error (line 171 tests `err != nil`). -/
def saslIamAuth (ret : Creds × Option Nat) : Creds × Option Nat :=
  if ret.2.isSome then (ret.1, ret.2) else (⟨[], [], []⟩, ret.2)

end Verif.Msk

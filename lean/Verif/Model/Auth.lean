import Verif.Model.Message
import Verif.Model.Discovery

/-!
# Model of the authentication flows

`cdn-proto/src/connection/auth/{marshal,user,broker}.rs` and `cdn-proto/src/crypto/signature.rs`.

A flow is a program over the effects it uses: receiving and sending a message on its connection, reading
the clock, and the calls to the discovery store. An execution is the list of effects with the answers the
outside world gave; nothing is assumed about the answers except where a theorem says so. An execution may
stop anywhere (the callers run the flows under a timeout, and a task may be aborted).

The signature scheme is a parameter: any functions at all. Logging, metrics and error texts of `Err`
values are left out (an error is `none`); the error texts *sent* are kept.
-/

namespace Verif.Auth
open Verif

/-- crypto/signature.rs:37-81, traits `SignatureScheme` and `Serializable`, for the jellyfish scheme as
used at lines 124-174: `rawSign` and `rawVerify` take the namespaced message. `rawVerify` includes the
deserialization of the signature. -/
structure Scheme (Pub Priv : Type) where
  deserialize : Bytes → Option Pub
  serialize : Pub → Option Bytes
  rawSign : Priv → Bytes → Option Bytes
  rawVerify : Pub → Bytes → Bytes → Bool

/-- crypto/signature.rs:19-22 `Namespace`. -/
inductive Ns where
  | userMarshal
  | brokerBroker
deriving DecidableEq

/-- ASCII text as bytes. -/
def ascii (s : String) : Bytes := s.toList.map fun c => UInt8.ofNat c.toNat

/-- crypto/signature.rs:24-32 `Namespace::as_str`. -/
def Ns.bytes : Ns → Bytes
  | .userMarshal => ascii "espresso-cdn-user-marshal-auth"
  | .brokerBroker => ascii "espresso-cdn-broker-broker-auth"

/-- `u64::to_le_bytes`. -/
def le8 (t : UInt64) : Bytes :=
  let n := t.toNat
  [UInt8.ofNat n, UInt8.ofNat (n / 2 ^ 8), UInt8.ofNat (n / 2 ^ 16), UInt8.ofNat (n / 2 ^ 24),
   UInt8.ofNat (n / 2 ^ 32), UInt8.ofNat (n / 2 ^ 40), UInt8.ofNat (n / 2 ^ 48), UInt8.ofNat (n / 2 ^ 56)]

/-- signature.rs:130-131 and 162-163: what is signed. -/
def signedBytes (ns : Ns) (ts : UInt64) : Bytes := ns.bytes ++ le8 ts

variable {Pub Priv : Type}

/-- signature.rs:124-147 `sign`, applied to a timestamp as all callers do. -/
def Scheme.sign (S : Scheme Pub Priv) (sk : Priv) (ns : Ns) (ts : UInt64) : Option Bytes :=
  S.rawSign sk (signedBytes ns ts)

/-- signature.rs:155-174 `verify`, applied to a timestamp as all callers do. -/
def Scheme.verify (S : Scheme Pub Priv) (pk : Pub) (ns : Ns) (ts : UInt64) (sig : Bytes) : Bool :=
  S.rawVerify pk (signedBytes ns ts) sig

/-! ## Programs -/

/-- The effects of the flows. -/
inductive Eff where
  /-- `connection.recv_message().await` -/
  | recv
  /-- `connection.send_message(m).await` -/
  | send (m : Msg)
  /-- `SystemTime::now().duration_since(UNIX_EPOCH)`, in seconds -/
  | clock
  /-- `discovery_client.check_whitelist(k)` -/
  | check (k : Bytes)
  /-- `discovery_client.get_with_least_connections()` -/
  | least
  /-- `discovery_client.issue_permit(b, 30 s, k)` -/
  | issue (b : BrokerId) (k : Bytes)
  /-- `discovery_client.validate_permit(b, p)` -/
  | validate (b : BrokerId) (p : UInt64)
deriving DecidableEq

/-- The answers; the outer `none` is `Err`. -/
@[reducible] def Ans : Eff → Type
  | .recv => Option Msg
  | .send _ => Bool
  | .clock => Option UInt64
  | .check _ => Option Bool
  | .least => Option BrokerId
  | .issue _ _ => Option UInt64
  | .validate _ _ => Option (Option Bytes)

/-- A program with result type `α`. -/
inductive Prog (α : Type) where
  | ret (a : α)
  | op (e : Eff) (k : Ans e → Prog α)

/-- An effect and its answer. -/
structure Ev where
  eff : Eff
  ans : Ans eff

/-- `Exec p tr r`: the program can perform the effects `tr`; `r = some a` if it then returns `a`,
`r = none` if it was stopped. -/
inductive Exec {α : Type} : Prog α → List Ev → Option α → Prop
  | stop (p : Prog α) : Exec p [] none
  | ret (a : α) : Exec (.ret a) [] (some a)
  | op (e : Eff) (k : Ans e → Prog α) (a : Ans e) (tr : List Ev) (r : Option α)
      (h : Exec (k a) tr r) : Exec (.op e k) (⟨e, a⟩ :: tr) r

/-- auth/mod.rs:15-29 `fail_verification_with_message!`: send a response with permit 0, ignore whether
that worked, return an error. -/
def fail {α : Type} (context : String) : Prog (Option α) :=
  .op (.send (.authResponse 0 context)) fun _ => .ret none

/-- marshal.rs:81, broker.rs:281 `now - timestamp > 5` on `u64`. In release builds the subtraction wraps;
a debug build panics if it would (the flow then ends without an answer). -/
def tooOld (now ts : UInt64) : Bool := 5 < now - ts

/-! ## Marshal -/

/-- marshal.rs:44-147 `MarshalAuth::verify_user`. Line 126 stores the bytes received, not the key
serialized again. -/
def marshalVerifyUser (S : Scheme Pub Priv) : Prog (Option Bytes) :=
  -- 49-53
  .op .recv fun
    | none => .ret none
    | some (.authKey pk ts sig) =>
      -- 61-63
      match S.deserialize pk with
      | none => fail "malformed public key"
      | some pub =>
        -- 66-73
        if S.verify pub .userMarshal ts sig = false then fail "failed to verify"
        else
          -- 76-78
          .op .clock fun
            | none => fail "malformed timestamp"
            | some now =>
              -- 81-83
              if tooOld now ts then fail "timestamp is too old"
              else
                -- 86-88
                match S.serialize pub with
                | none => fail "failed to serialize public key"
                | some canon =>
                  -- 91-106
                  .op (.check canon) fun
                    | some false => fail "not in whitelist"
                    | none => fail "internal server error"
                    | some true =>
                      -- 110-119
                      .op .least fun
                        | none => fail "internal server error"
                        | some b =>
                          -- 122-136
                          .op (.issue b pk) fun
                            | none => fail "internal server error"
                            | some p =>
                              -- 139-147
                              .op (.send (.authResponse p (String.ofList b.pub))) fun _ => .ret (some canon)
    | some _ => fail "wrong message type"

/-! ## User -/

/-- user.rs:37-106 `UserAuth::authenticate_with_marshal`. -/
def userWithMarshal (S : Scheme Pub Priv) (pk : Pub) (sk : Priv) : Prog (Option (String × UInt64)) :=
  .op .clock fun
    | none => .ret none
    | some ts =>
      match S.sign sk .userMarshal ts with
      | none => .ret none
      | some sig =>
        match S.serialize pk with
        | none => .ret none
        | some pkb =>
          .op (.send (.authKey pkb ts sig)) fun
            | false => .ret none
            | true =>
              .op .recv fun
                | some (.authResponse permit context) =>
                  if 1 < permit then .ret (some (context, permit)) else .ret none
                | _ => .ret none

/-- user.rs:115-161 `UserAuth::authenticate_with_broker`. The topics are a set; `topics` lists it in the
arbitrary order of the hash set. -/
def userWithBroker (permit : UInt64) (topics : List Topic) : Prog (Option Unit) :=
  .op (.send (.authPermit permit)) fun
    | false => .ret none
    | true =>
      .op .recv fun
        | some (.authResponse permit' _) =>
          if permit' ≠ 1 then .ret none
          else
            .op (.send (.subscribe topics)) fun
              | false => .ret none
              | true => .ret (some ())
        | _ => .ret none

/-! ## Broker -/

/-- broker.rs:77-151 `BrokerAuth::verify_user`. -/
def brokerVerifyUser (S : Scheme Pub Priv) (self : BrokerId) : Prog (Option (Bytes × List Topic)) :=
  .op .recv fun
    | none => .ret none
    | some (.authPermit permit) =>
      .op (.validate self permit) fun
        | some none => fail "invalid or expired permit"
        | none => fail "internal server error"
        | some (some k) =>
          .op (.send (.authResponse 1 "")) fun _ =>
            match S.deserialize k with
            | none => .ret none
            | some _ =>
              .op .recv fun
                | none => .ret none
                | some (.subscribe topics) => .ret (some (k, topics))
                | some _ => fail "wrong message type"
    | some _ => fail "wrong message type"

/-- broker.rs:160-236 `BrokerAuth::authenticate_with_broker`. -/
def brokerWithBroker (S : Scheme Pub Priv) (pk : Pub) (sk : Priv) : Prog (Option BrokerId) :=
  .op .clock fun
    | none => .ret none
    | some ts =>
      match S.sign sk .brokerBroker ts with
      | none => .ret none
      | some sig =>
        match S.serialize pk with
        | none => .ret none
        | some pkb =>
          .op (.send (.authKey pkb ts sig)) fun
            | false => .ret none
            | true =>
              .op .recv fun
                | some (.authResponse permit context) =>
                  if permit = 1 then .ret (BrokerId.parse context.toList) else .ret none
                | _ => .ret none

/-- broker.rs:243-300 `BrokerAuth::verify_broker`. -/
def brokerVerifyBroker [DecidableEq Pub] (S : Scheme Pub Priv) (self : BrokerId) (ourKey : Pub) :
    Prog (Option Unit) :=
  .op .recv fun
    | none => .ret none
    | some (.authKey pk ts sig) =>
      match S.deserialize pk with
      | none => fail "malformed public key"
      | some pub =>
        if S.verify pub .brokerBroker ts sig = false then fail "failed to verify"
        else
          .op .clock fun
            | none => fail "malformed timestamp"
            | some now =>
              if tooOld now ts then fail "timestamp is too old"
              else if pub ≠ ourKey then fail "signature did not use broker key"
              else .op (.send (.authResponse 1 (String.ofList self.display))) fun _ => .ret (some ())
    | some _ => fail "wrong message type"

end Verif.Auth

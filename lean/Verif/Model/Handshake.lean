import Verif.Model.AuthRun

/-!
# Model of the handshake between two brokers

`cdn-broker/src/tasks/broker/handler.rs` 38-63 with the macros
`authenticate_with_broker!` and `verify_broker!` (cdn-proto/src/connection/auth/broker.rs 37-66): the two flows of `Verif.Auth` one after the other. The
five-second timeout around them is not modelled here: executions may stop anywhere.
-/

namespace Verif.Auth
open Verif Verif.Disc

variable {Pub Priv α β : Type}

/-- One flow after another, where an error of the first ends both (`?`). -/
def Prog.andThen : Prog (Option α) → (α → Prog (Option β)) → Prog (Option β)
  | .ret none, _ => .ret none
  | .ret (some a), f => f a
  | .op e k, f => .op e fun a => (k a).andThen f

/-- handler.rs:41-45, the dialing side (`is_outbound`): authenticate, then verify the other. -/
def handshakeOut [DecidableEq Pub] (S : Scheme Pub Priv) (self : BrokerId) (pk : Pub) (sk : Priv) :
    Prog (Option BrokerId) :=
  (brokerWithBroker S pk sk).andThen fun other =>
    (brokerVerifyBroker S self pk).andThen fun _ => .ret (some other)

/-- handler.rs:46-50, the dialed side: verify the other, then authenticate. -/
def handshakeIn [DecidableEq Pub] (S : Scheme Pub Priv) (self : BrokerId) (pk : Pub) (sk : Priv) :
    Prog (Option BrokerId) :=
  (brokerVerifyBroker S self pk).andThen fun _ => brokerWithBroker S pk sk

end Verif.Auth

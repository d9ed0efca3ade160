import Verif.Model.Topic

/-!
# Model of the message type, `cdn-proto/src/message.rs:83-105` and 318-360
-/

namespace Verif

/-- message.rs:83-105 `Message`, with the payload structs (`AuthenticateWithKey`, `Direct`, ...)
inlined. `u64` fields are `UInt64`; `context` is a Rust `String`. -/
inductive Msg where
  | authKey (publicKey : Bytes) (timestamp : UInt64) (signature : Bytes)
  | authPermit (permit : UInt64)
  | authResponse (permit : UInt64) (context : String)
  | direct (recipient : Bytes) (message : Bytes)
  | broadcast (topics : List Topic) (message : Bytes)
  | subscribe (topics : List Topic)
  | unsubscribe (topics : List Topic)
  | userSync (data : Bytes)
  | topicSync (data : Bytes)
deriving DecidableEq

end Verif

import Verif.Model.Client

/-!
# Receiving with the elastic client

`Model.Client` leaves open what is received. Here every connection has what has arrived on it and was not taken
yet: the frames in the channel between the connection's reading task and the callers
(`cdn-proto/src/connection/protocols/mod.rs`, lines 147-153, an `async_channel`), together with the one in the
hands of the reading task and those in the buffers of the network. They are taken from the front (lines 258-281).

A connection lives as long as somebody has a clone of it (lines 105-116: the channels are closed and the tasks
aborted when the last `Arc` is dropped): the client, in `connection`, or a call that is using it. So frames of a connection that was
dropped from the client are still there for the calls that are using it.

A message is taken from the channel at the moment at which `recv` returns it; a call that is dropped while it
waits has taken nothing (this is how `async_channel::Receiver::recv` behaves, see DESIGN.md 4.2).
-/

namespace Verif.Reading
open Verif Verif.Client

/-- What can be observed. -/
inductive REv where
  /-- of the client -/
  | client (e : Ev)
  /-- `raw` arrived on connection `c` -/
  | arrived (c : Nat) (raw : Bytes)
  /-- the call of task `t` returned message `m`, which arrived on connection `c` as `raw` -/
  | read (t c : Nat) (raw : Bytes) (m : Msg)
  /-- the call of task `t` took `raw`, which is not a message (`protocols/mod.rs`, lines 263-267) -/
  | refused (t c : Nat) (raw : Bytes)
  /-- the call of task `t` found that connection `c` has ended (lines 276-280) -/
  | sawEnd (t c : Nat)
deriving Inhabited

/-- The client and its connections. -/
structure RSt where
  cl : St
  /-- what has arrived on each connection and was not taken -/
  chan : Nat → List Bytes
  /-- nothing further will arrive: the reading task has ended -/
  ended : Nat → Bool

/-- `Client::new`. -/
def RSt.new (topics : List Topic) : RSt := ⟨St.new topics, fun _ => [], fun _ => false⟩

/-- Steps. `deser` is `Message::deserialize`. -/
inductive RStep (deser : Bytes → Option Msg) (s : RSt) : List REv → RSt → Prop
  /-- anything a client does except taking something from a connection; a receiving call may be given up -/
  | other (es : List Ev) (cl : St) (h : Step s.cl es cl)
      (hr : ∀ t c, s.cl.pc t = .using .recv c → cl.pc t = .using .recv c ∨ (cl.pc t = .done ∧ es = [])) :
      RStep deser s (es.map .client) { s with cl := cl }
  /-- the reading task got a frame -/
  | arrive (c : Nat) (raw : Bytes) (hc : c < s.cl.conns) (he : s.ended c = false) :
      RStep deser s [.arrived c raw] { s with chan := upd s.chan c (s.chan c ++ [raw]) }
  /-- the reading task ended -/
  | finish (c : Nat) (hc : c < s.cl.conns) : RStep deser s [] { s with ended := upd s.ended c true }
  /-- `receive_message` returns a message, `cdn-client/src/lib.rs`, lines 309-315 -/
  | recvOk (t c : Nat) (raw : Bytes) (q : List Bytes) (m : Msg) (h : s.cl.pc t = .using .recv c)
      (hq : s.chan c = raw :: q) (hm : deser raw = some m) :
      RStep deser s [.client (.returned t .recv true), .read t c raw m]
        { s with cl := s.cl.goto t .done, chan := upd s.chan c q }
  /-- what was taken is not a message -/
  | recvBad (t c : Nat) (raw : Bytes) (q : List Bytes) (h : s.cl.pc t = .using .recv c)
      (hq : s.chan c = raw :: q) (hm : deser raw = none) :
      RStep deser s [.refused t c raw] { s with cl := s.cl.goto t (.failed .recv), chan := upd s.chan c q }
  /-- the channel is closed and empty -/
  | recvEnd (t c : Nat) (h : s.cl.pc t = .using .recv c) (hq : s.chan c = []) (he : s.ended c = true) :
      RStep deser s [.sawEnd t c] { s with cl := s.cl.goto t (.failed .recv) }

/-- Runs. -/
inductive RRun (deser : Bytes → Option Msg) (s : RSt) : List REv → RSt → Prop
  | nil : RRun deser s [] s
  | snoc (es : List REv) (s1 : RSt) (es' : List REv) (s2 : RSt) (h : RRun deser s es s1) (hs : RStep deser s1 es' s2) :
      RRun deser s (es ++ es') s2

end Verif.Reading

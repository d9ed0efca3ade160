import Verif.Model.Connections
import Verif.Model.Message

/-!
# Model of message handling in a broker

`cdn-broker/src/tasks/user/{handler,sender}.rs`, `cdn-broker/src/tasks/broker/{handler,sender,sync}.rs`.

Every `.await` and every release of the connections lock is a point where other tasks of the same
broker run. What they do to the shared table is an arbitrary list of `Conns.Op`s, given by a
`Turn`. Whether a send succeeds (`Connection::send_message_raw`) is decided by the environment, too.

User keys are byte strings and topics are `u8` here, as in the code.
-/

namespace Verif

/-- The shared table with the code's key and topic types. -/
abbrev Table (B H : Type) := Conns Bytes B Topic H

/-- Calls on the shared table. -/
abbrev TOp (B H : Type) := Conns.Op Bytes B Topic H

/-- A destination of a forwarded message. -/
inductive Dest (B : Type) where
  | user (u : Bytes)
  | broker (b : B)
deriving DecidableEq

/-- One call of `send_message_raw` on a looked-up connection. -/
structure Sent (B H : Type) where
  dest : Dest B
  conn : H
  bytes : Bytes
  /-- whether the call returned `Ok` -/
  ok : Bool

/-- What the environment does around one send: table calls by other tasks before the connection
lookup, whether the send succeeds, table calls between a failed send and the removal. -/
structure Turn (B H : Type) where
  before : List (TOp B H)
  ok : Bool
  between : List (TOp B H)

/-- A turn for every send of a handler. -/
abbrev Sched (B H : Type) := Nat → Turn B H

namespace Broker
variable {B H : Type} [DecidableEq B] [DecidableEq H] [LT B] [DecidableLT B]

/-- tasks/user/sender.rs:16-32 `try_send_to_user` and tasks/broker/sender.rs:17-45
`try_send_to_broker`. -/
def trySend (s : Table B H) (d : Dest B) (bytes : Bytes) (tn : Turn B H) :
    Table B H × List (Sent B H) :=
  let s := s.run tn.before
  match d with
  | .user u =>
    match s.getUserConnection u with
    | none => (s, [])
    | some c =>
      if tn.ok then (s, [⟨d, c, bytes, true⟩])
      else ((s.run tn.between).removeUser u, [⟨d, c, bytes, false⟩])
  | .broker b =>
    match s.getBrokerConnection b with
    | none => (s, [])
    | some c =>
      if tn.ok then (s, [⟨d, c, bytes, true⟩])
      else ((s.run tn.between).removeBroker b, [⟨d, c, bytes, false⟩])

/-- Sequential sends, one turn each. -/
def trySends (s : Table B H) (bytes : Bytes) (sch : Sched B H) :
    List (Dest B) → Table B H × List (Sent B H)
  | [] => (s, [])
  | d :: ds =>
    let r := trySend s d bytes (sch 0)
    let r' := trySends r.1 bytes (fun n => sch (n + 1)) ds
    (r'.1, r.2 ++ r'.2)

/-- Routing decision of `handle_direct_message`, tasks/broker/handler.rs:203-236. -/
def directDests (s : Table B H) (recipient : Bytes) (toUserOnly : Bool) : List (Dest B) :=
  match s.getBrokerOfUser recipient with
  | none => []
  | some b =>
    if b = s.identity then [.user recipient]
    else if toUserOnly then [] else [.broker b]

/-- tasks/broker/handler.rs:197-237 `handle_direct_message`. -/
def handleDirect (s : Table B H) (recipient raw : Bytes) (toUserOnly : Bool) (sch : Sched B H) :
    Table B H × List (Sent B H) :=
  trySends s raw sch (directDests s recipient toUserOnly)

/-- Routing decision of `handle_broadcast_message`, tasks/broker/handler.rs:246-271: brokers first,
then users. -/
def broadcastDests (s : Table B H) (topics : List Topic) (toUsersOnly : Bool) : List (Dest B) :=
  let r := s.getInterestedByTopic topics toUsersOnly
  r.1.map .broker ++ r.2.map .user

/-- tasks/broker/handler.rs:240-272 `handle_broadcast_message`. -/
def handleBroadcast (s : Table B H) (topics : List Topic) (raw : Bytes) (toUsersOnly : Bool)
    (sch : Sched B H) : Table B H × List (Sent B H) :=
  trySends s raw sch (broadcastDests s topics toUsersOnly)

/-- tasks/broker/sender.rs:49-58 `try_send_to_brokers`. -/
def sendToBrokers (s : Table B H) (raw : Bytes) (sch : Sched B H) : Table B H × List (Sent B H) :=
  trySends s raw sch (s.allBrokers.map .broker)

/-- cdn-proto/src/def.rs:70-76 `HookResult` plus the error case. -/
inductive HookRes where
  | skip
  | process
  | error
deriving DecidableEq

/-- The parts of the run configuration (`RunDef`, def.rs:54-66) and of the libraries that message
handling depends on. `σ` is the state of the message hook (def.rs:79-92: `&mut self`, and it may
rewrite the decoded message). -/
structure Cfg (B σ : Type) where
  decode : Bytes → Option Msg
  /-- `rkyv::from_bytes` for the user map -/
  decUserSync : Bytes → Option (DirectMap Bytes B)
  /-- `rkyv::from_bytes` for the topic map -/
  decTopicSync : Bytes → Option (TopicSync Topic)
  /-- `Def::Topic::try_from(_).is_ok()` -/
  valid : Topic → Bool
  userHook : σ → Msg → σ × Msg × HookRes
  brokerHook : σ → Msg → σ × Msg × HookRes

/-- Result of handling one frame: new table, new hook state, sends, and whether the loop goes on
(`false` = the loop returned `Err`). -/
structure Out (B H σ : Type) where
  table : Table B H
  hook : σ
  sent : List (Sent B H)
  ok : Bool

variable {σ : Type}

/-- One iteration of tasks/user/handler.rs:105-161 (`user_receive_loop`) after a frame was received
from user `u`. -/
def userFrame (cfg : Cfg B σ) (s : Table B H) (h : σ) (u raw : Bytes) (sch : Sched B H) :
    Out B H σ :=
  match cfg.decode raw with
  | none => ⟨s, h, [], false⟩
  | some m =>
    let r := cfg.userHook h m
    match r.2.2 with
    | .skip => ⟨s, r.1, [], true⟩
    | .error => ⟨s, r.1, [], false⟩
    | .process =>
      match r.2.1 with
      | .direct recipient _ =>
        let o := handleDirect s recipient raw false sch
        ⟨o.1, r.1, o.2, true⟩
      | .broadcast topics _ =>
        let p := prune cfg.valid topics
        if p.2 then
          let o := handleBroadcast s p.1 raw false sch
          ⟨o.1, r.1, o.2, true⟩
        else ⟨s, r.1, [], false⟩
      | .subscribe topics =>
        let p := prune cfg.valid topics
        if p.2 then ⟨s.subscribeUser u p.1, r.1, [], true⟩ else ⟨s, r.1, [], false⟩
      | .unsubscribe topics =>
        let p := prune cfg.valid topics
        if p.2 then ⟨s.unsubscribeUser u p.1, r.1, [], true⟩ else ⟨s, r.1, [], false⟩
      | _ => ⟨s, r.1, [], false⟩

/-- One iteration of tasks/broker/handler.rs:130-192 (`broker_receive_loop`) after a frame was
received from broker `b`. -/
def brokerFrame (cfg : Cfg B σ) (s : Table B H) (h : σ) (b : B) (raw : Bytes) (sch : Sched B H) :
    Out B H σ :=
  match cfg.decode raw with
  | none => ⟨s, h, [], false⟩
  | some m =>
    let r := cfg.brokerHook h m
    match r.2.2 with
    | .skip => ⟨s, r.1, [], true⟩
    | .error => ⟨s, r.1, [], false⟩
    | .process =>
      match r.2.1 with
      | .direct recipient _ =>
        let o := handleDirect s recipient raw true sch
        ⟨o.1, r.1, o.2, true⟩
      | .broadcast topics _ =>
        let o := handleBroadcast s topics raw true sch
        ⟨o.1, r.1, o.2, true⟩
      | .userSync d =>
        match cfg.decUserSync d with
        | none => ⟨s, r.1, [], false⟩
        | some m => ⟨s.applyUserSync m, r.1, [], true⟩
      | .topicSync d =>
        match cfg.decTopicSync d with
        | none => ⟨s, r.1, [], false⟩
        | some m => ⟨s.applyTopicSync b m, r.1, [], true⟩
      | _ => ⟨s, r.1, [], true⟩

/-- Where a frame from a user is forwarded: the routing part of tasks/user/handler.rs:105-161. Result:
new hook state, destinations, whether the loop goes on. `Verif.Broker.userFrame_route` (lemmas) shows
that `userFrame` sends exactly to these. -/
def userRoute (cfg : Cfg B σ) (s : Table B H) (h : σ) (raw : Bytes) : σ × List (Dest B) × Bool :=
  match cfg.decode raw with
  | none => (h, [], false)
  | some m =>
    let r := cfg.userHook h m
    match r.2.2 with
    | .skip => (r.1, [], true)
    | .error => (r.1, [], false)
    | .process =>
      match r.2.1 with
      | .direct recipient _ => (r.1, directDests s recipient false, true)
      | .broadcast topics _ =>
        let p := prune cfg.valid topics
        if p.2 then (r.1, broadcastDests s p.1 false, true) else (r.1, [], false)
      | .subscribe topics => (r.1, [], (prune cfg.valid topics).2)
      | .unsubscribe topics => (r.1, [], (prune cfg.valid topics).2)
      | _ => (r.1, [], false)

/-- Where a frame from a broker is forwarded: the routing part of tasks/broker/handler.rs:130-192. -/
def brokerRoute (cfg : Cfg B σ) (s : Table B H) (h : σ) (raw : Bytes) : σ × List (Dest B) × Bool :=
  match cfg.decode raw with
  | none => (h, [], false)
  | some m =>
    let r := cfg.brokerHook h m
    match r.2.2 with
    | .skip => (r.1, [], true)
    | .error => (r.1, [], false)
    | .process =>
      match r.2.1 with
      | .direct recipient _ => (r.1, directDests s recipient true, true)
      | .broadcast topics _ => (r.1, broadcastDests s topics true, true)
      | .userSync d => (r.1, [], (cfg.decUserSync d).isSome)
      | .topicSync d => (r.1, [], (cfg.decTopicSync d).isSome)
      | _ => (r.1, [], true)

/-- What a receive loop sees: the result of `recv_message_raw` (a frame, or `none` for an error, e.g.
a closed connection), preceded by table calls of other tasks while it was waiting and accompanied by
the turns of the sends it causes. -/
structure Recv (B H : Type) where
  idle : List (TOp B H)
  raw : Option Bytes
  sch : Sched B H

/-- Result of a receive loop run. -/
structure LoopOut (B H σ : Type) where
  table : Table B H
  hook : σ
  /-- sends, grouped by the frame that caused them -/
  sent : List (Bytes × List (Sent B H))
  /-- `true` when the loop is still waiting for frames, `false` when it has returned `Err` (and the
  spawned task has removed the connection) -/
  running : Bool

/-- tasks/user/handler.rs:59-71 and 95-163: the spawned receive task of user `u` on a sequence of
received frames. When the loop returns `Err` the task calls `remove_user` (63-69). Cancellation of the
task (abort) is covered by taking a shorter sequence. -/
def userLoop (cfg : Cfg B σ) (s : Table B H) (h : σ) (u : Bytes) :
    List (Recv B H) → LoopOut B H σ
  | [] => ⟨s, h, [], true⟩
  | r :: rs =>
    match r.raw with
    | none => ⟨(s.run r.idle).removeUser u, h, [], false⟩
    | some raw =>
      let o := userFrame cfg (s.run r.idle) h u raw r.sch
      if o.ok then
        let l := userLoop cfg o.table o.hook u rs
        { l with sent := (raw, o.sent) :: l.sent }
      else ⟨o.table.removeUser u, o.hook, [(raw, o.sent)], false⟩

/-- tasks/broker/handler.rs:71-91 and 121-194: the spawned receive task of broker `b`. -/
def brokerLoop (cfg : Cfg B σ) (s : Table B H) (h : σ) (b : B) :
    List (Recv B H) → LoopOut B H σ
  | [] => ⟨s, h, [], true⟩
  | r :: rs =>
    match r.raw with
    | none => ⟨(s.run r.idle).removeBroker b, h, [], false⟩
    | some raw =>
      let o := brokerFrame cfg (s.run r.idle) h b raw r.sch
      if o.ok then
        let l := brokerLoop cfg o.table o.hook b rs
        { l with sent := (raw, o.sent) :: l.sent }
      else ⟨o.table.removeBroker b, o.hook, [(raw, o.sent)], false⟩

end Broker
end Verif

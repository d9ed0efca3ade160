import Verif.Model.Connections

/-!
# Model of the sync tasks of the brokers of a mesh whose links come and go

`cdn-broker/src/tasks/broker/sync.rs`, `tasks/broker/sender.rs`, the part of
`tasks/broker/handler.rs` after authentication, and the sync arms of `broker_receive_loop`.

A sync first takes the message from the table under the lock (sync.rs:72, 113), then reads the list of
brokers (broker/sender.rs:50), then sends to one after the other (broker/sender.rs:52-56); other tasks,
also other syncs of the same broker, run in between. A partial sync is started every ten seconds
(sync.rs:127-144) and, with the default `strong-consistency` feature, after every user connect
(tasks/user/handler.rs:79-90); here it may start at any time, any number of them concurrently.

A link delivers in order. `ch b b'` holds what `b` has sent to `b'` on their present link and `b'` has not
handled yet.

Simplifications:
* both ends of a link register each other at the same moment (`linkUp`); what goes wrong when a frame
  arrives in between is in `Model/Sessions` (C53);
* an aborted receive loop handles no further frame (`Model/Sessions` has the exception);
* messages between users are left out (`Model/Network`).
-/

namespace Verif

/-- message.rs:44-51, the payloads of `Message::UserSync` and `Message::TopicSync`. -/
inductive SyncMsg (U B T : Type) where
  | user (m : DirectMap U B)
  | topic (m : TopicSync T)

/-- A sync in progress at broker `here`: the message and the brokers it still has to be sent to (`none`:
the list of brokers has not been read yet). -/
structure SyncTask (U B T : Type) where
  here : B
  msg : SyncMsg U B T
  dests : Option (List B)

/-- All brokers. -/
structure MNet (U B T H : Type) where
  st : B → Conns U B T H
  tasks : List (SyncTask U B T)
  /-- `(b, b')`: `b` has registered `b'` and has still to take the full topic sync for it -/
  fullT : List (B × B)
  /-- likewise for the full user sync -/
  fullU : List (B × B)
  ch : B → B → List (SyncMsg U B T)

/-- What can happen next. -/
inductive MLabel (U B T H : Type) where
  /-- a user connects to `b` with these topics -/
  | connect (b : B) (u : U) (h : H) (ts : List T)
  | disconnect (b : B) (u : U)
  | subscribe (b : B) (u : U) (ts : List T)
  | unsubscribe (b : B) (u : U) (ts : List T)
  /-- `b` starts a partial topic sync -/
  | startTopic (b : B)
  /-- `b` starts a partial user sync -/
  | startUser (b : B)
  /-- the `i`-th sync reads the list of brokers -/
  | readDests (i : Nat)
  /-- the `i`-th sync sends to its next broker -/
  | send (i : Nat) (ok : Bool)
  /-- two brokers register each other, with these connections -/
  | linkUp (b b' : B) (h h' : H)
  /-- the handler at `b` starts the full topic sync for `b'` -/
  | fullTopic (b b' : B)
  | fullUser (b b' : B)
  /-- `b` removes `b'`: its connection failed -/
  | drop (b b' : B)
  /-- `b'` handles the next frame from `b` -/
  | deliver (b b' : B)
  /-- the process of `b` ends and is started again with the same identity -/
  | restart (b : B)

namespace MNet
variable {U B T H : Type} [DecidableEq U] [DecidableEq B] [DecidableEq T] [DecidableEq H]
  [LT B] [DecidableLT B]

/-- All brokers freshly started, no links. -/
def start : MNet U B T H := ⟨fun b => Conns.new b, [], [], [], fun _ _ => []⟩

/-- Broker `b` makes a call on its table. -/
def act (n : MNet U B T H) (b : B) (op : Conns.Op U B T H) : MNet U B T H :=
  { n with st := fun x => if x = b then (n.st b).step op else n.st x }

/-- Is `b'` registered at `b`? -/
def knows (n : MNet U B T H) (b b' : B) : Bool := ((n.st b).getBrokerConnection b').isSome

/-- A new sync. -/
def spawn (n : MNet U B T H) (t : SyncTask U B T) : MNet U B T H := { n with tasks := n.tasks ++ [t] }

/-- Replace the queue from `b` to `b'`. -/
def setCh (n : MNet U B T H) (b b' : B) (q : List (SyncMsg U B T)) : MNet U B T H :=
  { n with ch := fun x y => if x = b ∧ y = b' then q else n.ch x y }

/-- One step. A label that is impossible in the current state does nothing.
* `connect` ... `unsubscribe`: tasks/user/handler.rs:74-76 `add_user`, 65-68 `remove_user`, 140-158.
* `startTopic`, `startUser`: sync.rs:111-123 and 70-83; nothing to announce: nothing happens.
* `readDests`: broker/sender.rs:50.
* `send`: broker/sender.rs:22-45: no connection, nothing is sent; a failing send removes the broker.
* `linkUp`: tasks/broker/handler.rs:93-95 at both ends. The queues of an earlier link are gone.
* `fullTopic`, `fullUser`: handler.rs:98, 110 with sync.rs:90-105, 49-63, for the one broker.
* `drop`: handler.rs:84-87; frames still under way from `b'` are not handled.
* `deliver`: handler.rs:164-188; only a registered peer's loop is running.
* `restart`: cdn-broker/src/lib.rs:249 with connections/mod.rs:58-66: nothing outlives the process: an empty
  table, no task. What it has already sent may still arrive, and its peers have it registered until they
  notice (`drop`, a failing `send`, or the next `linkUp`). -/
def step (n : MNet U B T H) : MLabel U B T H → MNet U B T H
  | .connect b u h ts => n.act b (.addUser u h ts)
  | .disconnect b u => n.act b (.removeUser u)
  | .subscribe b u ts => n.act b (.subscribeUser u ts)
  | .unsubscribe b u ts => n.act b (.unsubscribeUser u ts)
  | .startTopic b =>
    match (n.st b).getPartialTopicSync.2 with
    | none => n.act b .partialTopicSync
    | some m => (n.act b .partialTopicSync).spawn ⟨b, .topic m, none⟩
  | .startUser b =>
    match (n.st b).getPartialUserSync.2 with
    | none => n.act b .partialUserSync
    | some m => (n.act b .partialUserSync).spawn ⟨b, .user m, none⟩
  | .readDests i =>
    match n.tasks[i]? with
    | some ⟨b, m, none⟩ => { n with tasks := n.tasks.set i ⟨b, m, some (n.st b).allBrokers⟩ }
    | _ => n
  | .send i ok =>
    match n.tasks[i]? with
    | some ⟨b, m, some (d :: ds)⟩ =>
      let n' := { n with tasks := n.tasks.set i ⟨b, m, some ds⟩ }
      if n.knows b d then
        if ok then n'.setCh b d (n.ch b d ++ [m])
        else (n'.act b (.removeBroker d)).setCh d b []
      else n'
    | _ => n
  | .linkUp b b' h h' =>
    if b = b' then n
    else
      let n := (n.act b (.addBroker b' h)).act b' (.addBroker b h')
      let n := (n.setCh b b' []).setCh b' b []
      { n with fullT := (b, b') :: (b', b) :: n.fullT, fullU := (b, b') :: (b', b) :: n.fullU }
  | .fullTopic b b' =>
    if (b, b') ∈ n.fullT then
      let n' := { n with fullT := n.fullT.erase (b, b') }
      match (n.st b).getFullTopicSync with
      | none => n'
      | some m => n'.spawn ⟨b, .topic m, some [b']⟩
    else n
  | .fullUser b b' =>
    if (b, b') ∈ n.fullU then
      let n' := { n with fullU := n.fullU.erase (b, b') }
      match (n.st b).getFullUserSync with
      | none => n'
      | some m => n'.spawn ⟨b, .user m, some [b']⟩
    else n
  | .drop b b' => (n.act b (.removeBroker b')).setCh b' b []
  | .deliver b b' =>
    if n.knows b' b then
      match n.ch b b' with
      | [] => n
      | .user m :: rest => (n.act b' (.applyUserSync m)).setCh b b' rest
      | .topic m :: rest => (n.act b' (.applyTopicSync b m)).setCh b b' rest
    else n
  | .restart b =>
    { st := fun x => if x = b then Conns.new b else n.st x
      tasks := n.tasks.filter (fun τ => τ.here ≠ b)
      fullT := n.fullT.filter (fun p => p.1 ≠ b)
      fullU := n.fullU.filter (fun p => p.1 ≠ b)
      ch := fun x y => if y = b then [] else n.ch x y }

/-- Any schedule. -/
def run (n : MNet U B T H) (ls : List (MLabel U B T H)) : MNet U B T H := ls.foldl step n

end MNet
end Verif

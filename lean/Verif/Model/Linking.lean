import Verif.Model.Mesh

/-!
# The sync tasks of a mesh, connection by connection

As `Model/Mesh`, without two of its simplifications. A connection between two brokers is registered by each
of them in its own time (tasks/broker/handler.rs:93-95 runs in two processes), so that a broker may have
registered a connection its peer has not, several connections between the same two brokers may be under way at
once, and each end may be on a different one. And sending takes two steps: the connection is looked up
(broker/sender.rs:25-28) before the message is put on it (broker/sender.rs:37), and may have been replaced by
then.

A connection is a number. `q c b` holds what `b` has sent on connection `c` and the other end has not handled.

The receive loop of a connection runs from before its registration (handler.rs:71-90) until its abort takes effect,
so a frame may also be handled while the connection is not the registered one: the `stray` labels.

Simplifications: messages between users are left out; a connection never loses anything unless one end gives it up.
-/

namespace Verif

/-- A sync in progress, as `SyncTask`; `held` is the broker whose turn it is and the connection found for it. -/
structure LTask (U B T : Type) where
  here : B
  msg : SyncMsg U B T
  dests : Option (List B)
  held : Option (B × Nat)

/-- All brokers and their connections. -/
structure LNet (U B T : Type) where
  /-- connections/mod.rs: the handle of a connection is its number -/
  st : B → Conns U B T Nat
  tasks : List (LTask U B T)
  /-- `(b, b')`: `b` has registered `b'` and has still to take the full topic sync for it -/
  fullT : List (B × B)
  /-- likewise for the full user sync -/
  fullU : List (B × B)
  /-- the two brokers of a connection that was authenticated at both ends -/
  ends : Nat → Option (B × B)
  /-- the handler of this end has registered the connection, or the process it ran in is gone -/
  spent : Nat → B → Bool
  /-- the process of this end is gone -/
  gone : Nat → B → Bool
  q : Nat → B → List (SyncMsg U B T)

/-- What can happen next. -/
inductive LLabel (U B T : Type) where
  /-- a user connects to `b` with these topics -/
  | connect (b : B) (u : U) (h : Nat) (ts : List T)
  | disconnect (b : B) (u : U)
  | subscribe (b : B) (u : U) (ts : List T)
  | unsubscribe (b : B) (u : U) (ts : List T)
  /-- `b` starts a partial topic sync -/
  | startTopic (b : B)
  /-- `b` starts a partial user sync -/
  | startUser (b : B)
  /-- the `i`-th sync reads the list of brokers -/
  | readDests (i : Nat)
  /-- the `i`-th sync looks up the connection of its next broker -/
  | lookup (i : Nat)
  /-- the `i`-th sync puts its message on that connection -/
  | push (i : Nat) (ok : Bool)
  /-- the two brokers have authenticated each other on a new connection -/
  | authenticated (c : Nat) (b b' : B)
  /-- `b` registers its end of the connection `c` with `b'` -/
  | register (c : Nat) (b b' : B)
  /-- the handler at `b` starts the full topic sync for `b'` -/
  | fullTopic (b b' : B)
  | fullUser (b b' : B)
  /-- `b` removes `b'`: some connection with it failed -/
  | drop (b b' : B)
  /-- `b'` handles the next frame from `b` on `c`, the connection it has registered for `b` -/
  | deliver (c : Nat) (b b' : B)
  /-- the same on a connection `b'` has not registered yet, or not any more: the frame is a user sync -/
  | strayUser (c : Nat) (b b' : B)
  /-- likewise, the frame is a topic sync -/
  | strayTopic (c : Nat) (b b' : B)
  /-- the process of `b` ends and is started again with the same identity -/
  | restart (b : B)

namespace LNet
variable {U B T : Type} [DecidableEq U] [DecidableEq B] [DecidableEq T] [LT B] [DecidableLT B]

/-- All brokers freshly started, no connections. -/
def start : LNet U B T :=
  ⟨fun b => Conns.new b, [], [], [], fun _ => none, fun _ _ => false, fun _ _ => false, fun _ _ => []⟩

/-- Broker `b` makes a call on its table. -/
def act (n : LNet U B T) (b : B) (op : Conns.Op U B T Nat) : LNet U B T :=
  { n with st := fun x => if x = b then (n.st b).step op else n.st x }

/-- The connection `b` has registered for `b'` (connections/mod.rs:74-81). -/
def conn (n : LNet U B T) (b b' : B) : Option Nat := (n.st b).getBrokerConnection b'

/-- `c` is a connection between `b` and `b'`. -/
def joins (n : LNet U B T) (c : Nat) (b b' : B) : Prop := n.ends c = some (b, b') ∨ n.ends c = some (b', b)

instance (n : LNet U B T) (c : Nat) (b b' : B) : Decidable (n.joins c b b') := by
  unfold joins; exact inferInstance

/-- A new sync. -/
def spawn (n : LNet U B T) (t : LTask U B T) : LNet U B T := { n with tasks := n.tasks ++ [t] }

/-- Replace the queue of what `b` sent on `c`. -/
def setQ (n : LNet U B T) (c : Nat) (b : B) (l : List (SyncMsg U B T)) : LNet U B T :=
  { n with q := fun x y => if x = c ∧ y = b then l else n.q x y }

/-- One step. A label that is impossible in the current state does nothing.
* `connect` ... `unsubscribe`: tasks/user/handler.rs:74-76 `add_user`, 65-68 `remove_user`, 140-158.
* `startTopic`, `startUser`: sync.rs:111-123 and 70-83; nothing to announce: nothing happens.
* `readDests`: broker/sender.rs:50. `lookup`: 25-28; no connection: on to the next broker.
* `push`: 37-44; a failing send removes the broker, whatever its connection is by now.
* `authenticated`: handler.rs:40-63 has succeeded at both ends.
* `register`: handler.rs:93-95 at one end; the full syncs are due.
* `fullTopic`, `fullUser`: handler.rs:98, 110 with sync.rs:90-105, 49-63, for the one broker.
* `drop`: handler.rs:84-87 (of whichever connection).
* `deliver`: handler.rs:164-188. `strayUser`, `strayTopic`: the same arms, before `add_broker` or after the
  connection was replaced or removed.
* `restart`: cdn-broker/src/lib.rs:249 with connections/mod.rs:58-66: nothing outlives the process; its ends of all
  connections are gone. What it has sent may still arrive. -/
def step (n : LNet U B T) : LLabel U B T → LNet U B T
  | .connect b u h ts => n.act b (.addUser u h ts)
  | .disconnect b u => n.act b (.removeUser u)
  | .subscribe b u ts => n.act b (.subscribeUser u ts)
  | .unsubscribe b u ts => n.act b (.unsubscribeUser u ts)
  | .startTopic b =>
    match (n.st b).getPartialTopicSync.2 with
    | none => n.act b .partialTopicSync
    | some m => (n.act b .partialTopicSync).spawn ⟨b, .topic m, none, none⟩
  | .startUser b =>
    match (n.st b).getPartialUserSync.2 with
    | none => n.act b .partialUserSync
    | some m => (n.act b .partialUserSync).spawn ⟨b, .user m, none, none⟩
  | .readDests i =>
    match n.tasks[i]? with
    | some ⟨b, m, none, none⟩ => { n with tasks := n.tasks.set i ⟨b, m, some (n.st b).allBrokers, none⟩ }
    | _ => n
  | .lookup i =>
    match n.tasks[i]? with
    | some ⟨b, m, some (d :: ds), none⟩ =>
      { n with tasks := n.tasks.set i ⟨b, m, some ds, (n.conn b d).map (fun c => (d, c))⟩ }
    | _ => n
  | .push i ok =>
    match n.tasks[i]? with
    | some ⟨b, m, ds, some (d, c)⟩ =>
      let n' := { n with tasks := n.tasks.set i ⟨b, m, ds, none⟩ }
      if ok then n'.setQ c b (n.q c b ++ [m]) else n'.act b (.removeBroker d)
    | _ => n
  | .authenticated c b b' =>
    if b = b' ∨ n.ends c ≠ none then n
    else
      { n with
        ends := fun x => if x = c then some (b, b') else n.ends x
        spent := fun x y => if x = c then false else n.spent x y
        gone := fun x y => if x = c then false else n.gone x y
        q := fun x y => if x = c then [] else n.q x y }
  | .register c b b' =>
    if n.joins c b b' ∧ n.spent c b = false then
      { n.act b (.addBroker b' c) with
        fullT := (b, b') :: n.fullT
        fullU := (b, b') :: n.fullU
        spent := fun x y => if x = c ∧ y = b then true else n.spent x y }
    else n
  | .fullTopic b b' =>
    if (b, b') ∈ n.fullT then
      let n' := { n with fullT := n.fullT.erase (b, b') }
      match (n.st b).getFullTopicSync with
      | none => n'
      | some m => n'.spawn ⟨b, .topic m, some [b'], none⟩
    else n
  | .fullUser b b' =>
    if (b, b') ∈ n.fullU then
      let n' := { n with fullU := n.fullU.erase (b, b') }
      match (n.st b).getFullUserSync with
      | none => n'
      | some m => n'.spawn ⟨b, .user m, some [b'], none⟩
    else n
  | .drop b b' => n.act b (.removeBroker b')
  | .deliver c b b' =>
    if n.conn b' b = some c then
      match n.q c b with
      | [] => n
      | .user m :: rest => (n.act b' (.applyUserSync m)).setQ c b rest
      | .topic m :: rest => (n.act b' (.applyTopicSync b m)).setQ c b rest
    else n
  | .strayUser c b b' =>
    if n.joins c b b' ∧ n.conn b' b ≠ some c ∧ n.gone c b' = false then
      match n.q c b with
      | .user m :: rest => (n.act b' (.applyUserSync m)).setQ c b rest
      | _ => n
    else n
  | .strayTopic c b b' =>
    if n.joins c b b' ∧ n.conn b' b ≠ some c ∧ n.gone c b' = false then
      match n.q c b with
      | .topic m :: rest => (n.act b' (.applyTopicSync b m)).setQ c b rest
      | _ => n
    else n
  | .restart b =>
    { n with
      st := fun x => if x = b then Conns.new b else n.st x
      tasks := n.tasks.filter (fun τ => τ.here ≠ b)
      fullT := n.fullT.filter (fun p => p.1 ≠ b)
      fullU := n.fullU.filter (fun p => p.1 ≠ b)
      spent := fun x y => if y = b then true else n.spent x y
      gone := fun x y => if y = b then true else n.gone x y }

/-- Any schedule. -/
def run (n : LNet U B T) (ls : List (LLabel U B T)) : LNet U B T := ls.foldl step n

end LNet
end Verif

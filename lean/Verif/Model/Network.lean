import Verif.Model.Broker

/-!
# Model of several brokers joined by connections

Each broker runs one receive loop per connection (tasks/user/handler.rs:95-163,
tasks/broker/handler.rs:121-194). A loop takes the next frame of its connection, computes the
destinations under the table lock and then performs the sends one at a time; between any two of these
steps every other loop of every broker may run. A connection delivers frames in order
(`connection/protocols/mod.rs:139-217`: one channel, one sender task, one stream, one receiver task,
one channel per direction), so sending on it is appending to the receiving loop's queue.

Simplifications: the effect of frames on routing tables (subscribe, user sync, topic sync,
connects, disconnects, failed sends) is not computed here but covered by `setTable`, which replaces a
table by an arbitrary one at any time; the frames themselves are routed like all others.
-/

namespace Verif

/-- A frame in the network. `id`, `src` and `hops` are bookkeeping of the model (identity of the
published message, its publisher, number of broker-to-broker links crossed); the code sees only
`raw`. -/
structure Pkt where
  id : Nat
  src : Bytes
  raw : Bytes
  hops : Nat
deriving DecidableEq

/-- A frame waiting for the loop of connection `frm` at broker `at`. -/
structure Item (B : Type) where
  here : B
  frm : Dest B
  pkt : Pkt

/-- A send the loop of connection `frm` at broker `at` still has to perform. -/
structure Todo (B : Type) where
  here : B
  frm : Dest B
  pkt : Pkt
  dest : Dest B

/-- The brokers, what is in flight, and what every user has received (oldest first). -/
structure Net (B H σ : Type) where
  tab : B → Table B H
  hook : B → Dest B → σ
  wire : List (Item B)
  pend : List (Todo B)
  inbox : List (Bytes × Pkt)

/-- What can happen next. -/
inductive Label (B H : Type) where
  /-- user `u` sends a frame to broker `b` -/
  | publish (b : B) (u : Bytes) (id : Nat) (raw : Bytes)
  /-- broker `b'` originates a frame (a sync message) to broker `b` -/
  | originate (b b' : B) (id : Nat) (raw : Bytes)
  /-- the loop of connection `frm` at broker `b`, being idle, handles its next frame -/
  | take (b : B) (frm : Dest B)
  /-- the loop of connection `frm` at broker `b` performs its next send, which succeeds or fails -/
  | send (b : B) (frm : Dest B) (ok : Bool)
  /-- the table of broker `b` changes in any way -/
  | setTable (b : B) (s : Table B H)

namespace Net
variable {B H σ : Type} [DecidableEq B] [DecidableEq H] [LT B] [DecidableLT B]

/-- Function update. -/
def upd {A C : Type} [DecidableEq A] (f : A → C) (a : A) (c : C) : A → C :=
  fun x => if x = a then c else f x

/-- Does the frame wait for this loop? -/
def Item.for' (b : B) (frm : Dest B) (i : Item B) : Bool := i.here = b && i.frm = frm

/-- Is the send to be performed by this loop? -/
def Todo.for' (b : B) (frm : Dest B) (i : Todo B) : Bool := i.here = b && i.frm = frm

/-- Routing of one frame by the loop of connection `frm`. -/
def route (cfg : Broker.Cfg B σ) (s : Table B H) (h : σ) (frm : Dest B) (raw : Bytes) :
    σ × List (Dest B) × Bool :=
  match frm with
  | .user _ => Broker.userRoute cfg s h raw
  | .broker _ => Broker.brokerRoute cfg s h raw

/-- The registered connection for a destination (sender.rs:18 / broker/sender.rs:23-26). -/
def lookup (s : Table B H) : Dest B → Option H
  | .user u => s.getUserConnection u
  | .broker b => s.getBrokerConnection b

/-- One step. A label that is not possible in the current state does nothing.
* `take`: the loop must be idle (it performs all sends of a frame before receiving the next one,
  tasks/broker/handler.rs:252-271). A frame that ends the loop also discards the frames queued behind
  it.
* `send`: without a registered connection nothing is sent. A failed send loses the frame. -/
def step (cfg : Broker.Cfg B σ) (n : Net B H σ) : Label B H → Net B H σ
  | .publish b u id raw => { n with wire := n.wire ++ [⟨b, .user u, ⟨id, u, raw, 0⟩⟩] }
  | .originate b b' id raw => { n with wire := n.wire ++ [⟨b, .broker b', ⟨id, [], raw, 1⟩⟩] }
  | .take b frm =>
    if n.pend.any (Todo.for' b frm) then n
    else
      match n.wire.find? (Item.for' b frm) with
      | none => n
      | some i =>
        let r := route cfg (n.tab b) (n.hook b frm) frm i.pkt.raw
        { n with
          hook := upd n.hook b (upd (n.hook b) frm r.1)
          wire := if r.2.2 then n.wire.eraseP (Item.for' b frm)
                  else n.wire.filter (fun i => !Item.for' b frm i)
          pend := n.pend ++ r.2.1.map (fun d => ⟨b, frm, i.pkt, d⟩) }
  | .send b frm ok =>
    match n.pend.find? (Todo.for' b frm) with
    | none => n
    | some t =>
      let n' := { n with pend := n.pend.eraseP (Todo.for' b frm) }
      if (lookup (n.tab b) t.dest).isSome && ok then
        match t.dest with
        | .user u => { n' with inbox := n'.inbox ++ [(u, t.pkt)] }
        | .broker b' =>
          { n' with wire := n'.wire ++ [⟨b', .broker b, { t.pkt with hops := t.pkt.hops + 1 }⟩] }
      else n'
  | .setTable b s => { n with tab := upd n.tab b s }

/-- Any sequence of steps, i.e. any schedule. -/
def run (cfg : Broker.Cfg B σ) (n : Net B H σ) (ls : List (Label B H)) : Net B H σ :=
  ls.foldl (step cfg) n

/-- Nothing in flight. -/
def start (tab : B → Table B H) (hook : B → Dest B → σ) : Net B H σ := ⟨tab, hook, [], [], []⟩

end Net
end Verif

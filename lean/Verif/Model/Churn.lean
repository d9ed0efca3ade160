import Verif.Model.Network
import Verif.Model.Linking

/-!
# Messages while the mesh changes

`Model/Linking` (users, connections between brokers, syncs) and `Model/Network` (receive loops, messages) at the same
time, in any interleaving, over the same tables: every lookup and every routing decision of `Model/Network` sees the
tables as they are at that moment (tasks/user/handler.rs:105-161, tasks/broker/handler.rs:130-192: the tables are read
under the lock for each frame and for each send).

Simplification: frames that change tables (subscriptions, syncs) take effect at the labels of `Model/Linking`, not
when `Model/Network` handles them. So they may take effect at any time.

When a connection is replaced or removed, its receive loop is aborted (connections/mod.rs:308-322, 330-345): frames it
has not read and sends it has not made are lost. Frames in `Model/Network` do not say on which connection they were
sent, so the model lets any of the frames and sends of a loop be lost as soon as its connection has changed once
(`loose`), also those on the new connection.
-/

namespace Verif

/-- All brokers with everything under way. -/
structure Churn (B σ : Type) where
  mesh : LNet Bytes B Topic
  net : Net B Nat σ
  /-- Whether frames that this broker receives from there may be lost. -/
  loose : B → Dest B → Bool

/-- What can happen next. -/
inductive CLabel (B : Type) where
  | mesh (l : LLabel Bytes B Topic)
  | msg (l : Label B Nat)
  /-- An aborted receive loop does not read this frame (an index into `wire`). -/
  | lose (i : Nat)
  /-- An aborted receive loop does not make this send (an index into `pend`). -/
  | loseSend (i : Nat)

namespace Churn
variable {B σ : Type} [DecidableEq B] [LT B] [DecidableLT B]

/-- The connection on which `b` receives from there, if there is one: for a broker, one that both have registered. -/
def heard (m : LNet Bytes B Topic) (b : B) : Dest B → Option Nat
  | .user a => (m.st b).getUserConnection a
  | .broker b' => if m.conn b b' = m.conn b' b then m.conn b b' else none

/-- One step; the tables are those of the mesh. A change of the connection aborts the loop
(connections/mod.rs:308-322, 330-345). -/
def step (cfg : Broker.Cfg B σ) (s : Churn B σ) : CLabel B → Churn B σ
  | .mesh l => ⟨s.mesh.step l, { s.net with tab := (s.mesh.step l).st }, fun b frm =>
      s.loose b frm || (heard (s.mesh.step l) b frm).isNone || heard (s.mesh.step l) b frm != heard s.mesh b frm⟩
  | .msg l => ⟨s.mesh, { s.net.step cfg l with tab := s.mesh.st }, s.loose⟩
  | .lose i =>
    match s.net.wire[i]? with
    | some x => if s.loose x.here x.frm then { s with net := { s.net with wire := s.net.wire.eraseIdx i } } else s
    | none => s
  | .loseSend i =>
    match s.net.pend[i]? with
    | some x => if s.loose x.here x.frm then { s with net := { s.net with pend := s.net.pend.eraseIdx i } } else s
    | none => s

/-- Any schedule. -/
def run (cfg : Broker.Cfg B σ) (s : Churn B σ) (ls : List (CLabel B)) : Churn B σ := ls.foldl (step cfg) s

/-- A mesh without messages. -/
def ofMesh (m : LNet Bytes B Topic) (hook : B → Dest B → σ) : Churn B σ :=
  ⟨m, Net.start m.st hook, fun b frm => (heard m b frm).isNone⟩

end Churn
end Verif

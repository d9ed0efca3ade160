import Verif.Model.AuthWorld
import Verif.Model.Sessions

/-!
# Everything a message passes: authentication, sessions, routing

Any number of marshals, brokers, users and others. `Model/AuthWorld` gives the authentication flows of all
processes and the discovery store; `Model/Sessions` gives the tasks and the table of every broker from the point
where a connection has been authenticated; `Model/Broker` gives the routing. Here they are put together: a
session of a broker begins when the flow run for its connection has returned (tasks/user/handler.rs:29-41,
tasks/broker/handler.rs:40-63), the frames its receive loop handles are those written to that connection, and
what the loop sends goes to the connection that the table of the broker names at that moment.

Simplifications: a frame sent to another broker arrives on any session that broker has with the sender (in the code:
on the other end of the same connection); sends and connections fail at any time (`drop`, `Sessions.Step`); that
both ends of a session between brokers are brokers of the model is what C37, C60 and C93 are about.
-/

namespace Verif.Realm
open Verif Verif.Auth Verif.Broker

/-- A frame. The number is bookkeeping of the model; the code sees only the bytes. -/
structure Frame where
  id : Nat
  raw : Bytes
deriving DecidableEq

/-- A frame that waits for the receive loop of session `conn` at broker `here`. -/
structure Item where
  here : BrokerId
  conn : Nat
  frame : Frame

/-- A send that the receive loop of session `conn` at broker `here` still has to perform. -/
structure Todo where
  here : BrokerId
  conn : Nat
  frame : Frame
  dest : Dest BrokerId

/-- All brokers, the frames under way, and the frames handed to the users' connections (broker, session, frame). -/
structure World (σ : Type) where
  st : BrokerId → Sessions.St BrokerId σ
  wire : List Item
  pend : List Todo
  inbox : List (BrokerId × Nat × Frame)

/-- What happens. -/
inductive Lab (L : Type) where
  /-- authentication and the discovery store, see `GEv` -/
  | auth (g : GEv L)
  /-- process `proc`, run by broker `b` for a new connection, has verified a user: `handle_user_connection` goes on with
  the key and the topics it returned -/
  | login (b : BrokerId) (proc : Nat) (key : Bytes) (topics : List Topic)
  /-- processes `verifier` and `prover`, run by broker `b` for a new connection, have verified a broker and been told its
  identifier: `handle_broker_connection` goes on with it -/
  | peer (b : BrokerId) (verifier prover : Nat) (b' : BrokerId)
  /-- the tasks of broker `b` make a step that handles no frame -/
  | task (b : BrokerId) (l : Sessions.Lab BrokerId)
  /-- whoever is at the other end of session `i` of broker `b`, a session of the user `key`, writes a frame -/
  | write (b : BrokerId) (i : Nat) (key : Bytes) (id : Nat) (raw : Bytes)
  /-- broker `b'` sends broker `b` a frame of its own; it arrives on session `i` of `b` -/
  | own (b' b : BrokerId) (i : Nat) (id : Nat) (raw : Bytes)
  /-- the receive loop of session `i` at broker `b` handles its next frame -/
  | take (b : BrokerId) (i : Nat)
  /-- the loop performs its next send, to a user, whose connection is that of session `j` -/
  | give (b : BrokerId) (i j : Nat)
  /-- the loop performs its next send, to broker `b'`; the frame arrives on session `j` of `b'` -/
  | pass (b : BrokerId) (i : Nat) (b' : BrokerId) (j : Nat)
  /-- the loop's next send fails, or there is no connection to send on -/
  | drop (b : BrokerId) (i : Nat)

variable {Pub Priv L σ : Type}

/-- The part of a history that is authentication and discovery. -/
def auths : List (Lab L) → List (GEv L)
  | [] => []
  | .auth g :: h => g :: auths h
  | _ :: h => auths h

/-- One broker changes. -/
def World.set (w : World σ) (b : BrokerId) (s : Sessions.St BrokerId σ) : World σ :=
  { w with st := fun x => if x = b then s else w.st x }

/-- The session of broker `b` is with user `u`. -/
def OfUser (w : World σ) (b : BrokerId) (i : Nat) (u : Bytes) : Prop :=
  ∃ x ts, (w.st b).sess[i]? = some x ∧ x.who = .user u ts

/-- The session of broker `b` is with broker `b'`. -/
def OfBroker (w : World σ) (b : BrokerId) (i : Nat) (b' : BrokerId) : Prop :=
  ∃ x, (w.st b).sess[i]? = some x ∧ x.who = .broker b'

/-- Where the receive loop of a session forwards a frame. -/
def routed (cfg : Cfg BrokerId σ) (t : Table BrokerId Nat) (hook : σ) (raw : Bytes) :
    Sessions.Who BrokerId → List (Dest BrokerId)
  | .user _ _ => (userRoute cfg t hook raw).2.1
  | .broker _ => (brokerRoute cfg t hook raw).2.1

/-- A broker's own frames are user and topic syncs (tasks/broker/sync.rs). -/
def IsSync (cfg : Cfg BrokerId σ) (raw : Bytes) : Prop :=
  ∃ d, cfg.decode raw = some (.userSync d) ∨ cfg.decode raw = some (.topicSync d)

/-- Steps of the tasks of a broker by which no session begins and no frame is handled. -/
def Inner : Sessions.Lab BrokerId → Prop
  | .connect _ => False
  | .frame _ _ => False
  | _ => True

/-- The steps; `past` is the history so far, `bkey` the key the brokers share. -/
inductive Step [DecidableEq Pub] (S : Scheme Pub Priv) (bkey : Pub) (cfg : Cfg BrokerId σ) (past : List (Lab L))
    (w : World σ) : Lab L → World σ → Prop
  | auth (g : GEv L) : Step S bkey cfg past w (.auth g) w
  /-- user/handler.rs:29-47: the flow has returned; topics are pruned, whatever `prune` says -/
  | login (b : BrokerId) (proc : Nat) (key : Bytes) (topics : List Topic) (s : Sessions.St BrokerId σ)
      (hrun : Exec (brokerVerifyUser S b) (proj proc (auths past)) (some (some (key, topics))))
      (honce : ∀ b' k ts, Lab.login b' proc k ts ∉ past)
      (h : Sessions.Step cfg (w.st b) (.connect (.user key (prune cfg.valid topics).1)) [] s) :
      Step S bkey cfg past w (.login b proc key topics) (w.set b s)
  /-- broker/handler.rs:40-63: both flows have returned -/
  | peer (b : BrokerId) (verifier prover : Nat) (sk : Priv) (b' : BrokerId) (s : Sessions.St BrokerId σ)
      (hv : Exec (brokerVerifyBroker S b bkey) (proj verifier (auths past)) (some (some ())))
      (hp : Exec (brokerWithBroker S bkey sk) (proj prover (auths past)) (some (some b')))
      (h : Sessions.Step cfg (w.st b) (.connect (.broker b')) [] s) :
      Step S bkey cfg past w (.peer b verifier prover b') (w.set b s)
  | task (b : BrokerId) (l : Sessions.Lab BrokerId) (os : List (TOp BrokerId Nat)) (s : Sessions.St BrokerId σ)
      (hl : Inner l) (h : Sessions.Step cfg (w.st b) l os s) : Step S bkey cfg past w (.task b l) (w.set b s)
  | write (b : BrokerId) (i : Nat) (key : Bytes) (id : Nat) (raw : Bytes) (h : OfUser w b i key) :
      Step S bkey cfg past w (.write b i key id raw) { w with wire := w.wire ++ [⟨b, i, ⟨id, raw⟩⟩] }
  | own (b' b : BrokerId) (i : Nat) (id : Nat) (raw : Bytes) (h : OfBroker w b i b') (hs : IsSync cfg raw) :
      Step S bkey cfg past w (.own b' b i id raw) { w with wire := w.wire ++ [⟨b, i, ⟨id, raw⟩⟩] }
  /-- user/handler.rs:105-161, broker/handler.rs:130-192: the next frame of this connection, when the sends of the one before are
  done -/
  | take (b : BrokerId) (i : Nat) (x : Sessions.Sess BrokerId σ) (f : Frame) (front back : List Item)
      (os : List (TOp BrokerId Nat)) (s : Sessions.St BrokerId σ)
      (hx : (w.st b).sess[i]? = some x) (hidle : ∀ t ∈ w.pend, ¬ (t.here = b ∧ t.conn = i))
      (hw : w.wire = front ++ ⟨b, i, f⟩ :: back) (hfirst : ∀ y ∈ front, ¬ (y.here = b ∧ y.conn = i))
      (h : Sessions.Step cfg (w.st b) (.frame i f.raw) os s) :
      Step S bkey cfg past w (.take b i)
        { w.set b s with
          wire := front ++ back
          pend := w.pend ++ (routed cfg (w.st b).table x.hook f.raw x.who).map (fun d => ⟨b, i, f, d⟩) }
  /-- user/sender.rs:16-32 -/
  | give (b : BrokerId) (i : Nat) (u : Bytes) (j : Nat) (f : Frame) (front back : List Todo)
      (hp : w.pend = front ++ ⟨b, i, f, .user u⟩ :: back) (hfirst : ∀ t ∈ front, ¬ (t.here = b ∧ t.conn = i))
      (hl : (w.st b).table.getUserConnection u = some j) :
      Step S bkey cfg past w (.give b i j) { w with pend := front ++ back, inbox := w.inbox ++ [(b, j, f)] }
  /-- broker/sender.rs:17-45 -/
  | pass (b : BrokerId) (i : Nat) (b' : BrokerId) (j c : Nat) (f : Frame) (front back : List Todo)
      (hp : w.pend = front ++ ⟨b, i, f, .broker b'⟩ :: back) (hfirst : ∀ t ∈ front, ¬ (t.here = b ∧ t.conn = i))
      (hl : (w.st b).table.getBrokerConnection b' = some c) (hj : OfBroker w b' j b) :
      Step S bkey cfg past w (.pass b i b' j)
        { w with pend := front ++ back, wire := w.wire ++ [⟨b', j, f⟩] }
  | drop (b : BrokerId) (i : Nat) (f : Frame) (d : Dest BrokerId) (front back : List Todo)
      (hp : w.pend = front ++ ⟨b, i, f, d⟩ :: back) (hfirst : ∀ t ∈ front, ¬ (t.here = b ∧ t.conn = i)) :
      Step S bkey cfg past w (.drop b i) { w with pend := front ++ back }

/-- Nobody is connected to anybody. -/
def World.new : World σ := ⟨Sessions.St.new, [], [], []⟩

/-- `Run … hist w`: `hist` can happen from the start on, and leads to `w`. -/
inductive Run [DecidableEq Pub] (S : Scheme Pub Priv) (bkey : Pub) (cfg : Cfg BrokerId σ) : List (Lab L) → World σ → Prop
  | nil : Run S bkey cfg [] World.new
  | snoc (hist : List (Lab L)) (w : World σ) (l : Lab L) (w' : World σ) (h : Run S bkey cfg hist w)
      (hs : Step S bkey cfg hist w l w') : Run S bkey cfg (hist ++ [l]) w'

end Verif.Realm

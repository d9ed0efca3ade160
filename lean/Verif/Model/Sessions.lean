import Verif.Model.Broker

/-!
# Model of the tasks of one broker

`handle_user_connection` (cdn-broker/src/tasks/user/handler.rs 26-91) and `handle_broker_connection`
(cdn-broker/src/tasks/broker/handler.rs 31-118), from the point where authentication has succeeded, with
the receive tasks they spawn, and the removals by failed sends (tasks/user/sender.rs, tasks/broker/sender.rs)
and by the whitelist task. Any number of connections; every step is one access to the shared table
(`Inner::connections`, a `parking_lot::RwLock`: taking it is not an await) or a move between two of them.

A session is one connection; its number also stands for the connection and for the abort handle of its
receive task (the token `H` of `Conns`).

`AbortHandle::abort` (tokio): a task that is suspended is never resumed; a task that is running goes on
until it suspends. So a receive task is `asleep` or `awake`, and waking needs that it was not aborted.
-/

namespace Verif.Sessions
open Verif Verif.Broker

/-- Whose connection it is. For a user: the key and the topics given at authentication, already pruned
(user/handler.rs:47). -/
inductive Who (B : Type) where
  | user (key : Bytes) (topics : List Topic)
  | broker (id : B)

/-- Where the connection handler is. -/
inductive HPt where
  /-- authenticated -/
  | fresh
  /-- the receive task was spawned: user/handler.rs:59, broker/handler.rs:71 -/
  | spawned
  /-- after `add_user` (user/handler.rs:74-76) or `add_broker` (broker/handler.rs:93-95) -/
  | registered
deriving DecidableEq

/-- Where the receive task is. -/
inductive LPt where
  | none
  /-- not running: not yet polled, or suspended at an await -/
  | asleep
  /-- running, in the receive loop -/
  | awake
  /-- the loop returned an error; before the removal (user/handler.rs:64-68, broker/handler.rs:83-87) -/
  | failed
  | done
deriving DecidableEq

/-- One connection. -/
structure Sess (B σ : Type) where
  who : Who B
  /-- state of the message hook of this connection -/
  hook : σ
  h : HPt
  l : LPt

/-- The broker. -/
structure St (B σ : Type) where
  table : Table B Nat
  sess : List (Sess B σ)
  /-- failed sends whose removal is still to come: between the `Err` and the `remove_user`/`remove_broker`
  of user/sender.rs:23-29 and broker/sender.rs:34-42 -/
  pend : List (Dest B)

section
variable {B σ : Type} [DecidableEq B] [LT B] [DecidableLT B]

/-- What a receive loop does with a frame, apart from forwarding. -/
inductive Act (B : Type) where
  /-- change the table -/
  | op (o : TOp B Nat)
  /-- nothing but forwarding -/
  | idle
  /-- return an error -/
  | fail

/-- user/handler.rs:105-161, without the forwarding; see `userFrame_act` (lemmas). -/
def userAct (cfg : Cfg B σ) (h : σ) (u raw : Bytes) : σ × Act B :=
  match cfg.decode raw with
  | none => (h, .fail)
  | some m =>
    let r := cfg.userHook h m
    match r.2.2 with
    | .skip => (r.1, .idle)
    | .error => (r.1, .fail)
    | .process =>
      match r.2.1 with
      | .direct _ _ => (r.1, .idle)
      | .broadcast topics _ => (r.1, if (prune cfg.valid topics).2 then .idle else .fail)
      | .subscribe topics =>
        (r.1, if (prune cfg.valid topics).2 then .op (.subscribeUser u (prune cfg.valid topics).1) else .fail)
      | .unsubscribe topics =>
        (r.1, if (prune cfg.valid topics).2 then .op (.unsubscribeUser u (prune cfg.valid topics).1) else .fail)
      | _ => (r.1, .fail)

/-- broker/handler.rs:130-192, without the forwarding; see `brokerFrame_act` (lemmas). -/
def brokerAct (cfg : Cfg B σ) (h : σ) (b : B) (raw : Bytes) : σ × Act B :=
  match cfg.decode raw with
  | none => (h, .fail)
  | some m =>
    let r := cfg.brokerHook h m
    match r.2.2 with
    | .skip => (r.1, .idle)
    | .error => (r.1, .fail)
    | .process =>
      match r.2.1 with
      | .userSync d =>
        match cfg.decUserSync d with
        | none => (r.1, .fail)
        | some m => (r.1, .op (.applyUserSync m))
      | .topicSync d =>
        match cfg.decTopicSync d with
        | none => (r.1, .fail)
        | some m => (r.1, .op (.applyTopicSync b m))
      | _ => (r.1, .idle)

def act (cfg : Cfg B σ) (h : σ) (raw : Bytes) : Who B → σ × Act B
  | .user key _ => userAct cfg h key raw
  | .broker id => brokerAct cfg h id raw

/-- `add_user` / `add_broker` for session `i`. -/
def Who.add (i : Nat) : Who B → TOp B Nat
  | .user key topics => .addUser key i topics
  | .broker id => .addBroker id i

/-- `remove_user` / `remove_broker`. -/
def Who.del : Who B → TOp B Nat
  | .user key _ => .removeUser key
  | .broker id => .removeBroker id

def delDest : Dest B → TOp B Nat
  | .user u => .removeUser u
  | .broker b => .removeBroker b

/-- The connection a destination is looked up to. -/
def lookup (t : Table B Nat) : Dest B → Option Nat
  | .user u => t.getUserConnection u
  | .broker b => t.getBrokerConnection b

/-- What the step is, for theorems to speak about. -/
inductive Lab (B : Type) where
  | connect (who : Who B)
  | spawn (i : Nat)
  | register (i : Nat)
  | wake (i : Nat)
  | sleep (i : Nat)
  | cancelled (i : Nat)
  /-- the receive loop of session `i` handles a frame -/
  | frame (i : Nat) (raw : Bytes)
  /-- receiving on connection `i` failed -/
  | recvErr (i : Nat)
  /-- the receive task of session `i` removes its user or broker -/
  | remove (i : Nat)
  /-- a send to `d` failed on connection `i` -/
  | sendErr (d : Dest B) (i : Nat)
  /-- and `d` is removed because of that -/
  | sendRemove (d : Dest B)
  /-- the whitelist task removes a user (broker/whitelist.rs) -/
  | kick (u : Bytes)
  /-- `partial_user_sync` and `partial_topic_sync` take what they send -/
  | userSync
  | topicSync

/-- Steps: label, calls on the table, new state. -/
inductive Step (cfg : Cfg B σ) (s : St B σ) : Lab B → List (TOp B Nat) → St B σ → Prop
  /-- a connection has been authenticated -/
  | connect (who : Who B) (hook : σ) :
      Step cfg s (.connect who) [] { s with sess := s.sess ++ [⟨who, hook, .fresh, .none⟩] }
  | spawn (i : Nat) (x : Sess B σ) (hx : s.sess[i]? = some x) (h : x.h = .fresh) :
      Step cfg s (.spawn i) [] { s with sess := s.sess.set i { x with h := .spawned, l := .asleep } }
  | register (i : Nat) (x : Sess B σ) (hx : s.sess[i]? = some x) (h : x.h = .spawned) :
      Step cfg s (.register i) [x.who.add i]
        { s with table := s.table.step (x.who.add i), sess := s.sess.set i { x with h := .registered } }
  | wake (i : Nat) (x : Sess B σ) (hx : s.sess[i]? = some x) (h : x.l = .asleep) (ha : i ∉ s.table.aborted) :
      Step cfg s (.wake i) [] { s with sess := s.sess.set i { x with l := .awake } }
  | sleep (i : Nat) (x : Sess B σ) (hx : s.sess[i]? = some x) (h : x.l = .awake) :
      Step cfg s (.sleep i) [] { s with sess := s.sess.set i { x with l := .asleep } }
  | cancelled (i : Nat) (x : Sess B σ) (hx : s.sess[i]? = some x) (h : x.l = .asleep)
      (ha : i ∈ s.table.aborted) :
      Step cfg s (.cancelled i) [] { s with sess := s.sess.set i { x with l := .done } }
  | frameOp (i : Nat) (x : Sess B σ) (hx : s.sess[i]? = some x) (h : x.l = .awake) (raw : Bytes)
      (hk : σ) (o : TOp B Nat) (ha : act cfg x.hook raw x.who = (hk, .op o)) :
      Step cfg s (.frame i raw) [o]
        { s with table := s.table.step o, sess := s.sess.set i { x with hook := hk } }
  | frameIdle (i : Nat) (x : Sess B σ) (hx : s.sess[i]? = some x) (h : x.l = .awake) (raw : Bytes)
      (hk : σ) (ha : act cfg x.hook raw x.who = (hk, .idle)) :
      Step cfg s (.frame i raw) [] { s with sess := s.sess.set i { x with hook := hk } }
  | frameFail (i : Nat) (x : Sess B σ) (hx : s.sess[i]? = some x) (h : x.l = .awake) (raw : Bytes)
      (hk : σ) (ha : act cfg x.hook raw x.who = (hk, .fail)) :
      Step cfg s (.frame i raw) [] { s with sess := s.sess.set i { x with hook := hk, l := .failed } }
  | recvErr (i : Nat) (x : Sess B σ) (hx : s.sess[i]? = some x) (h : x.l = .awake) :
      Step cfg s (.recvErr i) [] { s with sess := s.sess.set i { x with l := .failed } }
  | remove (i : Nat) (x : Sess B σ) (hx : s.sess[i]? = some x) (h : x.l = .failed) :
      Step cfg s (.remove i) [x.who.del]
        { s with table := s.table.step x.who.del, sess := s.sess.set i { x with l := .done } }
  | sendErr (d : Dest B) (i : Nat) (h : lookup s.table d = some i) :
      Step cfg s (.sendErr d i) [] { s with pend := d :: s.pend }
  | sendRemove (d : Dest B) (a b : List (Dest B)) (h : s.pend = a ++ d :: b) :
      Step cfg s (.sendRemove d) [delDest d]
        { s with table := s.table.step (delDest d), pend := a ++ b }
  | kick (u : Bytes) :
      Step cfg s (.kick u) [.removeUser u] { s with table := s.table.step (.removeUser u) }
  | userSync : Step cfg s .userSync [.partialUserSync] { s with table := s.table.step .partialUserSync }
  | topicSync : Step cfg s .topicSync [.partialTopicSync] { s with table := s.table.step .partialTopicSync }

/-- Any number of steps. -/
inductive Run (cfg : Cfg B σ) (s : St B σ) : List (Lab B) → List (TOp B Nat) → St B σ → Prop
  | nil : Run cfg s [] [] s
  | snoc (ls : List (Lab B)) (os : List (TOp B Nat)) (s1 : St B σ) (l : Lab B) (o : List (TOp B Nat))
      (s2 : St B σ) (h : Run cfg s ls os s1) (hs : Step cfg s1 l o s2) : Run cfg s (ls ++ [l]) (os ++ o) s2

/-- A broker that has just started. -/
def St.new (id : B) : St B σ := ⟨Conns.new id, [], []⟩

end
end Verif.Sessions

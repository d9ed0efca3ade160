import Verif.Util.AMap
import Verif.Model.Message

/-!
# Model of the elastic client, `cdn-client/src/lib.rs`

Any number of tasks call methods of one `Client`; `reconnect_if_needed` spawns reconnection tasks. A task is
at one of the points of `PC`; a step takes one task from one point to the next. Points lie between all
accesses to shared state (the two `RwLock`s, the semaphore `connecting_guard`, the mutex around the handle
of the reconnection task), so every interleaving on a multi-threaded runtime is a list of steps.

Guards are values owned by a task and dropped when it leaves their scope: who holds a lock is therefore
read off from the points. `connecting_guard` has one permit (line 192).

What happens on a connection (sending, receiving, connecting, authenticating) is left open: it may succeed
or fail at any time. A lock is granted to any task that asks for it while it is free; tokio grants in the
order of the requests, so its behaviours are among those modelled.
-/

namespace Verif.Client
open Verif

/-- The methods of `Client`, lines 295-476. (`send_broadcast_message` and `send_direct_message` call
`send_message`.) -/
inductive Op where
  | send (m : Msg)
  | recv
  | softClose
  /-- `ensure_initialized` -/
  | ensure
  /-- `subscribe` (`true`) and `unsubscribe` (`false`) -/
  | topics (add : Bool) (ts : List Topic)
  | close
deriving DecidableEq

/-- A call that is going to use the connection. -/
inductive Work where
  | send (m : Msg)
  | recv
  | softClose
  | ensure
  /-- `todo` is `topics_to_send`; the write guard of `subscribed_topics` is held -/
  | topics (add : Bool) (ts todo : List Topic)
deriving DecidableEq

def Work.op : Work → Op
  | .send m => .send m
  | .recv => .recv
  | .softClose => .softClose
  | .ensure => .ensure
  | .topics add ts _ => .topics add ts

/-- Does the call hold the write guard of `subscribed_topics`? -/
def Work.subs : Work → Bool
  | .topics _ _ _ => true
  | _ => false

/-- Where a task is. -/
inductive PC where
  /-- the task does not exist (yet) -/
  | idle
  /-- a method was called, nothing done yet -/
  | new (op : Op)
  /-- before `connection.read()` or `connection.try_read()`, lines 266 and 278 -/
  | ready (w : Work)
  /-- in `reconnect_if_needed`, with the read guard of `connection` -/
  | reading (w : Work)
  /-- the same, task `r` spawned but its handle not stored (between lines 213 and 241) -/
  | spawned (w : Work) (r : Nat)
  /-- sending, receiving or closing on connection `c` -/
  | using (w : Work) (c : Nat)
  /-- that failed, line 154 -/
  | failed (w : Work)
  /-- before `connection.write()`, line 157 -/
  | wantW (w : Work)
  /-- with the write guard of `connection`, line 157 -/
  | holdW (w : Work)
  /-- `connecting_guard.acquire()`, line 335 -/
  | ensureWait
  | ensureHold
  /-- in `close`: the guard is closed (line 467) -/
  | close1
  /-- the handle was taken (line 470-472); before `connection.write()` -/
  | close2
  /-- with the write guard of `connection`, line 475 -/
  | close3
  /-- reconnection task: before `connection.write()`, line 214 -/
  | rWait
  /-- line 217, about to call `connect` -/
  | rLoop
  /-- lines 229, 234 -/
  | rSleep
  /-- in `connect`, lines 87-106 -/
  | rConnecting
  /-- before `subscribed_topics.read()`, line 114 -/
  | rWantSubs
  /-- in `authenticate_with_broker`, lines 110-119; the read guard of `subscribed_topics` lives to the end
  of the statement -/
  | rAuth
  /-- `connect` returned connection `c` -/
  | rGot (c : Nat)
  /-- after line 222 -/
  | rSet
  /-- after line 238 `drop(permit)`; the write guard is dropped at the end of the block -/
  | rPermit
  | done
deriving DecidableEq

/-- The write guard of `connection` is held. -/
def PC.holdsW : PC → Bool
  | .holdW _ | .close3 | .rLoop | .rSleep | .rConnecting | .rWantSubs | .rAuth | .rGot _ | .rSet
  | .rPermit => true
  | _ => false

/-- A read guard of `connection` is held. -/
def PC.holdsR : PC → Bool
  | .reading _ | .spawned _ _ => true
  | _ => false

/-- The write guard of `subscribed_topics` is held. -/
def PC.holdsS : PC → Bool
  | .ready w | .reading w | .spawned w _ | .using w _ | .failed w | .wantW w | .holdW w => w.subs
  | _ => false

/-- A read guard of `subscribed_topics` is held. -/
def PC.readsS : PC → Bool
  | .rAuth => true
  | _ => false

/-- The permit of `connecting_guard` is held. -/
def PC.holdsP : PC → Bool
  | .ensureHold | .rWait | .rLoop | .rSleep | .rConnecting | .rWantSubs | .rAuth | .rGot _ | .rSet => true
  | _ => false

/-- The task waits for a write guard of `connection`. -/
def PC.waitsW : PC → Bool
  | .wantW _ | .close2 | .rWait => true
  | _ => false

/-- What can be observed. -/
inductive Ev where
  | called (t : Nat) (op : Op)
  /-- the call of task `t` returned; `ok` is whether `Ok` -/
  | returned (t : Nat) (op : Op) (ok : Bool)
  /-- a message was handed to connection `c` -/
  | sent (c : Nat) (m : Msg)
  /-- a reconnection task starts connecting, line 90 -/
  | connecting (t : Nat)
  /-- it authenticates with these topics -/
  | authWith (t : Nat) (ts : FSet Topic)
  /-- it has established connection `c` -/
  | connected (t c : Nat)
  /-- the connection `c` was dropped from the client by task `t` -/
  | dropped (t c : Nat)

/-- The client. -/
structure St where
  pc : Nat → PC
  /-- tasks so far -/
  n : Nat
  /-- `connecting_guard` was closed -/
  closed : Bool
  /-- `connection`; connections are numbered -/
  conn : Option Nat
  /-- connections made so far -/
  conns : Nat
  /-- `subscribed_topics` -/
  subs : FSet Topic
  /-- `reconnection_task` -/
  handle : Option Nat
  /-- `abort` was called -/
  aborted : Nat → Bool

/-- Lines 175-197 `Client::new`. -/
def St.new (topics : List Topic) : St :=
  ⟨fun _ => .idle, 0, false, none, 0, FSet.ofList topics, none, fun _ => false⟩

def upd {α : Type} (f : Nat → α) (t : Nat) (a : α) : Nat → α := fun u => if u = t then a else f u

namespace St

def goto (s : St) (t : Nat) (p : PC) : St := { s with pc := upd s.pc t p }

/-- No task is at such a point. -/
def Free (s : St) (P : PC → Bool) : Prop := ∀ t < s.n, P (s.pc t) = false

instance (s : St) (P : PC → Bool) : Decidable (s.Free P) := inferInstanceAs (Decidable (∀ t < s.n, _))

/-- Where a call goes when it has no connection or its use failed: `ensure_initialized` waits for the
permit (line 335), all others return an error. -/
def giveUp (s : St) (t : Nat) (w : Work) : St × List Ev :=
  match w with
  | .ensure => (s.goto t .ensureWait, [])
  | w => (s.goto t .done, [.returned t w.op false])

end St

/-- What a call sends (lines 300, 393-397, 427-431). -/
def Work.message : Work → List Msg
  | .send m => [m]
  | .topics true _ todo => [.subscribe todo]
  | .topics false _ todo => [.unsubscribe todo]
  | _ => []

/-- Lines 399-402, 433-436. -/
def Work.record (w : Work) (subs : FSet Topic) : FSet Topic :=
  match w with
  | .topics true _ todo => subs.insertMany todo
  | .topics false _ todo => subs.eraseMany todo
  | _ => subs

/-- Points of a method at which its future may be dropped by the caller (they are awaits). -/
def PC.awaits : PC → Option Op
  | .new (.topics add ts) => some (.topics add ts)
  | .ready .recv => some .recv
  | .using w _ | .wantW w => some w.op
  | .ensureWait => some .ensure
  | .close2 => some .close
  | _ => none

/-- Points of the reconnection task at which an abort takes effect (they are awaits). -/
def PC.abortable : PC → Bool
  | .rWait | .rSleep | .rConnecting | .rWantSubs | .rAuth => true
  | _ => false

/-- Steps of the client. -/
inductive Step (s : St) : List Ev → St → Prop
  /-- a method is called by a new task -/
  | call (op : Op) :
      Step s [.called s.n op] { s with pc := upd s.pc s.n (.new op), n := s.n + 1 }
  | sendNew (t : Nat) (m : Msg) (h : s.pc t = .new (.send m)) : Step s [] (s.goto t (.ready (.send m)))
  | recvNew (t : Nat) (h : s.pc t = .new .recv) : Step s [] (s.goto t (.ready .recv))
  | softNew (t : Nat) (h : s.pc t = .new .softClose) : Step s [] (s.goto t (.ready .softClose))
  /-- lines 323-327 -/
  | ensureNew (t : Nat) (h : s.pc t = .new .ensure) (ho : s.closed = false) :
      Step s [] (s.goto t (.ready .ensure))
  | ensureErr (t : Nat) (h : s.pc t = .new .ensure) (hc : s.closed = true) :
      Step s [.returned t .ensure false] (s.goto t .done)
  /-- lines 385-391, 419-425 -/
  | lockSubs (t : Nat) (add : Bool) (ts : List Topic) (h : s.pc t = .new (.topics add ts))
      (hw : s.Free PC.holdsS) (hr : s.Free PC.readsS) :
      Step s [] (s.goto t (.ready (.topics add ts (ts.filter fun x => decide (x ∈ s.subs) != add))))
  /-- the read guard is obtained, lines 266, 278 -/
  | read (t : Nat) (w : Work) (h : s.pc t = .ready w) (hw : s.Free PC.holdsW) :
      Step s [] (s.goto t (.reading w))
  /-- `try_read` fails (line 278) if a writer holds or awaits the lock; `receive_message` waits instead -/
  | noRead (t : Nat) (w : Work) (h : s.pc t = .ready w) (hw : w ≠ .recv)
      (u : Nat) (hu : u < s.n) (hb : (s.pc u).holdsW = true ∨ (s.pc u).waitsW = true) :
      Step s (s.giveUp t w).2 (s.giveUp t w).1
  /-- line 257, and 330-332 -/
  | found (t : Nat) (w : Work) (h : s.pc t = .reading w) (c : Nat) (hc : s.conn = some c) (he : w ≠ .ensure) :
      Step s [] (s.goto t (.using w c))
  | foundEnsure (t : Nat) (h : s.pc t = .reading .ensure) (c : Nat) (hc : s.conn = some c) :
      Step s [.returned t .ensure true] (s.goto t .done)
  /-- lines 209-213 -/
  | spawn (t : Nat) (w : Work) (h : s.pc t = .reading w) (hn : s.conn = none) (ho : s.closed = false)
      (hp : s.Free PC.holdsP) :
      Step s [] { s with pc := upd (upd s.pc t (.spawned w s.n)) s.n .rWait, n := s.n + 1 }
  /-- lines 243-254 -/
  | noSpawn (t : Nat) (w : Work) (h : s.pc t = .reading w) (hn : s.conn = none)
      (hb : s.closed = true ∨ ¬ s.Free PC.holdsP) :
      Step s (s.giveUp t w).2 (s.giveUp t w).1
  /-- line 241; the old handle is dropped, which aborts its task -/
  | store (t : Nat) (w : Work) (r : Nat) (h : s.pc t = .spawned w r) :
      Step s (s.giveUp t w).2
        { (s.giveUp t w).1 with
          handle := some r
          aborted := match s.handle with | some r0 => upd s.aborted r0 true | none => s.aborted }
  /-- the use of the connection succeeds; subscriptions are recorded -/
  | useOk (t : Nat) (w : Work) (c : Nat) (h : s.pc t = .using w c) :
      Step s (w.message.map (.sent c) ++ [.returned t w.op true])
        { s.goto t .done with subs := w.record s.subs }
  | useErr (t : Nat) (w : Work) (c : Nat) (h : s.pc t = .using w c) : Step s [] (s.goto t (.failed w))
  /-- line 154: the permit is not available -/
  | failBusy (t : Nat) (w : Work) (h : s.pc t = .failed w) (hp : ¬ s.Free PC.holdsP) :
      Step s [.returned t w.op false] (s.goto t .done)
  | failFree (t : Nat) (w : Work) (h : s.pc t = .failed w) (hp : s.Free PC.holdsP) :
      Step s [] (s.goto t (.wantW w))
  | lockW (t : Nat) (w : Work) (h : s.pc t = .wantW w) (hw : s.Free PC.holdsW) (hr : s.Free PC.holdsR) :
      Step s [] (s.goto t (.holdW w))
  /-- line 157 `take` -/
  | take (t : Nat) (w : Work) (h : s.pc t = .holdW w) :
      Step s ((s.conn.toList.map (.dropped t)) ++ [.returned t w.op false]) { s.goto t .done with conn := none }
  /-- line 335 -/
  | ensureAcq (t : Nat) (h : s.pc t = .ensureWait) (ho : s.closed = false) (hp : s.Free PC.holdsP) :
      Step s [] (s.goto t .ensureHold)
  | ensureRel (t : Nat) (h : s.pc t = .ensureHold) : Step s [.returned t .ensure true] (s.goto t .done)
  /-- `acquire` fails on a closed semaphore; the result is ignored -/
  | ensureShut (t : Nat) (h : s.pc t = .ensureWait) (hc : s.closed = true) :
      Step s [.returned t .ensure true] (s.goto t .done)
  /-- lines 464-476 -/
  | closeGuard (t : Nat) (h : s.pc t = .new .close) : Step s [] { s.goto t .close1 with closed := true }
  | closeAbort (t : Nat) (h : s.pc t = .close1) :
      Step s [] { s.goto t .close2 with
        handle := none
        aborted := match s.handle with | some r => upd s.aborted r true | none => s.aborted }
  | closeLock (t : Nat) (h : s.pc t = .close2) (hw : s.Free PC.holdsW) (hr : s.Free PC.holdsR) :
      Step s [] (s.goto t .close3)
  | closeTake (t : Nat) (h : s.pc t = .close3) :
      Step s ((s.conn.toList.map (.dropped t)) ++ [.returned t .close true])
        { s.goto t .done with conn := none }
  /-- the reconnection task, lines 213-239 -/
  | rLock (t : Nat) (h : s.pc t = .rWait) (hw : s.Free PC.holdsW) (hr : s.Free PC.holdsR) :
      Step s [] (s.goto t .rLoop)
  /-- lines 81-85 -/
  | rClosed (t : Nat) (h : s.pc t = .rLoop) (hc : s.closed = true) : Step s [] (s.goto t .rSleep)
  | rConnect (t : Nat) (h : s.pc t = .rLoop) (ho : s.closed = false) :
      Step s [.connecting t] (s.goto t .rConnecting)
  | rMarshal (t : Nat) (h : s.pc t = .rConnecting) : Step s [] (s.goto t .rWantSubs)
  /-- an error, or the timeout of line 219 -/
  | rFail (t : Nat) (h : s.pc t = .rConnecting ∨ s.pc t = .rWantSubs ∨ s.pc t = .rAuth) :
      Step s [] (s.goto t .rSleep)
  | rSubs (t : Nat) (h : s.pc t = .rWantSubs) (hw : s.Free PC.holdsS) :
      Step s [.authWith t s.subs] (s.goto t .rAuth)
  | rAuthOk (t : Nat) (h : s.pc t = .rAuth) :
      Step s [.connected t s.conns] { s.goto t (.rGot s.conns) with conns := s.conns + 1 }
  | rSet (t c : Nat) (h : s.pc t = .rGot c) : Step s [] { s.goto t .rSet with conn := some c }
  | rPermit (t : Nat) (h : s.pc t = .rSet) : Step s [] (s.goto t .rPermit)
  | rDone (t : Nat) (h : s.pc t = .rPermit) : Step s [] (s.goto t .done)
  | rWake (t : Nat) (h : s.pc t = .rSleep) : Step s [] (s.goto t .rLoop)
  | rAbort (t : Nat) (h : (s.pc t).abortable = true) (ha : s.aborted t = true) : Step s [] (s.goto t .done)
  /-- the caller drops the future of its call -/
  | cancel (t : Nat) (op : Op) (h : (s.pc t).awaits = some op) : Step s [] (s.goto t .done)

/-- Runs: any number of steps, with what was observed. -/
inductive Run (s : St) : List Ev → St → Prop
  | nil : Run s [] s
  | snoc (es : List Ev) (s1 : St) (es' : List Ev) (s2 : St) (h : Run s es s1) (hs : Step s1 es' s2) :
      Run s (es ++ es') s2

end Verif.Client

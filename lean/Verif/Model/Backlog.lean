import Verif.Model.Pool
import Verif.Model.Frame

/-!
# Model of the memory of a broker: pool, queues, loops

All connections of a broker share one memory pool (cdn-broker/src/lib.rs:241, `Limiter::new(global_memory_pool_size,
None)`). This model puts together what a message passes on its way through a broker and when its memory comes free.

* The receiver task of a connection reads a length, waits for memory, reads the body (at most five seconds) and puts the
  message into a channel (connection/protocols/mod.rs:189-209, 311-351). While it waits for memory or for a length there is
  no timeout; while it waits for memory it does not look at the stream.
* The receive loop takes messages from that channel and sends each to its destinations
  (tasks/user/handler.rs:105-161, tasks/broker/handler.rs:130-192). Channels are unbounded (`None` above), so sending does not
  wait. If the channel of a destination is closed, the destination is removed (tasks/user/sender.rs:16-32,
  tasks/broker/sender.rs:16-45).
* The sender task writes the messages of its channel to the stream, at most five seconds for the length and five for
  the body; if that fails it drops the message, closes the channel and ends (mod.rs:156-186). The messages left in the channel
  stay there until the connection itself is dropped (`async_channel`: closing a channel or dropping its receiver does not
  remove what is in it).
* A connection is dropped when it is removed from the table and its loop has ended or was aborted.
* A message's memory comes free when no channel, no loop and no task holds it (`Model/Pool`: C28).

Simplified: the first message of a connection stands for its authentication (tasks/user/handler.rs:29-41), during which
nothing is forwarded; which destinations a message has and which connections it makes the broker drop (an older connection
of the same user, users that moved to another broker) is arbitrary; removing a connection and dropping it are one step; the
memory of messages that nobody holds any more comes free in a step of its own. Messages made by the broker (syncs) need no
memory of the pool (tasks/broker/sync.rs:22-38, `from_unchecked`) and are left out.
-/

namespace Verif.Backlog
open Verif.Pool (Waiter assign)

/-- Where the receiver task of a connection is. -/
inductive Phase where
  /-- waits for a length, mod.rs:317 -/
  | header
  /-- waits for memory for message `m`, mod.rs:328 -/
  | waiting (m : Nat)
  /-- reads the body of message `m`, mod.rs:334-343 -/
  | body (m : Nat)
  | ended
deriving DecidableEq

/-- A connection. -/
structure Conn where
  /-- its user or broker is authenticated and in the table -/
  authed : Bool := false
  phase : Phase := .header
  /-- received, not handled yet -/
  inq : List Nat := []
  /-- the message the receive loop is sending, and where it still has to be sent -/
  fwd : Option (Nat × List Nat) := none
  /-- to be written; the first one is being written -/
  outq : List Nat := []
  /-- the sender task runs (and the channel is open) -/
  writer : Bool := true

/-- Does the connection hold message `m`? -/
def Conn.holds (k : Conn) (m : Nat) : Prop :=
  k.phase = .waiting m ∨ k.phase = .body m ∨ m ∈ k.inq ∨ (∃ ds, k.fwd = some (m, ds)) ∨ m ∈ k.outq

structure St where
  cap : Nat
  avail : Nat
  /-- requests that wait; `id` is the number of the message -/
  queue : List Waiter
  /-- messages that have memory, with their sizes -/
  live : List (Nat × Nat)
  conn : Nat → Option Conn
  next : Nat

/-- Number of bytes of a list of messages. -/
def bytes (l : List (Nat × Nat)) : Nat := (l.map Prod.snd).sum

/-- limiter/mod.rs, lib.rs:241 -/
def start (n : Nat) : St := ⟨n, n, [], [], fun _ => none, 0⟩

/-- Function update. -/
def upd {A : Type} (f : Nat → A) (i : Nat) (a : A) : Nat → A := fun x => if x = i then a else f x

/-- `k` bytes come free (`Pool.release`). -/
def St.release (s : St) (k : Nat) : St :=
  let r := assign k s.queue
  { s with avail := s.avail + r.1, queue := r.2.1, live := s.live ++ r.2.2.map fun w => (w.id, w.need) }

inductive Label where
  /-- a connection is accepted -/
  | connect (c : Nat)
  /-- the length of a message arrives -/
  | header (c n : Nat)
  /-- the memory for it is there -/
  | granted (c : Nat)
  /-- its body has arrived -/
  | body (c : Nat)
  /-- the stream ended or failed, or the body took too long -/
  | fail (c : Nat)
  /-- the receive loop starts to send its next message to `ds`, after it has dropped the connections `es` -/
  | take (c : Nat) (ds es : List Nat)
  /-- the receive loop refuses its next message -/
  | bad (c : Nat)
  /-- the receive loop sends to the next destination, or is done -/
  | send (c : Nat)
  /-- the receive loop learns that nothing more will come -/
  | noMore (c : Nat)
  /-- a message was written -/
  | written (c m : Nat)
  /-- writing failed or took too long -/
  | writeFail (c : Nat)
  /-- the whitelist task removes the user (tasks/broker/whitelist.rs), or the authentication took too long
  (tasks/user/handler.rs:29-41), or a sync could not be sent to the broker (tasks/broker/sync.rs, sender.rs) -/
  | kick (c : Nat)
  /-- the last handle on a message is gone -/
  | free (m : Nat)
  /-- a waiting request is dropped with its connection -/
  | cancel (m : Nat)

/-- Sending `m` to connection `d`. -/
def sendTo (conn : Nat → Option Conn) (m d : Nat) : Nat → Option Conn :=
  match conn d with
  | some k =>
    if k.authed then
      if k.writer then upd conn d (some { k with outq := k.outq ++ [m] })
      -- the channel is closed: removed
      else upd conn d none
    else conn
  | none => conn

/-- Connections `es` are dropped. -/
def dropAll (conn : Nat → Option Conn) (es : List Nat) : Nat → Option Conn :=
  fun x => if x ∈ es then none else conn x

/-- One step. -/
inductive Step : St → Label → St → Prop
  | connect (s c) : s.conn c = none → Step s (.connect c) { s with conn := upd s.conn c (some {}) }
  /-- mod.rs:316-328: there is enough memory -/
  | header (s c n k) : s.conn c = some k → k.phase = .header → n ≤ Frame.maxMessageSize → n ≤ s.avail →
      Step s (.header c n) { s with
        avail := s.avail - n, live := s.live ++ [(s.next, n)], next := s.next + 1
        conn := upd s.conn c (some { k with phase := .body s.next }) }
  /-- mod.rs:316-328: there is not; the request takes what there is and waits -/
  | wait (s c n k) : s.conn c = some k → k.phase = .header → n ≤ Frame.maxMessageSize → s.avail < n →
      Step s (.header c n) { s with
        avail := 0, queue := s.queue ++ [⟨s.next, n, s.avail⟩], next := s.next + 1
        conn := upd s.conn c (some { k with phase := .waiting s.next }) }
  | granted (s c k m) : s.conn c = some k → k.phase = .waiting m → m ∈ s.live.map Prod.fst →
      Step s (.granted c) { s with conn := upd s.conn c (some { k with phase := .body m }) }
  /-- mod.rs:331-350, 193-200 -/
  | body (s c k m) : s.conn c = some k → k.phase = .body m →
      Step s (.body c) { s with conn := upd s.conn c (some { k with phase := .header, inq := k.inq ++ [m] }) }
  /-- mod.rs:316-325, 334-342, 201-205 -/
  | fail (s c k) : s.conn c = some k → (k.phase = .header ∨ ∃ m, k.phase = .body m) →
      Step s (.fail c) { s with conn := upd s.conn c (some { k with phase := .ended }) }
  /-- tasks/user/handler.rs:105-161, tasks/broker/handler.rs:130-192. A message without bytes is not decoded. -/
  | take (s c k m q n ds es) : s.conn c = some k → k.fwd = none → k.inq = m :: q →
      (m, n) ∈ s.live → 0 < n → (k.authed = false → ds = []) → c ∉ es →
      Step s (.take c ds es) { s with
        conn := dropAll (upd s.conn c (some { k with authed := true, inq := q, fwd := some (m, ds) })) es }
  | bad (s c k m q) : s.conn c = some k → k.fwd = none → k.inq = m :: q →
      Step s (.bad c) { s with conn := upd s.conn c none }
  /-- tasks/broker/handler.rs:228-236, 252-271 -/
  | send (s c k m d ds) : s.conn c = some k → k.fwd = some (m, d :: ds) →
      Step s (.send c) { s with conn := sendTo (upd s.conn c (some { k with fwd := some (m, ds) })) m d }
  | sent (s c k m) : s.conn c = some k → k.fwd = some (m, []) →
      Step s (.send c) { s with conn := upd s.conn c (some { k with fwd := none }) }
  /-- mod.rs:274-281, tasks/user/handler.rs:59-71 -/
  | noMore (s c k) : s.conn c = some k → k.fwd = none → k.inq = [] → k.phase = .ended →
      Step s (.noMore c) { s with conn := upd s.conn c none }
  /-- mod.rs:158-175 -/
  | written (s c k m q) : s.conn c = some k → k.writer = true → k.outq = m :: q →
      Step s (.written c m) { s with conn := upd s.conn c (some { k with outq := q }) }
  /-- mod.rs:162-174 -/
  | writeFail (s c k m q) : s.conn c = some k → k.writer = true → k.outq = m :: q →
      Step s (.writeFail c) { s with conn := upd s.conn c (some { k with outq := q, writer := false }) }
  | kick (s c k) : s.conn c = some k → Step s (.kick c) { s with conn := upd s.conn c none }
  /-- pool.rs:37-52, 79-90 -/
  | free (s m n l1 l2) : s.live = l1 ++ (m, n) :: l2 → (∀ c k, s.conn c = some k → ¬ k.holds m) →
      Step s (.free m) ({ s with live := l1 ++ l2 }.release n)
  | cancel (s w q1 q2) : s.queue = q1 ++ w :: q2 → (∀ c k, s.conn c = some k → ¬ k.holds w.id) →
      Step s (.cancel w.id) ({ s with queue := q1 ++ q2 }.release w.got)

/-- Any number of steps. -/
inductive Run : St → List Label → St → Prop
  | nil (s) : Run s [] s
  | cons {s l s' ls s''} : Step s l s' → Run s' ls s'' → Run s (l :: ls) s''

end Verif.Backlog

import Verif.Util.AMap

/-!
# The in-memory transport

cdn-proto/src/connection/protocols/memory.rs. All `connect` and `bind` calls of one process share the table
`LISTENERS` (line 32) behind a tokio `RwLock`, which serves its waiters in order of arrival.

* `connect` (47-85) takes the lock for reading, looks the endpoint up, sends one end of a new stream to the
  listener and waits for a stream in return. The read guard is a local variable of the whole function, so the
  lock is held while it waits.
* `bind` (92-111) takes the lock for writing and enters a new listener.
* `accept` (149-172) takes the oldest stream sent to the listener, makes a stream of its own and sends one end
  back, over the one channel that all the `connect` calls for this listener are reading from.
* `Drop for MemoryListener` (176-187) hands `spawn_blocking` a closure that returns a future nobody awaits; the entry
  stays in the table. The listener's channel ends are dropped, so later `connect` calls for it fail.

Simplified: the steps of `accept` are one step (its channels are unbounded, so once there is a stream it does
not wait; a listener has one task that accepts, `cdn-broker/src/tasks/user/listener.rs:24-33`); what is sent over
the streams is `Model/Frame`. Binding an endpoint again drops the old listener's channels from the table, so its `accept`
fails once it has taken what was sent; such a failure is not modelled.
-/

namespace Verif

/-- Where a call of `connect` or `bind` is. -/
inductive MCall (E : Type) where
  /-- not made yet -/
  | fresh
  /-- waits for the lock (memory.rs:54) -/
  | reading (e : E)
  /-- has sent its stream to listener `l` and waits for one in return (memory.rs:74-78), holding the lock -/
  | waiting (l : Nat)
  /-- has a connection; the stream it received is the one made by the `a`-th `accept` -/
  | connected (a : Nat)
  /-- `bind` waits for the lock (memory.rs:102) -/
  | writing (e : E)
  | bound (l : Nat)
  | failed
  /-- the caller dropped the future -/
  | cancelled
deriving DecidableEq

/-- One process. -/
structure Mem (E : Type) where
  /-- `LISTENERS`: the listener entered last for an endpoint -/
  table : E → Option Nat
  /-- number of listeners made -/
  nl : Nat
  closed : Nat → Bool
  /-- `receive_new_connection` of a listener: the calls whose streams it has not taken -/
  inq : Nat → List Nat
  /-- `send_to_new_connection`: the accepts whose streams nobody has taken -/
  outq : Nat → List Nat
  /-- for each `accept` the call whose stream it took -/
  accepted : List Nat
  call : Nat → MCall E
  /-- calls waiting for the lock, in order of arrival -/
  queue : List Nat
  /-- history: the calls that sent a stream to a listener, in order -/
  sentTo : Nat → List Nat
  /-- history: the calls that received a stream from a listener, in order -/
  gotFrom : Nat → List Nat

inductive MemLabel (E : Type) where
  /-- `connect` is called -/
  | connect (i : Nat) (e : E)
  /-- `bind` is called -/
  | bind (i : Nat) (e : E)
  /-- the lock is given to the first call waiting for it -/
  | enter
  | accept (l : Nat)
  /-- call `i` receives a stream, or learns that there will be none -/
  | receive (i : Nat)
  /-- the caller of `i` gives up -/
  | cancel (i : Nat)
  /-- the listener is dropped -/
  | close (l : Nat)

namespace Mem
variable {E : Type} [DecidableEq E]

def start : Mem E := ⟨fun _ => none, 0, fun _ => false, fun _ => [], fun _ => [], [], fun _ => .fresh, [],
  fun _ => [], fun _ => []⟩

/-- Update of a function. -/
def upd {A : Type} (f : Nat → A) (i : Nat) (a : A) : Nat → A := fun x => if x = i then a else f x

/-- Does call `i` hold the lock (for reading)? -/
def holds (n : Mem E) (i : Nat) : Prop := ∃ l, n.call i = .waiting l

/-- One step. -/
inductive Step : Mem E → MemLabel E → Mem E → Prop
  /-- memory.rs:54 -/
  | connect (n i e) : n.call i = .fresh →
      Step n (.connect i e) { n with call := upd n.call i (.reading e), queue := n.queue ++ [i] }
  /-- memory.rs:102 -/
  | bind (n i e) : n.call i = .fresh →
      Step n (.bind i e) { n with call := upd n.call i (.writing e), queue := n.queue ++ [i] }
  /-- memory.rs:55-61: nobody listens there -/
  | refused (n i q e) : n.queue = i :: q → n.call i = .reading e → n.table e = none →
      Step n .enter { n with call := upd n.call i .failed, queue := q }
  /-- memory.rs:67-71: the channel is closed -/
  | dead (n i q e l) : n.queue = i :: q → n.call i = .reading e → n.table e = some l → n.closed l = true →
      Step n .enter { n with call := upd n.call i .failed, queue := q }
  /-- memory.rs:64-71 -/
  | enter (n i q e l) : n.queue = i :: q → n.call i = .reading e → n.table e = some l → n.closed l = false →
      Step n .enter { n with call := upd n.call i (.waiting l), queue := q, inq := upd n.inq l (n.inq l ++ [i]),
                             sentTo := upd n.sentTo l (n.sentTo l ++ [i]) }
  /-- memory.rs:98-110: only when nobody holds the lock -/
  | bound (n i q e) : n.queue = i :: q → n.call i = .writing e → (∀ j, ¬ n.holds j) →
      Step n .enter { n with call := upd n.call i (.bound n.nl), queue := q, nl := n.nl + 1,
                             table := fun x => if x = e then some n.nl else n.table x }
  /-- memory.rs:149-172 -/
  | accept (n l i q) : n.closed l = false → n.inq l = i :: q →
      Step n (.accept l) { n with inq := upd n.inq l q, accepted := n.accepted ++ [i],
                                  outq := upd n.outq l (n.outq l ++ [n.accepted.length]) }
  /-- memory.rs:74-84: whichever waiting call comes first -/
  | receive (n i l a q) : n.call i = .waiting l → n.outq l = a :: q →
      Step n (.receive i) { n with call := upd n.call i (.connected a), outq := upd n.outq l q,
                                   gotFrom := upd n.gotFrom l (n.gotFrom l ++ [i]) }
  /-- memory.rs:74-78: the listener is gone and nothing is left in the channel -/
  | noReply (n i l) : n.call i = .waiting l → n.outq l = [] → n.closed l = true →
      Step n (.receive i) { n with call := upd n.call i .failed }
  /-- the future is dropped: it leaves the queue of the lock, or releases the lock -/
  | cancel (n i) : (∃ e, n.call i = .reading e ∨ n.call i = .writing e) ∨ n.holds i →
      Step n (.cancel i) { n with call := upd n.call i .cancelled, queue := n.queue.filter (· ≠ i) }
  /-- memory.rs:176-187 -/
  | close (n l) : l < n.nl → Step n (.close l) { n with closed := upd n.closed l true, inq := upd n.inq l [] }

/-- Any number of steps. -/
inductive Run : Mem E → List (MemLabel E) → Mem E → Prop
  | nil (n) : Run n [] n
  | cons {n l n' ls n''} : Step n l n' → Run n' ls n'' → Run n (l :: ls) n''

end Mem
end Verif

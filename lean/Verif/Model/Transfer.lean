/-!
# One direction of a connection, with time

Models how long the transfer of a message may take: `cdn-proto/src/connection/protocols/mod.rs`, the sender task (156-186) with
`write_length_delimited` (354-395), and the receiver task (189-209) with `read_length_delimited` (311-351). What the bytes are
is `Model/Frame`; here only their number matters.

Between the two tasks is a transport (TCP): `out` bytes have been written and not been carried yet, at most `outCap`; `inn` bytes
have been carried and not been read yet, at most `inCap`; at most `rate` bytes are carried in a millisecond.

* Writing the length and writing the message may take `limit` (five seconds) each; so may reading the message. Waiting for a
  length and waiting for memory have no limit.
* A timeout fires when the time has come and the task cannot go on (`tokio::time::timeout` polls the operation first). The
  runtime resumes a task at most `late` milliseconds after that.

Simplified: `flush` does nothing (true of TCP); the receiver's channel always has room; messages that are too large
(`Model/Frame`) and connections that fail for other reasons are left out.
-/

namespace Verif.Transfer

structure Cfg where
  outCap : Nat
  inCap : Nat
  rate : Nat
  /-- five seconds in the code -/
  limit : Nat
  late : Nat

/-- The sender task. -/
inductive Snd where
  /-- mod.rs:158, waiting for the next message -/
  | ready
  /-- mod.rs:366-374: so many bytes of the length are left; then the message, of this size -/
  | header (left : Nat) (due : Nat) (size : Nat)
  /-- mod.rs:377-385 -/
  | body (left : Nat) (due : Nat)
  /-- mod.rs:162-166: given up, with so many bytes of a message left -/
  | ended (lost : Nat)
deriving DecidableEq

/-- The receiver task. -/
inductive Rcv where
  /-- mod.rs:316-320: so many bytes of the length have been read -/
  | header (got : Nat)
  /-- mod.rs:328: waiting for memory since `asked` -/
  | alloc (size : Nat) (asked : Nat)
  /-- mod.rs:334-342: so many bytes are left; memory was granted at `granted` -/
  | body (size left asked granted : Nat)
  /-- mod.rs:201-205 -/
  | ended
deriving DecidableEq

/-- A message that was received. -/
structure Got where
  size : Nat
  /-- when memory was asked for: its length had been read -/
  asked : Nat
  granted : Nat
  done : Nat
deriving DecidableEq

structure St where
  now : Nat
  /-- sizes of the messages in the sender's channel -/
  todo : List Nat
  snd : Snd
  /-- sizes of the messages of which something has been written and whose length has not been read entirely -/
  wire : List Nat
  out : Nat
  /-- bytes that can still be carried in this millisecond -/
  credit : Nat
  inn : Nat
  rcv : Rcv
  got : List Got
deriving DecidableEq

def init : St := ⟨0, [], .ready, [], 0, 0, 0, .header 0, []⟩

inductive Label where
  /-- `send_message_raw` (mod.rs:239-252) -/
  | submit (n : Nat)
  | begin
  | write (k : Nat)
  | carry (k : Nat)
  | read (k : Nat)
  | grant
  | deliver
  | sndTimeout
  | rcvTimeout
  | tick
deriving DecidableEq

/-- What becomes of the sender when `k` bytes have been written at time `now`. -/
def Snd.write (c : Cfg) (now k : Nat) : Snd → Snd
  | .header left due n => if k < left then .header (left - k) due n else if n = 0 then .ready else .body n (now + c.limit)
  | .body left due => if k < left then .body (left - k) due else .ready
  | s => s

/-- How much the sender could write. -/
def Snd.left : Snd → Nat
  | .header left _ _ => left
  | .body left _ => left
  | _ => 0

/-- How many bytes of the message being written are left. -/
def Snd.rest : Snd → Nat
  | .header left _ n => left + n
  | .body left _ => left
  | .ended lost => lost
  | .ready => 0

def Snd.due : Snd → Option Nat
  | .header _ due _ => some due
  | .body _ due => some due
  | _ => none

def Rcv.due (c : Cfg) : Rcv → Option Nat
  | .body _ _ _ granted => some (granted + c.limit)
  | _ => none

/-- The steps. `begin`: mod.rs:158-162 and 366-374. `write`: the writes inside `write_u32` and `write_all`; the one that completes
the length starts the time of the message at once, without waiting in between. `carry`: the network. `readHeader`, `readLength`,
`readBody`: the reads inside `read_u32` and `read_exact`. `grant`: `allocate_message_bytes` (mod.rs:328) returns. `deliver`:
mod.rs:194-199. -/
inductive Step (c : Cfg) (s : St) : Label → St → Prop
  | submit (n : Nat) : Step c s (.submit n) { s with todo := s.todo ++ [n] }
  | begin (n : Nat) (rest : List Nat) (ht : s.todo = n :: rest) (hs : s.snd = .ready) :
      Step c s .begin { s with todo := rest, snd := .header 4 (s.now + c.limit) n, wire := s.wire ++ [n] }
  | write (k : Nat) (h0 : 0 < k) (hk : k ≤ s.snd.left) (ho : s.out + k ≤ c.outCap) :
      Step c s (.write k) { s with snd := s.snd.write c s.now k, out := s.out + k }
  | carry (k : Nat) (h0 : 0 < k) (hk : k ≤ s.out) (hc : k ≤ s.credit) (hi : s.inn + k ≤ c.inCap) :
      Step c s (.carry k) { s with out := s.out - k, credit := s.credit - k, inn := s.inn + k }
  | readHeader (k g : Nat) (h0 : 0 < k) (hk : k ≤ s.inn) (hr : s.rcv = .header g) (hg : g + k < 4) :
      Step c s (.read k) { s with inn := s.inn - k, rcv := .header (g + k) }
  | readLength (k g n : Nat) (rest : List Nat) (h0 : 0 < k) (hk : k ≤ s.inn) (hr : s.rcv = .header g) (hg : g + k = 4)
      (hw : s.wire = n :: rest) :
      Step c s (.read k) { s with inn := s.inn - k, rcv := .alloc n s.now, wire := rest }
  | grant (n a : Nat) (hr : s.rcv = .alloc n a) : Step c s .grant { s with rcv := .body n n a s.now }
  | readBody (k n l a g : Nat) (h0 : 0 < k) (hk : k ≤ s.inn) (hr : s.rcv = .body n l a g) (hl : k ≤ l) :
      Step c s (.read k) { s with inn := s.inn - k, rcv := .body n (l - k) a g }
  | deliver (n a g : Nat) (hr : s.rcv = .body n 0 a g) :
      Step c s .deliver { s with rcv := .header 0, got := s.got ++ [⟨n, a, g, s.now⟩] }
  | sndTimeout (d : Nat) (hd : s.snd.due = some d) (ht : d ≤ s.now) (ho : s.out = c.outCap) :
      Step c s .sndTimeout { s with snd := .ended s.snd.rest }
  | rcvTimeout (n l a g : Nat) (hr : s.rcv = .body n l a g) (hl : 0 < l) (ht : g + c.limit ≤ s.now) (hi : s.inn = 0) :
      Step c s .rcvTimeout { s with rcv := .ended }
  | tick (h1 : ∀ d, s.snd.due = some d → s.now < d + c.late) (h2 : ∀ d, s.rcv.due c = some d → s.now < d + c.late) :
      Step c s .tick { s with now := s.now + 1, credit := c.rate }

inductive Run (c : Cfg) (s : St) : List Label → St → Prop
  | nil : Run c s [] s
  | snoc {ls : List Label} {s1 : St} {l : Label} {s2 : St} (h : Run c s ls s1) (hs : Step c s1 l s2) : Run c s (ls ++ [l]) s2

/-- The sizes of the messages handed to the sender. -/
def submitted (ls : List Label) : List Nat :=
  ls.filterMap fun l => match l with
    | .submit n => some n
    | _ => none

/-- Nobody can do anything except hand over a message, or wait. -/
def Quiet (c : Cfg) (s : St) : Prop := ∀ l s', Step c s l s' → l = .tick ∨ ∃ n, l = .submit n

/-- Runs in which time passes only when nobody can do anything. -/
inductive Prompt (c : Cfg) (s : St) : List Label → St → Prop
  | nil : Prompt c s [] s
  | snoc {ls : List Label} {s1 : St} {l : Label} {s2 : St} (h : Prompt c s ls s1) (hs : Step c s1 l s2)
      (hq : l = .tick → Quiet c s1) : Prompt c s (ls ++ [l]) s2

/-- A connection on which messages of size up to `M` can be sent in time. -/
structure Fast (c : Cfg) (M : Nat) : Prop where
  out : 0 < c.outCap
  inn : 0 < c.inCap
  len : 4 ≤ M
  rate : 0 < c.rate
  size : M + c.rate ≤ c.rate * c.limit

end Verif.Transfer

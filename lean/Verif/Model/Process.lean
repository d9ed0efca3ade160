/-!
# The life of a process: accepting connections

Models what decides whether a broker or a marshal keeps running:

* `cdn-broker/src/lib.rs:269-320` `Broker::start`: five tasks; when one of them ends, `start` returns `Err(Exited)`;
* `cdn-broker/src/tasks/user/listener.rs:22-46`, `tasks/broker/listener.rs:22-46`: the listener loops; a failed `accept` ends
  the task (`return`), although the comment says "print the error and keep going";
* `cdn-marshal/src/lib.rs:151-178` `Marshal::start`: the same with `bail!`, although its documentation says that it does not
  ever return an error;
* `cdn-proto/src/connection/protocols/{tcp,tcp_tls}.rs` `accept`, `finalize` (TLS handshake: five seconds);
* `cdn-broker/src/tasks/user/handler.rs:26-91`, `tasks/broker/handler.rs:31-118`, `cdn-marshal/src/handlers.rs:21-37`: five
  seconds for authentication, then registration (broker), or `soft_close` (marshal).

Each accepted connection needs one file descriptor; the operating system refuses to accept a connection when there is none
left (`EMFILE`, `ENFILE`), and `accept` then fails. Every other failure of `accept` (including `set_nodelay`) is the label
`osError`.

Simplified: only descriptors of incoming connections count. A connection that a newer one of the same key replaces is closed
at once. Connections outlive `start` (their tasks are detached, and only the five tasks are aborted), unless the process
ends, as it does in the binaries (`binaries/broker.rs:128`, `binaries/marshal.rs:83`).
-/

namespace Verif.Process

/-- Where the task of a connection is, with the time at which its timeout fires. -/
inductive Phase where
  /-- `finalize` (listener.rs:37; tcp_tls.rs:191-205). -/
  | fin (deadline : Nat)
  /-- Authentication (user/handler.rs:29-41, broker/handler.rs:40-63, cdn-marshal/src/handlers.rs:26-33). -/
  | auth (deadline : Nat)
  /-- The marshal's `soft_close` (cdn-marshal/src/handlers.rs:36). -/
  | closing (deadline : Nat)
  /-- In the table of the broker under this key (user/handler.rs:74-76, broker/handler.rs:93-95). -/
  | reg (key : Nat)

/-- The deadline, if there is one. -/
def Phase.deadline : Phase → Option Nat
  | .fin d => some d
  | .auth d => some d
  | .closing d => some d
  | .reg _ => none

/-- The key, if it is registered. -/
def Phase.key : Phase → Option Nat
  | .reg k => some k
  | _ => none

/-- An accepted connection; `since` is the time at which it was accepted. -/
structure Task where
  id : Nat
  since : Nat
  phase : Phase

/-- Limits: descriptors for connections, and durations (five seconds each in the code; `closeD` is how long a `soft_close` takes,
which the code does not limit). `late` is how late the runtime may be. -/
structure Cfg where
  limit : Nat
  finD : Nat
  authD : Nat
  closeD : Nat
  late : Nat

/-- `up`: `start` has not returned. -/
structure St where
  now : Nat
  up : Bool
  tasks : List Task

def init : St := ⟨0, true, []⟩

/-- What happens. -/
inductive Label where
  | tick
  /-- A peer connects (to either listener). -/
  | arrive (id : Nat)
  /-- `accept` fails for another reason. -/
  | osError
  /-- `finalize` succeeds. -/
  | finalized (id : Nat)
  /-- Authentication succeeds, for this key. -/
  | registered (id key : Nat)
  /-- The marshal has verified (or refused) the user and closes. -/
  | answered (id : Nat)
  /-- The task ends or its connection is removed, for whatever reason: handshake or authentication failed or timed out, the
  peer is gone, it was kicked, the task panicked. -/
  | ended (id : Nat)

/-- One step. -/
inductive Step (c : Cfg) : St → Label → St → Prop where
  /-- Time passes; timeouts fire at most `late` too late. -/
  | tick (s : St) (h : ∀ t ∈ s.tasks, ∀ d, t.phase.deadline = some d → s.now < d + c.late) :
      Step c s .tick { s with now := s.now + 1 }
  /-- listener.rs:23-45, cdn-marshal/src/lib.rs:158-177: accepted, and a task is spawned. -/
  | accept (s : St) (id : Nat) (hu : s.up = true) (hf : ∀ t ∈ s.tasks, t.id ≠ id) (hl : s.tasks.length < c.limit) :
      Step c s (.arrive id) { s with tasks := ⟨id, s.now, .fin (s.now + c.finD)⟩ :: s.tasks }
  /-- listener.rs:27-30, cdn-marshal/src/lib.rs:160-164 and lib.rs:302-318: no descriptor left; the listener ends, `start` returns. -/
  | refuse (s : St) (id : Nat) (hu : s.up = true) (hl : c.limit ≤ s.tasks.length) :
      Step c s (.arrive id) { s with up := false }
  | osError (s : St) (hu : s.up = true) : Step c s .osError { s with up := false }
  /-- listener.rs:37-43. -/
  | finalized (s : St) (id since d : Nat) (p q : List Task) (h : s.tasks = p ++ ⟨id, since, .fin d⟩ :: q) :
      Step c s (.finalized id) { s with tasks := p ++ ⟨id, since, .auth (s.now + c.authD)⟩ :: q }
  /-- user/handler.rs:74-76, broker/handler.rs:93-95; the table holds one connection per key (`Model/Connections`). -/
  | registered (s : St) (id key since d : Nat) (p q : List Task) (h : s.tasks = p ++ ⟨id, since, .auth d⟩ :: q) :
      Step c s (.registered id key)
        { s with tasks := p.filter (fun t => t.phase.key != some key) ++ ⟨id, since, .reg key⟩ ::
            q.filter (fun t => t.phase.key != some key) }
  /-- cdn-marshal/src/handlers.rs:26-36. -/
  | answered (s : St) (id since d : Nat) (p q : List Task) (h : s.tasks = p ++ ⟨id, since, .auth d⟩ :: q) :
      Step c s (.answered id) { s with tasks := p ++ ⟨id, since, .closing (s.now + c.closeD)⟩ :: q }
  | ended (s : St) (t : Task) (p q : List Task) (h : s.tasks = p ++ t :: q) :
      Step c s (.ended t.id) { s with tasks := p ++ q }

/-- Runs; the last label is the latest. -/
inductive Run (c : Cfg) : St → List Label → St → Prop where
  | nil (s : St) : Run c s [] s
  | snoc {s s' s'' : St} {ls : List Label} {l : Label} : Run c s ls s' → Step c s' l s'' → Run c s (ls ++ [l]) s''

end Verif.Process

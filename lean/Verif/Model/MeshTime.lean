import Verif.Model.Mesh

/-!
# Model of the sync tasks of a mesh, with time

`Model/Mesh` together with a clock. `tasks/broker/sync.rs:127-144`: a broker starts a partial user sync, then a partial
topic sync, sleeps for ten seconds and starts again. The handler of a new broker connection takes the full topic sync right after registering it
(`tasks/broker/handler.rs:93-117`). A sync puts its message into the channels of the connections one after the other
(`tasks/broker/sender.rs:48-58`; the channels of a broker are unbounded, `cdn-broker/src/lib.rs:241`, so this does not wait
for the network). A message put into a channel is written, read and handled by the other broker.

How long each of this takes at most is a parameter. Time goes on only if nothing is overdue.
-/

namespace Verif

/-- Bounds, in milliseconds: between two partial user syncs of a broker, or two partial topic syncs (ten seconds, plus
what the syncs and the runtime take), from registering a broker to its full topic sync, for a sync to send to all brokers, from sending a
message to a broker to its being handled there. -/
structure Delays where
  sync : Nat
  full : Nat
  send : Nat
  link : Nat

/-- A mesh with the time by which each thing that is to happen will have happened. -/
structure TNet (U B T H : Type) where
  n : MNet U B T H
  now : Nat
  /-- the next partial topic sync of a broker -/
  syncDue : B → Nat
  /-- the next partial user sync of a broker -/
  usyncDue : B → Nat
  /-- the full topic sync of the first broker for the second, if there is one to be done -/
  fullDue : B → B → Nat
  /-- the last send of the `i`-th sync -/
  taskDue : List Nat
  /-- the handling of each message from the first broker to the second -/
  chDue : B → B → List Nat

inductive TLabel (U B T H : Type) where
  /-- time passes -/
  | tick (d : Nat)
  | ev (l : MLabel U B T H)

namespace TNet
variable {U B T H : Type} [DecidableEq U] [DecidableEq B] [DecidableEq T] [DecidableEq H]
  [LT B] [DecidableLT B]

/-- All brokers freshly started. -/
def start (δ : Delays) : TNet U B T H :=
  ⟨MNet.start, 0, fun _ => δ.sync, fun _ => δ.sync, fun _ _ => 0, [], fun _ _ => []⟩

/-- Times of the messages of a queue that had `len` messages and has `len'` now: messages have been added at the end,
or the queue has been discarded. -/
def requeue (old : List Nat) (len len' due : Nat) : List Nat :=
  if len' < len then [] else old ++ List.replicate (len' - len) due

/-- Something happens (`MNet.step`); what is to follow from it is to be done in time. -/
def after (δ : Delays) (s : TNet U B T H) (l : MLabel U B T H) : TNet U B T H :=
  let n' := s.n.step l
  { n := n'
    now := s.now
    syncDue := match l with
      | .startTopic b | .restart b => fun x => if x = b then s.now + δ.sync else s.syncDue x
      | _ => s.syncDue
    usyncDue := match l with
      | .startUser b | .restart b => fun x => if x = b then s.now + δ.sync else s.usyncDue x
      | _ => s.usyncDue
    fullDue := match l with
      | .linkUp b b' _ _ => fun x y =>
          if x = b ∧ y = b' ∨ x = b' ∧ y = b then s.now + δ.full else s.fullDue x y
      | _ => s.fullDue
    taskDue := match l with
      | .restart b => ((s.n.tasks.zip s.taskDue).filter (fun p => p.1.here ≠ b)).map (·.2)
      | _ => s.taskDue ++ List.replicate (n'.tasks.length - s.n.tasks.length) (s.now + δ.send)
    chDue := fun x y => match l with
      | .deliver _ _ => (s.chDue x y).drop ((s.n.ch x y).length - (n'.ch x y).length)
      | _ => requeue (s.chDue x y) (s.n.ch x y).length (n'.ch x y).length (s.now + δ.link) }

/-- Nothing is overdue at time `t`. A broker that has not registered a peer does not handle messages from it. -/
structure InTime (s : TNet U B T H) (t : Nat) : Prop where
  sync : ∀ b, t ≤ s.syncDue b
  usync : ∀ b, t ≤ s.usyncDue b
  full : ∀ b b', (b, b') ∈ s.n.fullT → t ≤ s.fullDue b b'
  task : ∀ (i : Nat) (τ : SyncTask U B T) (e : Nat), s.n.tasks[i]? = some τ → τ.dests ≠ some [] → s.taskDue[i]? = some e → t ≤ e
  ch : ∀ b b', s.n.knows b' b = true → ∀ e ∈ s.chDue b b', t ≤ e

inductive Step (δ : Delays) : TNet U B T H → TLabel U B T H → TNet U B T H → Prop
  | tick (s : TNet U B T H) (d : Nat) (h : s.InTime (s.now + d)) : Step δ s (.tick d) { s with now := s.now + d }
  | ev (s : TNet U B T H) (l : MLabel U B T H) : Step δ s (.ev l) (s.after δ l)

/-- Any number of steps. -/
inductive Run (δ : Delays) : TNet U B T H → List (TLabel U B T H) → TNet U B T H → Prop
  | nil (s : TNet U B T H) : Run δ s [] s
  | snoc {s s' s'' : TNet U B T H} {ls : List (TLabel U B T H)} {l : TLabel U B T H} (h : Run δ s ls s')
      (hs : Step δ s' l s'') : Run δ s (ls ++ [l]) s''

end TNet
end Verif

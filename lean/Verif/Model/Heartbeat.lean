import Verif.Model.Discovery
import Verif.Props.DiscoverySpec

/-!
# The heartbeat loops of several brokers, with time

`cdn-broker/src/tasks/broker/heartbeat.rs:28-109` for any number of brokers on one discovery store. Times are
milliseconds of one clock: the server's for Redis, and for the Embedded store, a local file, that of the machine.

A call that has returned an error or run into its timeout has no effect on the store afterwards (it may have had one
before). The tokio runtime resumes a task at most `late` milliseconds after what it waits for, or its timeout, is due.
What the store does for others (permits, whitelist, marshals asking) may happen at any time.
-/

namespace Verif.Hb
open Verif Verif.Disc

/-- Where a heartbeat loop is. -/
inductive Pc where
  /-- heartbeat.rs:34-41: `perform_heartbeat(num)` was called at time `t`; `wrote`: it has updated the store -/
  | beat (t num : Nat) (wrote : Bool)
  /-- heartbeat.rs:53-55: `get_other_brokers` was called at `t`; `seen`: what the store answered -/
  | list (t : Nat) (seen : Option (Option (List BrokerId)))
  /-- heartbeat.rs:108 -/
  | sleep (t : Nat)
deriving DecidableEq

/-- When the loop leaves this point at the latest: the timeouts at heartbeat.rs:37 and 55, the sleep at 108. -/
def Pc.due (late : Nat) : Pc → Nat
  | .beat t _ _ => t + 5000 + late
  | .list t _ => t + 5000 + late
  | .sleep t => t + 10000 + late

/-- A discovery store as the loops use it. -/
structure Backend (L : Type) where
  /-- `perform_heartbeat` by a broker with a load, a duration and the clock -/
  put : BrokerId → Nat → Nat → Nat → L
  /-- the removal of what has expired that comes with a listing -/
  expire : Nat → L
  /-- `get_other_brokers` by a broker, after a history, at a time -/
  others : List L → BrokerId → Nat → Option (List BrokerId)
  /-- the step did not read a clock later than this -/
  before : Nat → L → Prop
  /-- identifiers without slashes -/
  ok : L → Prop

/-- SQLite. -/
def embedded (global : Bool) : Backend ELabel where
  put := .putBroker
  expire := .pruneBrokers
  others ls b now := ((Emb.new.run global ls).1.others b now).2
  before := EBefore
  ok := ELabel.Ok

/-- Redis. -/
def redis (global : Bool) : Backend RLabel where
  put := .heartbeat
  expire := .expire
  others ls b now := (Redis.new.run global ls).1.others b now
  before := RBefore
  ok := RLabel.Ok

inductive Ev (L : Type) where
  /-- the broker starts; it has `num` users (heartbeat.rs:34) -/
  | start (b : BrokerId) (num : Nat)
  /-- its `perform_heartbeat` updates the store; `c` is the clock it read -/
  | write (b : BrokerId) (c : Nat)
  /-- `perform_heartbeat` returns, with success, or an error or timeout -/
  | beatDone (b : BrokerId) (ok : Bool)
  /-- `get_other_brokers` reads the store -/
  | query (b : BrokerId)
  /-- it returns; the broker is connected to `conn` and dials `dialled` -/
  | listed (b : BrokerId) (conn dialled : List BrokerId)
  /-- it returns an error or times out; the next heartbeat reports `num` -/
  | listFailed (b : BrokerId) (num : Nat)
  /-- the sleep is over; the next heartbeat reports `num` -/
  | wake (b : BrokerId) (num : Nat)
  /-- the broker's process ends -/
  | stop (b : BrokerId)
  /-- a step on the store that is not a heartbeat -/
  | store (l : L)
  /-- time passes -/
  | tick

structure World (L : Type) where
  time : Nat
  pc : BrokerId → Option Pc
  /-- the steps on the store, in order -/
  hist : List L

variable {L : Type}

def World.init : World L := ⟨0, fun _ => none, []⟩

def setPc (f : BrokerId → Option Pc) (b : BrokerId) (p : Option Pc) : BrokerId → Option Pc :=
  fun x => if x = b then p else f x

/-- Time does not run backwards, and no running loop is left waiting longer than its due time. -/
def Timely (late : Nat) (w : World L) (t : Nat) : Prop :=
  w.time ≤ t ∧ ∀ b p, w.pc b = some p → t ≤ p.due late

/-- One event at time `t`. -/
inductive Step (be : Backend L) (late : Nat) : World L → Nat → Ev L → World L → Prop
  /-- lib.rs `start` and heartbeat.rs:34-41 -/
  | start (w t b num) : Timely late w t → w.pc b = none → Good b →
      Step be late w t (.start b num) ⟨t, setPc w.pc b (some (.beat t num false)), w.hist⟩
  /-- embedded.rs:89-127, redis.rs:81-115; the duration is that of heartbeat.rs:38. (The Embedded store refuses
  2^32 users or more.) -/
  | write (w t b t0 num c) : Timely late w t → w.pc b = some (.beat t0 num false) → t0 ≤ c → c ≤ t → num < 2 ^ 32 →
      Step be late w t (.write b c) ⟨t, setPc w.pc b (some (.beat t0 num true)), w.hist ++ [be.put b num 60000 c]⟩
  /-- heartbeat.rs:41-50 -/
  | beatDone (w t b t0 num wrote ok) : Timely late w t → w.pc b = some (.beat t0 num wrote) → (ok = true → wrote = true) →
      Step be late w t (.beatDone b ok) ⟨t, setPc w.pc b (some (.list t none)), w.hist⟩
  /-- embedded.rs:196-224, redis.rs:178-200 -/
  | query (w t b t0) : Timely late w t → w.pc b = some (.list t0 none) →
      Step be late w t (.query b)
        ⟨t, setPc w.pc b (some (.list t0 (some (be.others w.hist b t)))), w.hist ++ [be.expire t]⟩
  /-- heartbeat.rs:56 and 68-108 -/
  | listed (w t b t0 l conn) : Timely late w t → w.pc b = some (.list t0 (some (some l))) →
      Step be late w t (.listed b conn (BrokerId.toDial b l conn)) ⟨t, setPc w.pc b (some (.sleep t)), w.hist⟩
  /-- heartbeat.rs:57-66 `continue`, and 34 -/
  | listFailed (w t b t0 seen num) : Timely late w t → w.pc b = some (.list t0 seen) →
      Step be late w t (.listFailed b num) ⟨t, setPc w.pc b (some (.beat t num false)), w.hist⟩
  /-- heartbeat.rs:108 and 34 -/
  | wake (w t b t0 num) : Timely late w t → w.pc b = some (.sleep t0) → t0 + 10000 ≤ t →
      Step be late w t (.wake b num) ⟨t, setPc w.pc b (some (.beat t num false)), w.hist⟩
  | stop (w t b p) : Timely late w t → w.pc b = some p →
      Step be late w t (.stop b) ⟨t, setPc w.pc b none, w.hist⟩
  | store (w t l) : Timely late w t → (∀ b num dur c, l ≠ be.put b num dur c) → be.before t l → be.ok l →
      Step be late w t (.store l) ⟨t, w.pc, w.hist ++ [l]⟩
  | tick (w t) : Timely late w t → Step be late w t .tick ⟨t, w.pc, w.hist⟩

/-- What can happen from the beginning. -/
inductive Run (be : Backend L) (late : Nat) : List (Nat × Ev L) → World L → Prop
  | nil : Run be late [] World.init
  | snoc {es w t e w'} : Run be late es w → Step be late w t e w' → Run be late (es ++ [(t, e)]) w'

end Verif.Hb

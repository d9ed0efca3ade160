/-!
# The latency metrics

* `cdn-proto/src/connection/limiter/pool.rs:44-52`: when the last copy of a received message is dropped, the time since its
  memory was allocated is observed by the histogram `latency`;
* `cdn-proto/src/metrics.rs:43-78` `running_latency_calculator`: every 30 seconds the sum and then the count of the histogram
  are read, and the gauge `running_latency` is set from the differences to the values of the previous round.

The histogram (the prometheus crate, not in /repo) adds an observation to its sum and to its count in two steps, in whichever
order; other threads may act in between, also between the two reads of the calculator. Floating point numbers are exact here.
Latencies are natural numbers of some unit. The 30 seconds are left out: a round may happen at any time.
-/

namespace Verif.Latency

structure St where
  /-- the histogram -/
  sum : Nat
  count : Nat
  /-- observations that are not in the sum yet -/
  noSum : List Nat
  /-- how many are not in the count yet -/
  noCount : Nat
  /-- the calculator (metrics.rs:45-46, 74-76): values of the previous round -/
  prevSum : Nat
  prevCount : Nat
  /-- in a round: `current_sum` (metrics.rs:62) -/
  cur : Option Nat
  /-- the gauge -/
  gauge : Rat

/-- A gauge is 0 until it is set. -/
def St.init : St := ⟨0, 0, [], 0, 0, 0, none, 0⟩

inductive Label where
  /-- the last copy of a message is dropped, this long after it arrived -/
  | release (latency : Nat)
  /-- an observation gets into the sum -/
  | addSum (latency : Nat)
  /-- an observation gets into the count -/
  | addCount
  /-- the calculator reads the sum -/
  | readSum
  /-- it reads the count and sets the gauge -/
  | readCount
deriving DecidableEq

inductive Step : St → Label → St → Prop
  /-- pool.rs:48-50 -/
  | release (s : St) (v : Nat) : Step s (.release v) { s with noSum := v :: s.noSum, noCount := s.noCount + 1 }
  | addSum (s : St) (v : Nat) (p q : List Nat) (h : s.noSum = p ++ v :: q) :
      Step s (.addSum v) { s with noSum := p ++ q, sum := s.sum + v }
  | addCount (s : St) (n : Nat) (h : s.noCount = n + 1) : Step s .addCount { s with noCount := n, count := s.count + 1 }
  /-- metrics.rs:62 -/
  | readSum (s : St) (h : s.cur = none) : Step s .readSum { s with cur := some s.sum }
  /-- metrics.rs:63-76 -/
  | readCount (s : St) (cur : Nat) (h : s.cur = some cur) :
      Step s .readCount
        { s with
          cur := none, prevSum := cur, prevCount := s.count,
          gauge := if s.count - s.prevCount ≠ 0 then ((cur - s.prevSum : Nat) : Rat) / ((s.count - s.prevCount : Nat) : Rat)
            else s.gauge }

inductive Run (s : St) : List Label → St → Prop
  | nil : Run s [] s
  | snoc {ls : List Label} {s1 : St} {l : Label} {s2 : St} (h : Run s ls s1) (hs : Step s1 l s2) : Run s (ls ++ [l]) s2

end Verif.Latency

import Verif.Model.Frame

/-!
# Model of the byte gauges

`total_bytes_sent` and `total_bytes_recv`, cdn-proto/src/connection/metrics.rs:13-19. They belong to a process and all its
connections add to them. Additions to a gauge are atomic and commute, so what the connections add may be summed up connection
by connection. Gauges are floating point numbers, which count exactly up to 2^53 bytes; here they are natural numbers.
-/

namespace Verif.Meter
open Verif.Frame

/-- What a step adds to the sender's `total_bytes_sent`: `write_length_delimited`, connection/protocols/mod.rs:387-391, after
length and message have been written. -/
def addSent (s : Link) : Label → Nat
  | .write =>
    if s.writer then
      match s.sendQ with
      | .bytes m :: _ =>
        match frame m with
        | some _ => m.length
        | none => 0
      | _ => 0
    else 0
  | _ => 0

/-- What a step adds to the receiver's `total_bytes_recv`: `read_length_delimited`, mod.rs:344-348, after the body has been
read; what is added is the length that was announced. -/
def addRecv (s : Link) : Label → Nat
  | .readBody =>
    match s.phase with
    | .body n => if n ≤ s.buf.length then n else 0
    | _ => 0
  | _ => 0

/-- What a schedule of one direction of a connection adds to both. -/
def metered (s : Link) : List Label → Nat × Nat
  | [] => (0, 0)
  | l :: ls =>
    let r := metered (s.step l).1 ls
    (addSent s l + r.1, addRecv s l + r.2)

/-- One direction of a connection between two processes, and what happened on it. -/
structure Channel where
  /-- the sending and the receiving process -/
  sender : Nat
  receiver : Nat
  cap : Option Nat
  past : List Label

/-- `total_bytes_sent` of a process, all connections there have been being `cs`. -/
def totalSent (cs : List Channel) (p : Nat) : Nat :=
  ((cs.filter fun c => c.sender = p).map fun c => (metered (Link.new c.cap) c.past).1).sum

/-- `total_bytes_recv` of a process. -/
def totalRecv (cs : List Channel) (p : Nat) : Nat :=
  ((cs.filter fun c => c.receiver = p).map fun c => (metered (Link.new c.cap) c.past).2).sum

end Verif.Meter

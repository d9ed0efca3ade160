import Verif.Model.Discovery

/-!
# Choosing a broker, command by command

`get_with_least_connections` is not one step: it sends several commands to the store, and the brokers and
the other marshals go on using the store in between (`Model/Discovery.lean` has the undisturbed calls).

A schedule gives, for every command of the call, what the others did since the previous command and the
clock value when the command runs.
-/

namespace Verif.Disc
open Verif

/-! ## Redis -/

/-- What the others do before the `k`-th command of the call, and the time on the server when it runs. -/
abbrev RSched := Nat → List RLabel × Nat

/-- Everything up to the `k`-th command since the one before: the steps of others, then what has expired
is removed. -/
def rturn (sch : RSched) (k : Nat) : List RLabel := (sch k).1 ++ [.expire (sch k).2]

/-- The loop at redis.rs:138-167 from the `k`-th command on, with the brokers still to be asked about.
Each of them takes a `GET` (lines 138-147) and a `SCARD` (lines 149-158); an error of either ends the call
(`none`). The number returned is that of the commands sent. -/
def Redis.leastLoopAt (global : Bool) (sch : RSched) (s : Redis) :
    Nat → List Str → Nat × Str → Option (Nat × Str) × Nat
  | k, [], acc => (some acc, k)
  | k, b :: bs, acc =>
    let s := (s.run global (rturn sch k)).1
    match s.getNum (numKey b) with
    | none => (none, k + 1)
    | some n =>
      let s := (s.run global (rturn sch (k + 1))).1
      match s.scard (permitsKey b) with
      | none => (none, k + 2)
      | some p =>
        let total := (p + n) % 2 ^ 64
        s.leastLoopAt global sch (k + 2) bs (if total < acc.1 then (total, b) else acc)

/-- redis.rs:122-172 `get_with_least_connections`. Command 0 is `SMEMBERS brokers` (lines 124-131); its
answer is a `HashSet`, iterated in the order `ord` puts it. -/
def Redis.leastAt (global : Bool) (ord : List Str → List Str) (sch : RSched) (s : Redis) :
    Option BrokerId × Nat :=
  let s := (s.run global (rturn sch 0)).1
  if s.brokers.keys.isEmpty then (none, 1)
  else
    match s.leastLoopAt global sch 1 (ord s.brokers.keys) (Emb.u64Max, []) with
    | (some r, k) => (BrokerId.parse r.2, k)
    | (none, k) => (none, k)

/-! ## Embedded -/

/-- What the others do before the `k`-th statement of the call, and the clock value the statement uses. -/
abbrev ESched := Nat → List ELabel × Nat

/-- The statements of the call that change the store: statement 0 is `prune("brokers")`
(embedded.rs:136-140), 1 is the `SELECT` (143-149); then, for every broker, `prune("permits")` (157-161)
and the `SELECT COUNT` (164-174). -/
def eown (k t : Nat) : List ELabel :=
  if k = 0 then [.pruneBrokers t] else if k = 1 then [] else if k % 2 = 0 then [.prunePermits t] else []

/-- Everything since the statement before the `k`-th, up to and with the `k`-th. -/
def eturn (sch : ESched) (k : Nat) : List ELabel := (sch k).1 ++ eown k (sch k).2

/-- The loop at embedded.rs:155-186 from the `k`-th statement on, with the rows still to be looked at. -/
def Emb.leastLoopAt (sch : ESched) (s : Emb) :
    Nat → List (Str × Nat × Nat) → Nat × Str → (Nat × Str) × Nat
  | k, [], acc => (acc, k)
  | k, r :: rs, acc =>
    let s := (s.run false (eturn sch k)).1
    let s := (s.run false (eturn sch (k + 1))).1
    let total := s.countPermits r.1 + r.2.1
    s.leastLoopAt sch (k + 2) rs (if total < acc.1 then (total, r.1) else acc)

/-- embedded.rs:134-189 `get_with_least_connections` (without the feature `global-permits`). The rows come
in the order `ord` puts them. -/
def Emb.leastAt (ord : List (Str × Nat × Nat) → List (Str × Nat × Nat)) (sch : ESched) (s : Emb) :
    Option BrokerId × Nat :=
  let s := (s.run false (eturn sch 0)).1
  let s := (s.run false (eturn sch 1)).1
  let r := s.leastLoopAt sch 2 (ord s.brokers.entries) (u64Max, [])
  (BrokerId.parse r.1.2, r.2)

end Verif.Disc

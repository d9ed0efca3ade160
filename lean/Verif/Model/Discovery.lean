import Verif.Util.AMapFilter
import Verif.Model.Ident
import Verif.Model.Topic

/-!
# Model of the discovery store

`cdn-proto/src/discovery/embedded.rs` (SQLite) and `cdn-proto/src/discovery/redis.rs` (Redis / KeyDB).

The databases are external. Each SQL statement and each Redis command (or atomic pipeline) is one atomic
step on the shared store; a call of the API is the sequence of its steps, and the steps of other
processes may come in between. The clock is an argument of the steps that read it (whole units; the code
uses `f64` seconds); the random permit number is an argument, too.

A connection failure to the database is not modelled: it makes a call return an error (every call maps
it to `Err`, the `bail!` macro).

`global` is the cargo feature `global-permits` (off by default).
-/

namespace Verif.Disc
open Verif

/-- What can be observed of permits. -/
inductive PEv where
  /-- `issue_permit` for broker `b` returned `Ok(p)`; `k` is the public key, `exp` the expiry time -/
  | issued (b : BrokerId) (p : Nat) (k : Bytes) (exp : Nat)
  /-- broker `b` called `validate_permit(p)`; `res = none` is `Ok(None)` or an error -/
  | asked (b : BrokerId) (p : Nat) (res : Option Bytes)
  /-- the expiry of permits was enforced with clock value `now` -/
  | swept (now : Nat)
deriving DecidableEq

/-! ## Embedded (SQLite) -/

/-- local_db/migrations.sql and embedded.rs:329-340. `brokers` and `permits` have a primary key each
(`identifier`, `permit`); the rest of a row is the value. The whitelist table may not exist. -/
structure Emb where
  /-- identifier ↦ (num_connections, expiry) -/
  brokers : AMap Str (Nat × Nat)
  /-- permit ↦ (identifier, user_pubkey, expiry) -/
  permits : AMap Nat (Str × Bytes × Nat)
  whitelist : Option (FSet Bytes)

namespace Emb

/-- embedded.rs:69-75, after the migrations on a new file. -/
def new : Emb := ⟨AMap.empty, AMap.empty, none⟩

/-- embedded.rs:402-422 `prune("brokers")`: `DELETE … WHERE expiry < now`. -/
def pruneBrokers (s : Emb) (now : Nat) : Emb :=
  { s with brokers := s.brokers.retain fun _ r => decide (now ≤ r.2) }

/-- embedded.rs:402-422 `prune("permits")`. -/
def prunePermits (s : Emb) (now : Nat) : Emb :=
  { s with permits := s.permits.retain fun _ r => decide (now ≤ r.2.2) }

/-- embedded.rs:118-124 `INSERT or REPLACE INTO brokers`. -/
def putBroker (s : Emb) (id : BrokerId) (num exp : Nat) : Emb :=
  { s with brokers := s.brokers.insert id.display (num, exp) }

/-- embedded.rs:89-127 `perform_heartbeat` of the broker `self`, undisturbed. The flag is `Ok`. -/
def heartbeat (s : Emb) (self : BrokerId) (num dur now : Nat) : Emb × Bool :=
  let s := s.pruneBrokers now
  -- lines 110-114: `u32::try_from`
  if num < 2 ^ 32 then (s.putBroker self num (now + dur), true) else (s, false)

/-- embedded.rs:165-173 `SELECT COUNT(permit) … WHERE identifier = ?`. -/
def countPermits (s : Emb) (id : Str) : Nat :=
  (s.permits.entries.filter fun e => decide (e.2.1 = id)).length

/-- The loop at embedded.rs:155-186: strictly smaller totals replace the best so far. -/
def leastLoop (s : Emb) : List (Str × Nat × Nat) → Nat × Str → Nat × Str
  | [], acc => acc
  | r :: rs, acc =>
    let total := s.countPermits r.1 + r.2.1
    leastLoop s rs (if total < acc.1 then (total, r.1) else acc)

/-- `u64::MAX`. -/
def u64Max : Nat := 2 ^ 64 - 1

/-- embedded.rs:134-189 `get_with_least_connections`, undisturbed and with one clock value (the code
prunes the permits again in every iteration). `SELECT *` returns the rows in some order. Converting a
count or a stored number of connections cannot fail (both fit `u32`). -/
def least (s : Emb) (now : Nat) : Emb × Option BrokerId :=
  let s := s.pruneBrokers now
  let s := if s.brokers.isEmpty then s else s.prunePermits now
  (s, BrokerId.parse (leastLoop s s.brokers.entries (u64Max, [])).2)

/-- embedded.rs:196-224 `get_other_brokers`, undisturbed. `none` is the panic at line 216 (a stored
identifier that cannot be parsed). -/
def others (s : Emb) (self : BrokerId) (now : Nat) : Emb × Option (List BrokerId) :=
  let s := s.pruneBrokers now
  (s, (s.brokers.keys.mapM BrokerId.parse).map fun l => (FSet.ofList l).elems.filter fun b => b ≠ self)

/-- The identifier stored with a permit, embedded.rs:243-244 and 259-263. -/
def permitIdent (global : Bool) (b : BrokerId) : Str := if global then [] else b.display

/-- embedded.rs:231-277 `issue_permit`; `r` is the random number (line 240, `next_u32`). The `INSERT`
fails if the number is taken (primary key). -/
def issue (global : Bool) (s : Emb) (b : BrokerId) (k : Bytes) (dur now : Nat) (r : UInt32) :
    Emb × List PEv :=
  match s.permits.get r.toNat with
  | some _ => (s, [])
  | none =>
    ({ s with permits := s.permits.insert r.toNat (permitIdent global b, k, now + dur) },
     [.issued b r.toNat k (now + dur)])

/-- embedded.rs:297-318, the second half of `validate_permit`: conversion to `u32`, then
`DELETE … WHERE identifier=? AND permit=? RETURNING *` (with global permits only `permit=?`). -/
def take (global : Bool) (s : Emb) (b : BrokerId) (p : Nat) : Emb × List PEv :=
  if p < 2 ^ 32 then
    match s.permits.get p with
    | some r =>
      if global || r.1 = b.display then
        ({ s with permits := s.permits.erase p }, [.asked b p (some r.2.1)])
      else (s, [.asked b p none])
    | none => (s, [.asked b p none])
  else (s, [.asked b p none])

/-- embedded.rs:284-319 `validate_permit`, undisturbed. -/
def validate (global : Bool) (s : Emb) (b : BrokerId) (p now : Nat) : Emb × Option Bytes :=
  let s := s.prunePermits now
  let r := take global s b p
  (r.1, match r.2 with | [.asked _ _ res] => res | _ => none)

/-- Largest number of parameters of a SQL statement (`SQLITE_MAX_VARIABLE_NUMBER`, default). -/
def maxVars : Nat := 32766

/-- The three SQL statements of `set_whitelist`, embedded.rs:325-354. sqlx prepares and runs them one
after the other; the comment "atomically" is not implemented by a transaction. -/
inductive WStmt where
  /-- `DROP TABLE IF EXISTS whitelist` -/
  | drop
  /-- `CREATE TABLE IF NOT EXISTS whitelist (user_public_key … PRIMARY KEY NOT NULL)` -/
  | create
  /-- `INSERT INTO whitelist (user_public_key) VALUES (?), (?), …`: fails without values (syntax error),
  with too many values, and with a repeated value (primary key) -/
  | insert (ks : List Bytes)

/-- One of these statements; the flag is success. -/
def wstep (s : Emb) : WStmt → Emb × Bool
  | .drop => ({ s with whitelist := none }, true)
  | .create => ({ s with whitelist := some (match s.whitelist with | some w => w | none => FSet.empty) }, true)
  | .insert ks =>
    match s.whitelist with
    | none => (s, false)
    | some w =>
      if ks ≠ [] ∧ ks.length ≤ maxVars ∧ ks.Nodup ∧ ∀ k ∈ ks, k ∉ w then
        ({ s with whitelist := some (w.insertMany ks) }, true)
      else (s, false)

/-- embedded.rs:325-354 `set_whitelist`, undisturbed. -/
def setWhitelist (s : Emb) (ks : List Bytes) : Emb × Bool :=
  let s := (s.wstep .drop).1
  let s := (s.wstep .create).1
  s.wstep (.insert ks)

/-- embedded.rs:360-396 `check_whitelist`, undisturbed. -/
def checkWhitelist (s : Emb) (k : Bytes) : Bool :=
  match s.whitelist with
  | none => true
  | some w => decide (k ∈ w)

end Emb

/-! ## Redis -/

/-- Decimal digits of a number (`to_string` of an integer). -/
def dec (n : Nat) : Str :=
  if n < 10 then [Char.ofNat (48 + n)] else dec (n / 10) ++ [Char.ofNat (48 + n % 10)]

/-- A string value: the code stores a number of connections or a public key. (The number is stored as
decimal text and parsed back; this round trip is not modelled.) -/
inductive RVal where
  | num (n : Nat)
  | key (k : Bytes)
deriving DecidableEq

/-- The Redis keys the code uses. The sets `brokers` (with one expiry per member, KeyDB's `EXPIREMEMBER`)
and `whitelist` are fields of their own: no other key is named like them (all others contain a slash). -/
structure Redis where
  /-- set `brokers`: member ↦ expiry -/
  brokers : AMap Str Nat
  /-- string keys ↦ (value, expiry) -/
  kv : AMap Str (RVal × Nat)
  /-- set `whitelist`; Redis has no empty sets: an empty set does not exist -/
  whitelist : FSet Bytes

namespace Redis

def new : Redis := ⟨AMap.empty, AMap.empty, FSet.empty⟩

/-- Redis removes what has expired before it runs a command. -/
def expire (s : Redis) (now : Nat) : Redis :=
  { s with
    brokers := s.brokers.retain fun _ e => decide (now ≤ e)
    kv := s.kv.retain fun _ r => decide (now ≤ r.2) }

/-- redis.rs:103-104 `"{}/num_connections"`. -/
def numKey (b : Str) : Str := b ++ "/num_connections".toList

/-- redis.rs:154-155 `"{broker}/permits"`. -/
def permitsKey (b : Str) : Str := b ++ "/permits".toList

/-- redis.rs:222-225 and 253-256 `"{for_broker}/permits/{permit}"` or `"permits/{permit}"`. -/
def permitKey (global : Bool) (b : BrokerId) (p : Nat) : Str :=
  if global then "permits/".toList ++ dec p else b.display ++ "/permits/".toList ++ dec p

/-- redis.rs:81-115 `perform_heartbeat`: an atomic pipeline `SADD`, `EXPIREMEMBER`, `SET … EX`. Durations
are whole seconds (`as_secs`) and positive (`EX 0` is an error). -/
def heartbeat (s : Redis) (self : BrokerId) (num dur now : Nat) : Redis :=
  let s := s.expire now
  { s with
    brokers := s.brokers.insert self.display (now + dur)
    kv := s.kv.insert (numKey self.display) (.num num, now + dur) }

/-- `GET` read as a `u64` (redis.rs:143-150): nil or something else is an error. -/
def getNum (s : Redis) (k : Str) : Option Nat :=
  match s.kv.get k with
  | some (.num n, _) => some n
  | _ => none

/-- `SCARD` (redis.rs:149-158): a key that does not exist counts as empty; a string key is an error. No
command of the code creates a set under such a key. -/
def scard (s : Redis) (k : Str) : Option Nat :=
  match s.kv.get k with
  | some _ => none
  | none => some 0

/-- The loop at redis.rs:138-167; `none` is the early return of an error. The sum is a `u64`. -/
def leastLoop (s : Redis) : List Str → Nat × Str → Option (Nat × Str)
  | [], acc => some acc
  | b :: bs, acc =>
    match s.getNum (numKey b), s.scard (permitsKey b) with
    | some n, some p =>
      let total := (p + n) % 2 ^ 64
      leastLoop s bs (if total < acc.1 then (total, b) else acc)
    | _, _ => none

/-- redis.rs:122-172 `get_with_least_connections`, undisturbed. -/
def least (s : Redis) (now : Nat) : Option BrokerId :=
  let s := s.expire now
  if s.brokers.keys.isEmpty then none
  else
    match leastLoop s s.brokers.keys (Emb.u64Max, []) with
    | some r => BrokerId.parse r.2
    | none => none

/-- redis.rs:178-200 `get_other_brokers`: `none` is the parse error. -/
def others (s : Redis) (self : BrokerId) (now : Nat) : Option (List BrokerId) :=
  let s := s.expire now
  ((s.brokers.keys.filter fun t => t ≠ self.display).mapM BrokerId.parse).map fun l => (FSet.ofList l).elems

/-- redis.rs:207-239 `issue_permit`: `SET key public_key EX secs`, overwriting. -/
def issue (global : Bool) (s : Redis) (b : BrokerId) (k : Bytes) (dur now : Nat) (r : UInt64) :
    Redis × List PEv :=
  let s := s.expire now
  ({ s with kv := s.kv.insert (permitKey global b r.toNat) (.key k, now + dur) },
   [.swept now, .issued b r.toNat k (now + dur)])

/-- redis.rs:246-265 `validate_permit`: `GETDEL key`. -/
def validate (global : Bool) (s : Redis) (b : BrokerId) (p now : Nat) : Redis × List PEv :=
  let s := s.expire now
  match s.kv.get (permitKey global b p) with
  | some (.key k, _) => ({ s with kv := s.kv.erase (permitKey global b p) }, [.swept now, .asked b p (some k)])
  -- the text of a number would be returned as a key; `Props` shows that the keys never meet
  | some (.num _, _) => ({ s with kv := s.kv.erase (permitKey global b p) }, [.swept now, .asked b p (some [])])
  | none => (s, [.swept now, .asked b p none])

/-- redis.rs:271-297 `set_whitelist`: an atomic pipeline `DEL`, `SADD`, `SADD`, … -/
def setWhitelist (s : Redis) (ks : List Bytes) : Redis := { s with whitelist := FSet.empty.insertMany ks }

/-- redis.rs:303-326 `check_whitelist`, undisturbed: `SCARD` (zero if the set does not exist), then
`SISMEMBER`. -/
def checkWhitelist (s : Redis) (k : Bytes) : Bool :=
  if s.whitelist.isEmpty then true else decide (k ∈ s.whitelist)

end Redis

/-! ## Histories -/

/-- One atomic step of any process on an Embedded store. -/
inductive ELabel where
  /-- the second half of `perform_heartbeat` (lines 99-124); the first is `pruneBrokers` -/
  | putBroker (self : BrokerId) (num dur now : Nat)
  | pruneBrokers (now : Nat)
  | prunePermits (now : Nat)
  | issue (b : BrokerId) (k : Bytes) (dur now : Nat) (r : UInt32)
  /-- the second statement of `validate_permit`; the first is `prunePermits` -/
  | take (b : BrokerId) (p : Nat)
  | whitelist (w : Emb.WStmt)

/-- A step and what is observed of permits. -/
def Emb.step (global : Bool) (s : Emb) : ELabel → Emb × List PEv
  | .putBroker self num dur now => (if num < 2 ^ 32 then s.putBroker self num (now + dur) else s, [])
  | .pruneBrokers now => (s.pruneBrokers now, [])
  | .prunePermits now => (s.prunePermits now, [.swept now])
  | .issue b k dur now r => s.issue global b k dur now r
  | .take b p => s.take global b p
  | .whitelist w => ((s.wstep w).1, [])

def Emb.run (global : Bool) (s : Emb) : List ELabel → Emb × List PEv
  | [] => (s, [])
  | l :: ls =>
    let r := s.step global l
    let r' := r.1.run global ls
    (r'.1, r.2 ++ r'.2)

/-- One atomic step of any process on a Redis store. -/
inductive RLabel where
  | heartbeat (self : BrokerId) (num dur now : Nat)
  | expire (now : Nat)
  | issue (b : BrokerId) (k : Bytes) (dur now : Nat) (r : UInt64)
  | validate (b : BrokerId) (p now : Nat)
  | setWhitelist (ks : List Bytes)

def Redis.step (global : Bool) (s : Redis) : RLabel → Redis × List PEv
  | .heartbeat self num dur now => (s.heartbeat self num dur now, [.swept now])
  | .expire now => (s.expire now, [.swept now])
  | .issue b k dur now r => s.issue global b k dur now r
  | .validate b p now => s.validate global b p now
  | .setWhitelist ks => (s.setWhitelist ks, [])

def Redis.run (global : Bool) (s : Redis) : List RLabel → Redis × List PEv
  | [] => (s, [])
  | l :: ls =>
    let r := s.step global l
    let r' := r.1.run global ls
    (r'.1, r.2 ++ r'.2)

end Verif.Disc

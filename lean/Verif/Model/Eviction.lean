import Verif.Model.Topic

/-!
# Taking somebody off the whitelist, with time

Any number of marshals and brokers on one discovery store, as far as it matters for who is connected:

* `cdn-proto/src/connection/auth/marshal.rs:41-146` `verify_user`, under the five seconds of `cdn-marshal/src/handlers.rs:26-33`:
  the whitelist is asked (95-110), later a permit is issued (128-143);
* `cdn-proto/src/connection/auth/broker.rs:77-147` `verify_user`, under the five seconds of
  `cdn-broker/src/tasks/user/handler.rs:29-41`: the permit is looked up; then `add_user` (74-76), without an await in between;
* `cdn-broker/src/tasks/broker/whitelist.rs:19-44`: the whitelist task.
* `check_whitelist` (`cdn-proto/src/discovery/embedded.rs:360-396`, `redis.rs:303-326`) is two queries: is there a whitelist
  at all (everybody is allowed if not), and is the key in it.

Times are milliseconds of one clock. The runtime resumes a task at most `late` milliseconds after it is due. Nothing in the
code limits how long a pass of the whitelist task takes; `passD` stands for the limit that is assumed of the store. A call to
the store that was given up has no effect afterwards. What may make the flows fail (signatures, other messages, errors) is
left out: a verification may end at any time without effect.
-/

namespace Verif.Eviction
open Verif

/-- Where a call of `check_whitelist` is. -/
inductive Query where
  /-- embedded.rs:362-374, redis.rs:305-314: is there a whitelist? -/
  | first
  /-- embedded.rs:377-387, redis.rs:317-325: is the key in it? -/
  | second
  | answered (yes : Bool)
deriving DecidableEq

/-- What the store answers to the next query; `w` is the whitelist, `none` if there is none. -/
def Query.next (w : Option (List Bytes)) (key : Bytes) : Query → Query
  | .first => if w = none then .answered true else .second
  | .second => .answered (decide (∃ l, w = some l ∧ key ∈ l))
  | q => q

/-- A marshal's `verify_user`: the public key as received (auth_message.public_key); `due`: when the timeout fires. -/
structure Marsh where
  key : Bytes
  due : Nat
  query : Query
deriving DecidableEq

/-- A permit in the store. -/
structure Permit (B : Type) where
  broker : B
  key : Bytes
  expiry : Nat
deriving DecidableEq

/-- A broker's `verify_user`: since when, and the key once the permit was found. -/
structure Admit (B : Type) where
  here : B
  since : Nat
  key : Option Bytes
deriving DecidableEq

/-- A whitelist task. -/
inductive Task where
  /-- whitelist.rs:25, until `due` -/
  | sleep (due : Nat)
  /-- whitelist.rs:31-42: a pass that will be over at `due`; these users are left, and the first one is being asked about -/
  | pass (due : Nat) (query : Query) (users : List Bytes)
deriving DecidableEq

/-- When it has to go on. -/
def Task.due : Task → Nat
  | .sleep d => d
  | .pass d _ _ => d

/-- `canon`: deserialise and serialise again a public key (marshal.rs:60, 90). -/
structure Cfg where
  canon : Bytes → Bytes
  passD : Nat
  late : Nat
  /-- feature `global-permits` -/
  global : Bool

structure St (B : Type) where
  now : Nat
  white : Option (List Bytes)
  marsh : List Marsh
  permits : List (Permit B)
  admit : List (Admit B)
  /-- who is connected to a broker -/
  users : B → List Bytes
  /-- the whitelist task of a broker, if it is running -/
  task : B → Option Task

def St.init {B : Type} : St B := ⟨0, none, [], [], [], fun _ => [], fun _ => none⟩

inductive Lab (B : Type) where
  | tick
  /-- somebody sets the whitelist (or, with SQLite, one of the statements of that is executed) -/
  | setWhite (w : Option (List Bytes))
  /-- a marshal begins to verify a user -/
  | ask (key : Bytes)
  /-- the store answers one of its whitelist queries -/
  | marshQuery
  /-- a permit is issued -/
  | issue (b : B) (key : Bytes)
  /-- a verification of a marshal or of a broker ends otherwise -/
  | marshEnds
  | admitEnds
  /-- a broker begins to verify a user -/
  | arrive (b : B)
  /-- it finds a permit -/
  | validate (b : B) (key : Bytes)
  /-- and registers the user -/
  | register (b : B) (key : Bytes)
  /-- a user is removed for any other reason -/
  | leave (b : B) (key : Bytes)
  /-- the broker (re)starts -/
  | start (b : B)
  /-- the whitelist task wakes up and lists the users -/
  | wake (b : B)
  /-- the store answers one of its queries -/
  | taskQuery (b : B)
  /-- the query about this user fails -/
  | failed (b : B) (key : Bytes)
  /-- the user is allowed -/
  | spared (b : B) (key : Bytes)
  /-- the user is not, and is removed -/
  | kicked (b : B) (key : Bytes)
  /-- the pass is over -/
  | rest (b : B)

section
variable {B : Type} [DecidableEq B]

def setAt {A : Type} (f : B → A) (b : B) (a : A) : B → A := fun x => if x = b then a else f x

/-- One step. -/
inductive Step (c : Cfg) (s : St B) : Lab B → St B → Prop
  /-- time passes, unless somebody is due -/
  | tick (hm : ∀ m ∈ s.marsh, s.now < m.due + c.late) (ha : ∀ a ∈ s.admit, s.now < a.since + 5000 + c.late)
      (ht : ∀ b t, s.task b = some t → s.now < t.due + c.late) :
      Step c s .tick { s with now := s.now + 1 }
  | setWhite (w : Option (List Bytes)) : Step c s (.setWhite w) { s with white := w }
  /-- handlers.rs:26-30 -/
  | ask (key : Bytes) : Step c s (.ask key) { s with marsh := ⟨key, s.now + 5000, .first⟩ :: s.marsh }
  /-- marshal.rs:95-98 -/
  | marshQuery (m : Marsh) (p q : List Marsh) (h : s.marsh = p ++ m :: q) :
      Step c s .marshQuery
        { s with marsh := p ++ { m with query := m.query.next s.white (c.canon m.key) } :: q }
  /-- marshal.rs:104, 128-143; embedded.rs:231-277 reads the clock `t` before it stores the permit -/
  | issue (m : Marsh) (p q : List Marsh) (b : B) (t : Nat) (h : s.marsh = p ++ m :: q) (hq : m.query = .answered true)
      (ht : t ≤ s.now) :
      Step c s (.issue b m.key) { s with marsh := p ++ q, permits := ⟨b, m.key, t + 30000⟩ :: s.permits }
  | marshEnds (m : Marsh) (p q : List Marsh) (h : s.marsh = p ++ m :: q) :
      Step c s .marshEnds { s with marsh := p ++ q }
  /-- user/handler.rs:29-31 -/
  | arrive (b : B) (hb : s.task b ≠ none) : Step c s (.arrive b) { s with admit := ⟨b, s.now, none⟩ :: s.admit }
  /-- auth/broker.rs:96-119; embedded.rs:284-318 reads the clock `t` and removes what has expired before it looks up the
  permit -/
  | validate (a : Admit B) (p q : List (Admit B)) (x : Permit B) (p' q' : List (Permit B)) (t : Nat)
      (h : s.admit = p ++ a :: q) (ha : a.key = none) (h' : s.permits = p' ++ x :: q') (hx : x.broker = a.here ∨ c.global = true)
      (ht : a.since ≤ t) (hn : t ≤ s.now) (he : t ≤ x.expiry) :
      Step c s (.validate a.here x.key)
        { s with admit := p ++ { a with key := some x.key } :: q, permits := p' ++ q' }
  /-- user/handler.rs:74-76 -/
  | register (a : Admit B) (p q : List (Admit B)) (key : Bytes) (h : s.admit = p ++ a :: q) (ha : a.key = some key) :
      Step c s (.register a.here key)
        { s with admit := p ++ q, users := setAt s.users a.here (key :: (s.users a.here).filter (· ≠ key)) }
  | admitEnds (a : Admit B) (p q : List (Admit B)) (h : s.admit = p ++ a :: q) :
      Step c s .admitEnds { s with admit := p ++ q }
  | leave (b : B) (key : Bytes) :
      Step c s (.leave b key) { s with users := setAt s.users b ((s.users b).filter (· ≠ key)) }
  /-- cdn-broker/src/lib.rs:269-284 -/
  | start (b : B) :
      Step c s (.start b)
        { s with users := setAt s.users b [], admit := s.admit.filter (fun a => a.here ≠ b),
                 task := setAt s.task b (some (.sleep (s.now + 60000))) }
  /-- whitelist.rs:25-28 -/
  | wake (b : B) (d : Nat) (h : s.task b = some (.sleep d)) (hd : d ≤ s.now) :
      Step c s (.wake b) { s with task := setAt s.task b (some (.pass (s.now + c.passD) .first (s.users b))) }
  /-- whitelist.rs:32-35 -/
  | taskQuery (b : B) (d : Nat) (q : Query) (u : Bytes) (us : List Bytes) (h : s.task b = some (.pass d q (u :: us))) :
      Step c s (.taskQuery b) { s with task := setAt s.task b (some (.pass d (q.next s.white u) (u :: us))) }
  /-- whitelist.rs:35 `unwrap_or(true)` -/
  | failed (b : B) (d : Nat) (q : Query) (u : Bytes) (us : List Bytes) (h : s.task b = some (.pass d q (u :: us)))
      (hq : ∀ y, q ≠ .answered y) :
      Step c s (.failed b u) { s with task := setAt s.task b (some (.pass d .first us)) }
  | spared (b : B) (d : Nat) (u : Bytes) (us : List Bytes) (h : s.task b = some (.pass d (.answered true) (u :: us))) :
      Step c s (.spared b u) { s with task := setAt s.task b (some (.pass d .first us)) }
  /-- whitelist.rs:36-41 -/
  | kicked (b : B) (d : Nat) (u : Bytes) (us : List Bytes) (h : s.task b = some (.pass d (.answered false) (u :: us))) :
      Step c s (.kicked b u)
        { s with task := setAt s.task b (some (.pass d .first us)),
                 users := setAt s.users b ((s.users b).filter (· ≠ u)) }
  /-- whitelist.rs:23-25 -/
  | rest (b : B) (d : Nat) (q : Query) (h : s.task b = some (.pass d q [])) :
      Step c s (.rest b) { s with task := setAt s.task b (some (.sleep (s.now + 60000))) }

inductive Run (c : Cfg) (s : St B) : List (Lab B) → St B → Prop
  | nil : Run c s [] s
  | snoc {ls : List (Lab B)} {s1 : St B} {l : Lab B} {s2 : St B} (h : Run c s ls s1) (hs : Step c s1 l s2) :
      Run c s (ls ++ [l]) s2

end
end Verif.Eviction

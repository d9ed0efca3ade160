/-!
# A client that loses its broker, with time

One client, any number of brokers, marshals and a discovery store. Models

* the client's reconnection: `cdn-client/src/lib.rs:79-124` (`connect`: first a marshal, then the broker it names), 149-165
  (a failed send or receive drops the connection), 204-249 (the next use starts the reconnection task: attempts of at most ten
  seconds, pauses of two);
* what a marshal answers: a broker whose entry in the store has not expired
  (`cdn-proto/src/discovery/embedded.rs:134-189`, `redis.rs:122-172`), whichever (the least loaded one, C39);
* heartbeats: an entry is valid for sixty seconds (`cdn-broker/src/tasks/broker/heartbeat.rs:37-40`).

Times are milliseconds of one clock. There are good and bad periods. In a bad period anything may fail. In a good one no
process goes down and no connection is lost, marshals and brokers that are up answer within `resp`, and those brokers
write a heartbeat every `beat`. How long it takes until a client that is waiting for messages learns that its connection
is gone is `detect`, if it learns it at all: with TCP there is nothing to tell it if the other host just disappears
(`cdn-proto/src/connection/protocols/tcp.rs`, `tcp_tls.rs` do not enable keep-alive; `quic.rs:82` does).

Left out: the client is allowed to log in; no subscriptions and no `close()` meanwhile (C59, C68).
-/

namespace Verif.Failover

structure Cfg where
  /-- a process that is up answers within this time, in good periods -/
  resp : Nat
  /-- time between two heartbeats, in good periods -/
  beat : Nat
  /-- the client is used at least this often while it has no connection -/
  gap : Nat
  /-- a client notices within this time that its connection is gone (`none`: perhaps never) -/
  detect : Option Nat
  /-- the runtime resumes a task at most this much late -/
  late : Nat

inductive Cl (B : Type) where
  /-- has a connection to this broker, which may be dead -/
  | on (b : B) (alive : Bool)
  /-- has none -/
  | off (since : Nat)
  /-- lib.rs:218: an attempt, since `start`; what it is doing it does since `since`: asking a marshal, or the broker it was given -/
  | att (start since : Nat) (broker : Option B)
  /-- lib.rs:228, 233 -/
  | nap (due : Nat)

structure St (B : Type) where
  now : Nat
  /-- since when there is no trouble -/
  healed : Option Nat
  up : B → Bool
  /-- when the last heartbeat was written or the broker started -/
  beatAt : B → Nat
  /-- when the entry in the store expires -/
  entry : B → Option Nat
  cl : Cl B

def St.init {B : Type} : St B := ⟨0, none, fun _ => false, fun _ => 0, fun _ => none, .off 0⟩

inductive Lab (B : Type) where
  | tick
  /-- a good period begins, or ends -/
  | heal
  | trouble
  /-- a broker goes down, or starts -/
  | down (b : B)
  | start (b : B)
  | beat (b : B)
  /-- the client's connection is lost -/
  | cut
  /-- the client notices -/
  | notice
  /-- the client is used -/
  | use
  /-- a marshal names a broker -/
  | named (b : B)
  /-- there is none -/
  | empty
  /-- the broker lets the client in -/
  | admitted (b : B)
  /-- the broker is not there -/
  | refused
  | timeout
  /-- the attempt fails for any other reason -/
  | fails
  | wake
deriving DecidableEq

section
variable {B : Type} [DecidableEq B]

def setAt {A : Type} (f : B → A) (b : B) (a : A) : B → A := fun x => if x = b then a else f x

/-- What happens to the client's connection when broker `b` goes down. -/
def Cl.lose (b : B) : Cl B → Cl B
  | .on b' alive => .on b' (alive && decide (b' ≠ b))
  | c => c

inductive Step (c : Cfg) (s : St B) : Lab B → St B → Prop
  /-- time passes, unless somebody is due -/
  | tick (ha : ∀ st si x, s.cl = .att st si x → s.now < st + 10000 + c.late)
      (hn : ∀ due, s.cl = .nap due → s.now < due + c.late)
      (ho : ∀ si, s.cl = .off si → s.now < si + c.gap)
      (hm : ∀ h st si, s.healed = some h → s.cl = .att st si none → s.now < max h si + c.resp)
      (hb : ∀ h st si b, s.healed = some h → s.cl = .att st si (some b) → s.up b = true → s.now < max h si + c.resp)
      (hd : ∀ h b d, s.healed = some h → s.cl = .on b false → c.detect = some d → s.now < h + d)
      (hh : ∀ h b, s.healed = some h → s.up b = true → s.now < max h (s.beatAt b) + c.beat) :
      Step c s .tick { s with now := s.now + 1 }
  | heal (h : s.healed = none) : Step c s .heal { s with healed := some s.now }
  | trouble : Step c s .trouble { s with healed := none }
  | down (b : B) (h : s.healed = none) : Step c s (.down b) { s with up := setAt s.up b false, cl := s.cl.lose b }
  | start (b : B) (h : s.up b = false) :
      Step c s (.start b) { s with up := setAt s.up b true, beatAt := setAt s.beatAt b s.now }
  /-- heartbeat.rs:37-40 -/
  | beat (b : B) (h : s.up b = true) :
      Step c s (.beat b) { s with entry := setAt s.entry b (some (s.now + 60000)), beatAt := setAt s.beatAt b s.now }
  | cut (b : B) (a : Bool) (h : s.healed = none) (hc : s.cl = .on b a) : Step c s .cut { s with cl := .on b false }
  /-- lib.rs:149-165 -/
  | notice (b : B) (hc : s.cl = .on b false) : Step c s .notice { s with cl := .off s.now }
  /-- lib.rs:204-218 -/
  | use (si : Nat) (hc : s.cl = .off si) : Step c s .use { s with cl := .att s.now s.now none }
  /-- lib.rs:91-102, embedded.rs:134-189 -/
  | named (st si : Nat) (b : B) (e : Nat) (hc : s.cl = .att st si none) (he : s.entry b = some e) (hn : s.now ≤ e) :
      Step c s (.named b) { s with cl := .att st s.now (some b) }
  | empty (st si : Nat) (hc : s.cl = .att st si none) (he : ∀ b e, s.entry b = some e → e < s.now) :
      Step c s .empty { s with cl := .nap (s.now + 2000) }
  /-- lib.rs:105-124, 219-222 -/
  | admitted (st si : Nat) (b : B) (hc : s.cl = .att st si (some b)) (hu : s.up b = true) :
      Step c s (.admitted b) { s with cl := .on b true }
  /-- lib.rs:105-109, 224-229 -/
  | refused (st si : Nat) (b : B) (hc : s.cl = .att st si (some b)) (hu : s.up b = false) :
      Step c s .refused { s with cl := .nap (s.now + 2000) }
  /-- lib.rs:218, 230-234 -/
  | timeout (st si : Nat) (x : Option B) (hc : s.cl = .att st si x) (ht : st + 10000 ≤ s.now) :
      Step c s .timeout { s with cl := .nap (s.now + 2000) }
  | fails (st si : Nat) (x : Option B) (h : s.healed = none) (hc : s.cl = .att st si x) :
      Step c s .fails { s with cl := .nap (s.now + 2000) }
  /-- lib.rs:216-218 -/
  | wake (due : Nat) (hc : s.cl = .nap due) (hd : due ≤ s.now) : Step c s .wake { s with cl := .att s.now s.now none }

inductive Run (c : Cfg) (s : St B) : List (Lab B) → St B → Prop
  | nil : Run c s [] s
  | snoc {ls : List (Lab B)} {s1 : St B} {l : Lab B} {s2 : St B} (h : Run c s ls s1) (hs : Step c s1 l s2) : Run c s (ls ++ [l]) s2

end
end Verif.Failover

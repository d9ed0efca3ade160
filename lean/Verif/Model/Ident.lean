/-!
# Model of broker identifiers, `cdn-proto/src/discovery/mod.rs:78-128`, and of the dialling rule,
`cdn-broker/src/tasks/broker/heartbeat.rs:67-74`

A Rust `String` is a sequence of characters. (Rust compares strings by their UTF-8 bytes, which is the
same order as comparing them character by character by code point.)
-/

namespace Verif

/-- `String`. -/
abbrev Str := List Char

/-- discovery/mod.rs:80-87 `BrokerIdentifier`. -/
structure BrokerId where
  /-- `public_advertise_endpoint` -/
  pub : Str
  /-- `private_advertise_endpoint` -/
  priv : Str
deriving DecidableEq, Repr

namespace BrokerId

/-- discovery/mod.rs:91-99 `Display`: `"{}/{}"`. -/
def display (b : BrokerId) : Str := b.pub ++ '/' :: b.priv

/-- `str::split('/')`: the pieces between slashes; never empty. -/
def split : Str → List Str
  | [] => [[]]
  | c :: cs =>
    if c = '/' then [] :: split cs
    else
      match split cs with
      | [] => [[c]]
      | p :: ps => (c :: p) :: ps

/-- discovery/mod.rs:103-128 `TryFrom<String>`: the first two pieces; the rest is dropped; `none` is the
parse error. -/
def parse (s : Str) : Option BrokerId :=
  match split s with
  | a :: b :: _ => some ⟨a, b⟩
  | _ => none

/-- `#[derive(PartialOrd, Ord)]`, discovery/mod.rs:80: by the first field, then by the second. -/
def lt (a b : BrokerId) : Prop := a.pub < b.pub ∨ (a.pub = b.pub ∧ a.priv < b.priv)

instance : LT BrokerId := ⟨lt⟩

instance (a b : BrokerId) : Decidable (a < b) :=
  inferInstanceAs (Decidable (a.pub < b.pub ∨ (a.pub = b.pub ∧ a.priv < b.priv)))

/-- heartbeat.rs:67-74: of the brokers listed by discovery and not connected, those that are `>=` our own
identity. (The list is then shuffled; only its members matter. `a >= b` is `¬ a < b`.) -/
def toDial (self : BrokerId) (others connected : List BrokerId) : List BrokerId :=
  (others.filter fun b => !connected.contains b).filter fun b => !decide (b < self)

end BrokerId
end Verif

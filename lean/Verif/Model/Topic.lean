/-!
# Model of topic pruning, `cdn-proto/src/def.rs:31-50`
-/

namespace Verif

/-- cdn-proto/src/message.rs:26 `pub type Topic = u8`. -/
abbrev Topic := UInt8

/-- `Vec<u8>` / `Bytes`. -/
abbrev Bytes := List UInt8

/-- `Vec::dedup` (used at def.rs:38): of a run of equal consecutive elements keep the first. -/
def dedup : List Topic → List Topic
  | [] => []
  | [a] => [a]
  | a :: b :: l => if a = b then dedup (b :: l) else a :: dedup (b :: l)

/-- def.rs:36-49 `Topic::prune`. `valid b` stands for `Self::try_from(b).is_ok()`. The first component
is the vector as the call leaves it (it is changed even when the call fails), the second says whether
the call returned `Ok`. -/
def prune (valid : Topic → Bool) (topics : List Topic) : List Topic × Bool :=
  let ts := (dedup topics).filter valid
  (ts, !ts.isEmpty)

/-- def.rs:21-28 `TestTopic::try_from` (the topic type of the production configuration too,
def.rs:106): only 0 and 1 are valid. -/
def testTopic (b : Topic) : Bool := b = 0 || b = 1

end Verif

/-!
# The deterministic generator (cdn-proto/src/crypto/rng.rs)
-/

namespace Verif.Rng

/-- rng.rs:15 `DeterministicRng(pub u64)`. -/
structure DRng where
  state : UInt64

/-- rng.rs:23-28 `fill_bytes` on a slice of `n` bytes: each byte is the low byte of the state, which is then shifted. -/
def fillBytes : Nat → DRng → List UInt8 × DRng
  | 0, g => ([], g)
  | n + 1, g =>
    let r := fillBytes n ⟨g.state >>> 8⟩
    (g.state.toUInt8 :: r.1, r.2)

/-- rng.rs:30-32 `next_u32`: the state is not changed. -/
def nextU32 (g : DRng) : UInt32 × DRng := (g.state.toUInt32, g)

/-- rng.rs:34-36 `next_u64`. -/
def nextU64 (g : DRng) : UInt64 × DRng := (g.state, g)

/-- rng.rs:38-41 `try_fill_bytes`. -/
def tryFillBytes (n : Nat) (g : DRng) : Except Unit (List UInt8) × DRng :=
  let r := fillBytes n g
  (.ok r.1, r.2)

/-- A call of one of the methods. -/
inductive Call where
  | fill (n : Nat)
  | tryFill (n : Nat)
  | u32
  | u64

/-- The bytes a call of `fill_bytes` or `try_fill_bytes` wrote (the others write none), and the generator afterwards. -/
def call (g : DRng) : Call → List UInt8 × DRng
  | .fill n => fillBytes n g
  | .tryFill n =>
    match tryFillBytes n g with
    | (.ok bs, g') => (bs, g')
    | (.error _, g') => ([], g')
  | .u32 => ([], (nextU32 g).2)
  | .u64 => ([], (nextU64 g).2)

/-- Calls one after the other, and all bytes written. -/
def calls (g : DRng) : List Call → List UInt8 × DRng
  | [] => ([], g)
  | c :: cs =>
    let r := call g c
    let r' := calls r.2 cs
    (r.1 ++ r'.1, r'.2)

end Verif.Rng

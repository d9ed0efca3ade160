import Verif.Model.Message

/-!
# Model of the wire format

`Message::serialize` and `Message::deserialize`, cdn-proto/src/message.rs:116-204 and 212-312, down to the bytes:
the accessors generated from the schema (cdn-proto/schema/messages_capnp.rs) and the parts of the `capnp` crate
(version 0.20.6, Cargo.lock) they call. The crate is not part of /repo; its behaviour is modelled from the published
encoding and from the crate's functions named below (trusted base, DESIGN.md).

A message consists of segments; a segment is a list of words of 64 bits, here natural numbers below `2 ^ 64`. Memory
accesses of the reader are explicit: an access outside of a segment (undefined behaviour in the crate, which uses raw
pointers) is the error `outOfBounds`, different from the error of a message that is refused.

Not modelled: the limit on nesting (64; these messages nest to depth 3), running out of memory.
-/

namespace Verif.Codec
open Verif

/-! ## Words -/

/-- `from_le_bytes`: number from bytes, least significant first. -/
def leNat : Bytes → Nat
  | [] => 0
  | b :: bs => b.toNat + 256 * leNat bs

/-- `to_le_bytes`: the `k` least significant bytes of a number. -/
def le : Nat → Nat → Bytes
  | 0, _ => []
  | k + 1, n => UInt8.ofNat n :: le k (n / 256)

/-- The first `n` words of a byte string, filled up with zero bytes. -/
def chunks : Nat → Bytes → List Nat
  | 0, _ => []
  | n + 1, bs => leNat (bs.take 8) :: chunks n (bs.drop 8)

/-- The bytes of some words. -/
def bytesOf (ws : List Nat) : Bytes := ws.flatMap (le 8)

/-! ## Pointers (`layout.rs` `WirePointer`) -/

/-- Struct pointer (kind 0) or list pointer (kind 1): target `off` words after the word that follows the pointer. -/
def mkPtr (kind off up : Nat) : Nat := kind + 4 * off + 2 ^ 32 * up

/-- `set_far(false, pos)`, `set_far_segment_id(seg)`. -/
def mkFar (pos seg : Nat) : Nat := 2 + 8 * pos + 2 ^ 32 * seg

def lo (w : Nat) : Nat := w % 2 ^ 32
def hi (w : Nat) : Nat := w / 2 ^ 32 % 2 ^ 32

def kind (w : Nat) : Nat := w % 4

/-- The offset: 30 bits, signed. -/
def off (w : Nat) : Int := if lo w / 4 < 2 ^ 29 then ↑(lo w / 4) else ↑(lo w / 4) - 2 ^ 30

/-- `struct_data_size`, `struct_ptr_count`, in words. -/
def dataWords (w : Nat) : Nat := hi w % 2 ^ 16
def ptrCount (w : Nat) : Nat := hi w / 2 ^ 16

/-- `list_element_size` (0 void, 1 bit, 2 byte, 3 two bytes, 4 four bytes, 5 eight bytes, 6 pointer, 7 inline
composite) and `list_element_count`. -/
def elemSize (w : Nat) : Nat := hi w % 8
def elemCount (w : Nat) : Nat := hi w / 8

def farPos (w : Nat) : Nat := lo w / 8
def farDouble (w : Nat) : Bool := lo w / 4 % 2 == 1
def farSeg (w : Nat) : Nat := hi w

/-! ## Writing -/

/-- `Allocator::allocate_segment`: how large the next segment should be, given the capacities of the existing ones. -/
abbrev Policy := List Nat → Nat

/-- `HeapAllocator` with `GrowHeuristically` (`Builder::new_default`, message.rs:118): `next_size` after some
segments. -/
def heap : Policy := fun caps =>
  caps.foldl (fun next size => if size < 2 ^ 29 - next then next + size else 2 ^ 29) 1024

/-- `BuilderArenaImpl`: capacity and used words of each segment, and the (zeroed) memory. -/
structure Bld where
  segs : List (Nat × Nat)
  word : Nat → Nat → Nat

namespace Bld

def set (b : Bld) (s i w : Nat) : Bld :=
  { b with word := fun s' i' => if s' = s ∧ i' = i then w else b.word s' i' }

/-- `BuilderArena::allocate`: `n` words in segment `s`, if they fit. -/
def alloc (b : Bld) (s n : Nat) : Option (Bld × Nat) :=
  match b.segs[s]? with
  | some (c, u) => if n ≤ c - u then some ({ b with segs := b.segs.set s (c, u + n) }, u) else none
  | none => none

/-- The first of these segments with room for `n` words. -/
def allocIn (b : Bld) (n : Nat) : List Nat → Option (Bld × Nat × Nat)
  | [] => none
  | s :: ss =>
    match b.alloc s n with
    | some (b', p) => some (b', s, p)
    | none => b.allocIn n ss

/-- `BuilderArena::allocate_anywhere`: existing segments first, else a new one. -/
def allocAnywhere (pol : Policy) (b : Bld) (n : Nat) : Bld × Nat × Nat :=
  match b.allocIn n (List.range b.segs.length) with
  | some r => r
  | none => ({ b with segs := b.segs ++ [(max n (pol (b.segs.map Prod.fst)), n)] }, b.segs.length, 0)

/-- `wire_helpers::allocate`: an object of `n` words for the (null) pointer at word `i` of segment `s`; in another
segment it is preceded by a landing pad. `up` is the upper half of the pointer, which the crate sets right after. Gives
the place of the object. -/
def allocate (pol : Policy) (b : Bld) (s i n kind up : Nat) : Bld × Nat × Nat :=
  match b.alloc s n with
  | some (b', p) => (b'.set s i (mkPtr kind (p - i - 1) up), s, p)
  | none =>
    let r := allocAnywhere pol b (n + 1)
    ((r.1.set s i (mkFar r.2.2 r.2.1)).set r.2.1 r.2.2 (mkPtr kind 0 up), r.2.1, r.2.2 + 1)

/-- Copy bytes to the words from `p` of segment `s`. -/
def fill (b : Bld) (s p : Nat) (data : Bytes) : Bld :=
  { b with word := fun s' j =>
      if s' = s ∧ p ≤ j ∧ j < p + (data.length + 7) / 8 then
        (chunks ((data.length + 7) / 8) data).getD (j - p) 0
      else b.word s' j }

/-- `set_data`, `init_list` with elements of one byte, `set_text` (with the NUL in `data`). The count is shifted left
by three bits as a `u32`. -/
def initBytes (pol : Policy) (b : Bld) (s i : Nat) (data : Bytes) : Bld :=
  let r := allocate pol b s i ((data.length + 7) / 8) 1 ((8 * data.length + 2) % 2 ^ 32)
  r.1.fill r.2.1 r.2.2 data

/-- `init_struct` with `d` words of data and `p` pointers: the new state and the place of the struct. -/
def initStruct (pol : Policy) (b : Bld) (s i d p : Nat) : Bld × Nat × Nat :=
  allocate pol b s i (d + p) 0 (d + 2 ^ 16 * p)

/-- `init_root`, message.rs:119: the first segment with one word for the root pointer. -/
def start (pol : Policy) : Bld := ⟨[(max 1 (pol []), 1)], fun _ _ => 0⟩

/-- `get_segments_for_output`: the used words of each segment. -/
def out (b : Bld) : List (List Nat) :=
  (List.range b.segs.length).map fun s => (List.range ((b.segs.getD s (0, 0)).2)).map (b.word s)

end Bld

/-- `write_message_segments_to_words`, message.rs:203: segment table, padded to words, and the segments. -/
def flatten (segs : List (List Nat)) : Bytes :=
  le 4 (segs.length - 1) ++ (segs.map List.length).flatMap (le 4) ++ (if segs.length % 2 = 0 then le 4 0 else []) ++
    bytesOf segs.flatten

/-- The bytes of a Rust string. -/
def utf8 (s : String) : Bytes := s.toUTF8.data.toList

/-- message.rs:121-201, after `init_root`: the tag of the union (`set_data_field::<u16>(0, _)`, messages_capnp.rs
246-336; the word was zero) and the content. -/
def build (pol : Policy) (m : Msg) : Bld :=
  let r := (Bld.start pol).initStruct pol 0 0 1 1
  let s := r.2.1
  let i := r.2.2
  match m with
  | .authKey k t g =>
    let b := r.1.set s i 0
    let q := b.initStruct pol s (i + 1) 1 2
    let b := q.1.initBytes pol q.2.1 (q.2.2 + 1) k
    let b := b.set q.2.1 q.2.2 t.toNat
    b.initBytes pol q.2.1 (q.2.2 + 2) g
  | .authPermit p =>
    let b := r.1.set s i 1
    let q := b.initStruct pol s (i + 1) 1 0
    q.1.set q.2.1 q.2.2 p.toNat
  | .authResponse p c =>
    let b := r.1.set s i 2
    let q := b.initStruct pol s (i + 1) 1 1
    let b := q.1.set q.2.1 q.2.2 p.toNat
    b.initBytes pol q.2.1 (q.2.2 + 1) (utf8 c ++ [0])
  | .direct r' m =>
    let b := r.1.set s i 3
    let q := b.initStruct pol s (i + 1) 0 2
    let b := q.1.initBytes pol q.2.1 q.2.2 r'
    b.initBytes pol q.2.1 (q.2.2 + 1) m
  | .broadcast ts m =>
    let b := r.1.set s i 4
    let q := b.initStruct pol s (i + 1) 0 2
    let b := q.1.initBytes pol q.2.1 q.2.2 ts
    b.initBytes pol q.2.1 (q.2.2 + 1) m
  | .subscribe ts => (r.1.set s i 5).initBytes pol s (i + 1) ts
  | .unsubscribe ts => (r.1.set s i 6).initBytes pol s (i + 1) ts
  | .userSync d => (r.1.set s i 7).initBytes pol s (i + 1) d
  | .topicSync d => (r.1.set s i 8).initBytes pol s (i + 1) d

/-- message.rs:116-204 `Message::serialize`, with the crate built for release; a debug build panics if a field has
`2 ^ 29` bytes or more (`set_list_size_and_count`). -/
def serialize (pol : Policy) (m : Msg) : Bytes := flatten (build pol m).out

/-! ## Reading -/

inductive Err where
  /-- `Err(..)` -/
  | malformed
  /-- memory outside of the message is read -/
  | outOfBounds
deriving DecidableEq

/-- Readers: the state is what is left of the traversal limit (`ReadLimiter`). -/
abbrev R := StateT Nat (Except Err)

abbrev Segs := List (List Nat)

/-- Read a word. -/
def wordAt (a : Segs) (s i : Nat) : R Nat :=
  match a[s]? with
  | some seg => match seg[i]? with | some w => pure w | none => throw .outOfBounds
  | none => throw .outOfBounds

/-- `ReaderArena::get_segment`: its length in words. -/
def segLen (a : Segs) (s : Nat) : R Nat :=
  match a[s]? with
  | some seg => pure seg.length
  | none => throw .malformed

/-- `ReadLimiter::can_read`. -/
def canRead (n : Nat) : R Unit := fun l => if l < n then .error .malformed else .ok ((), l - n)

/-- `bounds_check`, `contains_interval`. -/
def boundsCheck (a : Segs) (s p n : Nat) : R Unit := do
  let len ← segLen a s
  if p + n ≤ len then canRead n else throw .malformed

/-- `WirePointer::target` of the pointer `w` at word `i` of segment `s`, with `check_offset`. -/
def target (a : Segs) (s i w : Nat) : R Nat := do
  let len ← segLen a s
  let t : Int := i + 1 + off w
  if 0 ≤ t ∧ t ≤ len then pure t.toNat else throw .malformed

/-- `follow_fars` for the pointer `w` at word `i` of segment `s`: where the object is, and the pointer word that
describes it. -/
def followFars (a : Segs) (s i w : Nat) : R (Nat × Nat × Nat) := do
  if kind w = 2 then
    let _ ← segLen a (farSeg w)
    boundsCheck a (farSeg w) (farPos w) (if farDouble w then 2 else 1)
    let pad ← wordAt a (farSeg w) (farPos w)
    if farDouble w then
      let tag ← wordAt a (farSeg w) (farPos w + 1)
      let _ ← segLen a (farSeg pad)
      pure (farSeg pad, farPos pad, tag)
    else
      let p ← target a (farSeg w) (farPos w) pad
      pure (farSeg w, p, pad)
  else
    let p ← target a s i w
    pure (s, p, w)

/-- `StructReader`: place, words of data, number of pointers. -/
structure SR where
  seg : Nat
  pos : Nat
  data : Nat
  ptrs : Nat

/-- A pointer: a place, or the null pointer used for fields beyond the end of the struct. -/
abbrev Ptr := Option (Nat × Nat)

/-- The word of a pointer. -/
def ptrWord (a : Segs) : Ptr → R Nat
  | none => pure 0
  | some (s, i) => wordAt a s i

/-- `read_struct_pointer` (no default value). -/
def readStruct (a : Segs) (s i w : Nat) : R SR := do
  if w = 0 then pure ⟨0, 0, 0, 0⟩
  else
    let (s', p, tag) ← followFars a s i w
    if kind tag ≠ 0 then throw .malformed
    boundsCheck a s' p (dataWords tag + ptrCount tag)
    pure ⟨s', p, dataWords tag, ptrCount tag⟩

/-- `get_pointer_field`. -/
def SR.ptr (r : SR) (k : Nat) : Ptr := if k < r.ptrs then some (r.seg, r.pos + r.data + k) else none

/-- `get_data_field::<u64>(0)`: zero if the struct is too short. -/
def SR.word0 (a : Segs) (r : SR) : R Nat := if 0 < r.data then wordAt a r.seg r.pos else pure 0

/-- `get_struct` on a pointer field. -/
def getStruct (a : Segs) (p : Ptr) : R SR := do
  let w ← ptrWord a p
  match p with
  | none => pure ⟨0, 0, 0, 0⟩
  | some (s, i) => readStruct a s i w

/-- The words from `p` on of segment `s`, `n` of them. -/
def wordsAt (a : Segs) (s p n : Nat) : R (List Nat) :=
  match a[s]? with
  | some seg => if p + n ≤ seg.length then pure ((seg.drop p).take n) else throw .outOfBounds
  | none => throw .outOfBounds

/-- `read_data_pointer` (no default value). -/
def getData (a : Segs) (p : Ptr) : R Bytes := do
  let w ← ptrWord a p
  match p with
  | none => pure []
  | some (s, i) =>
    if w = 0 then pure []
    else
      let (s', p, tag) ← followFars a s i w
      if kind tag ≠ 1 then throw .malformed
      if elemSize tag ≠ 2 then throw .malformed
      boundsCheck a s' p ((elemCount tag + 7) / 8)
      let ws ← wordsAt a s' p ((elemCount tag + 7) / 8)
      pure ((bytesOf ws).take (elemCount tag))

/-- `read_text_pointer` (no default value), then `to_string`, message.rs:64-70: bytes up to a final NUL, UTF-8. -/
def getText (a : Segs) (p : Ptr) : R String := do
  let w ← ptrWord a p
  match p with
  | none => pure ""
  | some (s, i) =>
    if w = 0 then pure ""
    else
      let (s', p, tag) ← followFars a s i w
      if kind tag ≠ 1 then throw .malformed
      if elemSize tag ≠ 2 then throw .malformed
      boundsCheck a s' p ((elemCount tag + 7) / 8)
      let ws ← wordsAt a s' p ((elemCount tag + 7) / 8)
      let bs := (bytesOf ws).take (elemCount tag)
      if bs.getLast? ≠ some 0 then throw .malformed
      match String.fromUTF8? ⟨bs.dropLast.toArray⟩ with
      | some str => pure str
      | none => throw .malformed

/-- Bytes per element of a list that may be read as a list of bytes: not void, bits or pointers. -/
def elemBytes : Nat → Option Nat
  | 2 => some 1
  | 3 => some 2
  | 4 => some 4
  | 5 => some 8
  | _ => none

/-- Bits per element of a list that is not inline composite. -/
def elemBits : Nat → Nat
  | 0 => 0
  | 1 => 1
  | 2 => 8
  | 3 => 16
  | 4 => 32
  | _ => 64

/-- The first byte of each of `n` elements of `step` bytes. -/
def strided (step n : Nat) (bs : Bytes) : R Bytes :=
  if n = 0 ∨ (n - 1) * step < bs.length then pure ((List.range n).map fun k => bs.getD (k * step) 0)
  else throw .outOfBounds

/-- Part of `read_list_pointer`: an inline composite list; `elemCount` of the pointer is the number of words after the
tag. -/
def compositeTopics (a : Segs) (s p tag : Nat) : R (List Topic) := do
  boundsCheck a s p (elemCount tag + 1)
  let etag ← wordAt a s p
  if kind etag ≠ 0 then throw .malformed
  let n := lo etag / 4
  let step := dataWords etag + ptrCount etag
  if n * step > elemCount tag then throw .malformed
  if step = 0 then canRead n
  if dataWords etag = 0 then throw .malformed
  let ws ← wordsAt a s (p + 1) (elemCount tag)
  strided (8 * step) n (bytesOf ws)

/-- Part of `read_list_pointer`: a list of numbers, bits or pointers. -/
def plainTopics (a : Segs) (s p tag : Nat) : R (List Topic) := do
  let nw := (elemCount tag * elemBits (elemSize tag) + 63) / 64
  boundsCheck a s p nw
  if elemSize tag = 0 then canRead (elemCount tag)
  match elemBytes (elemSize tag) with
  | none => throw .malformed
  | some step =>
    let ws ← wordsAt a s p nw
    strided step (elemCount tag) (bytesOf ws)

/-- `read_list_pointer` with elements of one byte expected, then reading all elements (message.rs:40-44). Lists of
larger elements, and of structs with data, are accepted: the first byte of each element is taken. -/
def getTopics (a : Segs) (p : Ptr) : R (List Topic) := do
  let w ← ptrWord a p
  match p with
  | none => pure []
  | some (s, i) =>
    if w = 0 then pure []
    else
      let (s', p, tag) ← followFars a s i w
      if kind tag ≠ 1 then throw .malformed
      if elemSize tag = 7 then compositeTopics a s' p tag else plainTopics a s' p tag

/-- message.rs:232-311: the content, given the tag of the union and the pointer. -/
def readBody (a : Segs) (t : Nat) (p : Ptr) : R Msg := do
  match t % 2 ^ 16 with
  | 0 =>
    let r ← getStruct a p
    let k ← getData a (r.ptr 0)
    let t ← r.word0 a
    let g ← getData a (r.ptr 1)
    pure (.authKey k (UInt64.ofNat t) g)
  | 1 =>
    let r ← getStruct a p
    let t ← r.word0 a
    pure (.authPermit (UInt64.ofNat t))
  | 2 =>
    let r ← getStruct a p
    let t ← r.word0 a
    let c ← getText a (r.ptr 0)
    pure (.authResponse (UInt64.ofNat t) c)
  | 3 =>
    let r ← getStruct a p
    let x ← getData a (r.ptr 0)
    let y ← getData a (r.ptr 1)
    pure (.direct x y)
  | 4 =>
    let r ← getStruct a p
    let x ← getTopics a (r.ptr 0)
    let y ← getData a (r.ptr 1)
    pure (.broadcast x y)
  | 5 => return .subscribe (← getTopics a p)
  | 6 => return .unsubscribe (← getTopics a p)
  | 7 => return .userSync (← getData a p)
  | 8 => return .topicSync (← getData a p)
  | _ => throw .malformed

/-- message.rs:223-311: from the segments to the message. -/
def readMsg (a : Segs) : R Msg := do
  -- `PointerReader::get_root`
  boundsCheck a 0 0 1
  let w ← wordAt a 0 0
  let m ← readStruct a 0 0 w
  -- `which`, messages_capnp.rs:121-169: `get_data_field::<u16>(0)`
  let t ← m.word0 a
  readBody a t (m.ptr 0)

/-- Cut words into segments of these lengths. -/
def split : List Nat → List Nat → Segs
  | [], _ => []
  | n :: ns, ws => ws.take n :: split ns (ws.drop n)

/-- `serialize::read_message` with traversal limit `limit`: the segment table (`read_segment_table`) and the segments
(`read_segments`). Bytes after the last segment are ignored. -/
def readSegs (limit : Nat) (bs : Bytes) : Except Err Segs :=
  if bs.length < 8 then .error .malformed
  else
    let count := (leNat (bs.take 4) + 1) % 2 ^ 32
    if 512 ≤ count ∨ count = 0 then .error .malformed
    else if bs.length < 8 + 8 * (count / 2) then .error .malformed
    else
      let lens := (List.range count).map fun k => leNat ((bs.drop (4 + 4 * k)).take 4)
      let body := bs.drop (8 + 8 * (count / 2))
      if limit < lens.sum then .error .malformed
      else if body.length < 8 * lens.sum then .error .malformed
      else .ok (split lens (chunks lens.sum body))

/-- message.rs:212-312 `Message::deserialize`. -/
def deserialize (bs : Bytes) : Except Err Msg :=
  match readSegs bs.length bs with
  | .error e => .error e
  | .ok a =>
    match readMsg a bs.length with
    | .ok (m, _) => .ok m
    | .error e => .error e

end Verif.Codec

import Verif.Model.Message

/-!
# Model of a connection: framing, sender task, receiver task

`cdn-proto/src/connection/protocols/mod.rs`. One direction of a connection: the caller's channel into
the sender task (lines 156-186), the byte stream, the receiver task (lines 189-209) and the channel to
the other caller.

The stream itself (TCP, TLS, QUIC, memory) is external. It is assumed to carry bytes reliably and in
order, and to lose nothing but a suffix when it breaks (`cut`).
-/

namespace Verif.Frame
open Verif

/-- `u32::MAX`, the largest length `write_u32` can carry. -/
def u32Max : Nat := 4294967295

/-- cdn-proto/src/lib.rs `MAX_MESSAGE_SIZE: u32 = u32::MAX / 8`. -/
def maxMessageSize : Nat := u32Max / 8

/-- `AsyncWriteExt::write_u32`: four bytes, most significant first. -/
def be32 (n : Nat) : Bytes :=
  [UInt8.ofNat (n / 16777216), UInt8.ofNat (n / 65536), UInt8.ofNat (n / 256), UInt8.ofNat n]

/-- `AsyncReadExt::read_u32`. -/
def readBe32 (a b c d : UInt8) : Nat := a.toNat * 16777216 + b.toNat * 65536 + c.toNat * 256 + d.toNat

/-- write_length_delimited, mod.rs:354-395: `none` when the length does not fit a `u32` (lines 359-363),
otherwise the bytes written (lines 366-384). Timeouts and stream errors in between are the label
`writeFail` below. -/
def frame (m : Bytes) : Option Bytes :=
  if m.length ≤ u32Max then some (be32 m.length ++ m) else none

/-! ## The sending half -/

/-- `BytesOrSoftClose`, mod.rs:90-93. The number stands for the `oneshot` sender. -/
inductive Item where
  | bytes (m : Bytes)
  | softClose (id : Nat)
deriving DecidableEq

/-- What the users of a connection can observe. -/
inductive Obs where
  /-- a message or soft close request was accepted by the channel -/
  | accepted (i : Item)
  /-- sending failed: the channel is closed -/
  | sendError
  /-- a whole message was written to the stream and flushed -/
  | wrote (m : Bytes)
  /-- soft close request `id` was acknowledged -/
  | acked (id : Nat)
  /-- the receiver task asks for memory for a message of this size -/
  | reserve (n : Nat)
  /-- the application received a message -/
  | got (m : Bytes)
  /-- receiving failed: nothing is left and the receiver task has ended -/
  | recvError
deriving DecidableEq

/-- Where the receiver task is, mod.rs:189-209 and read_length_delimited 311-351. -/
inductive Phase where
  /-- at `read_u32`, line 317 -/
  | header
  /-- waiting for `allocate_message_bytes`, line 328 -/
  | waiting (n : Nat)
  /-- at `read_exact`, line 336 -/
  | body (n : Nat)
  /-- at `send_to_caller.send`, line 196 -/
  | handing (m : Bytes)
  /-- the task has ended -/
  | stopped
deriving DecidableEq

/-- One direction of a connection. -/
structure Link where
  /-- capacity of both channels (`connection_message_pool_size`, lines 149-153); `none`: unbounded -/
  cap : Option Nat
  /-- channel from the caller to the sender task -/
  sendQ : List Item := []
  sendClosed : Bool := false
  /-- the sender task is running -/
  writer : Bool := true
  /-- bytes written to the stream and not arrived yet -/
  wire : Bytes := []
  /-- nothing will follow the bytes in `wire` -/
  wireClosed : Bool := false
  /-- the stream is broken: bytes written from now on are lost -/
  broken : Bool := false
  /-- bytes arrived and not read yet -/
  buf : Bytes := []
  /-- the reader can see the end of the stream -/
  eof : Bool := false
  phase : Phase := .header
  /-- channel from the receiver task to the caller -/
  recvQ : List Bytes := []
  recvClosed : Bool := false

/-- What can happen next. A label that cannot happen in a state leaves the state unchanged, so that any
list of labels is a schedule. -/
inductive Label where
  /-- the caller sends (`send_message_raw` 239-251, first half of `soft_close` 287-299) -/
  | send (i : Item)
  /-- the sender task handles the next item, successfully -/
  | write
  /-- the sender task fails, or is aborted, after `k` bytes of the current message -/
  | writeFail (k : Nat)
  /-- the caller's handle is dropped (105-116) -/
  | dropSender
  /-- the stream breaks: only the next `k` bytes still arrive -/
  | cut (k : Nat)
  /-- up to `k` more bytes arrive -/
  | arrive (k : Nat)
  /-- the end of the stream is seen -/
  | arriveEnd
  /-- the receiver task reads a length -/
  | readHeader
  /-- memory is granted -/
  | grant
  /-- the receiver task reads a body -/
  | readBody
  /-- reading fails, or takes too long (lines 334-343) -/
  | readFail
  /-- the receiver task hands the message over -/
  | hand
  /-- the caller receives (`recv_message_raw` 274-281) -/
  | recv
  /-- the receiving handle is dropped (105-116) -/
  | dropReceiver
deriving DecidableEq

/-- Is there room in a channel holding `len` items? -/
def room (cap : Option Nat) (len : Nat) : Bool :=
  match cap with
  | none => true
  | some c => decide (len < c)

/-- The sender task returns: its end of the stream is dropped (it owns `writer`), and
`receive_from_caller` is closed (lines 162-166, 170-174). -/
def Link.stopWriter (s : Link) : Link :=
  { s with writer := false, sendClosed := true, wireClosed := true }

/-- One step. -/
def Link.step (s : Link) : Label → Link × List Obs
  -- 239-251, 287-299: a closed channel is an error, a full one makes the caller wait
  | .send i =>
    if s.sendClosed then (s, [.sendError])
    else if room s.cap s.sendQ.length then ({ s with sendQ := s.sendQ ++ [i] }, [.accepted i])
    else (s, [])
  -- 158-184
  | .write =>
    if s.writer then
      match s.sendQ with
      | [] => if s.sendClosed then (s.stopWriter, []) else (s, [])
      | .bytes m :: q =>
        match frame m with
        | some f => ({ s with sendQ := q, wire := if s.broken then s.wire else s.wire ++ f }, [.wrote m])
        | none => ({ s with sendQ := q }.stopWriter, [])
      | .softClose id :: q => ({ s with sendQ := q }, [.acked id])
    else (s, [])
  -- 162-174 (error arms), or the task is aborted (112-114)
  | .writeFail k =>
    if s.writer then
      match s.sendQ with
      | .bytes m :: q =>
        match frame m with
        | some f =>
          ({ s with sendQ := q, wire := if s.broken then s.wire else s.wire ++ f.take k }.stopWriter, [])
        | none => ({ s with sendQ := q }.stopWriter, [])
      | _ => (s.stopWriter, [])
    else (s, [])
  -- 105-116
  | .dropSender => (s.stopWriter, [])
  -- the writer may not notice
  | .cut k => ({ s with wire := s.wire.take k, broken := true, wireClosed := true }, [])
  | .arrive k => ({ s with wire := s.wire.drop k, buf := s.buf ++ s.wire.take k }, [])
  | .arriveEnd => if s.wireClosed && s.wire.isEmpty then ({ s with eof := true }, []) else (s, [])
  -- 316-328
  | .readHeader =>
    match s.phase with
    | .header =>
      match s.buf with
      | a :: b :: c :: d :: rest =>
        if readBe32 a b c d > maxMessageSize then ({ s with buf := rest, phase := .stopped }, [])
        else ({ s with buf := rest, phase := .waiting (readBe32 a b c d) }, [.reserve (readBe32 a b c d)])
      | _ => if s.eof then ({ s with phase := .stopped }, []) else (s, [])
    | _ => (s, [])
  -- 328: granted by the limiter, see `Model/Pool`
  | .grant =>
    match s.phase with
    | .waiting n => ({ s with phase := .body n }, [])
    | _ => (s, [])
  -- 331-343, 350
  | .readBody =>
    match s.phase with
    | .body n =>
      if n ≤ s.buf.length then ({ s with buf := s.buf.drop n, phase := .handing (s.buf.take n) }, [])
      else if s.eof then ({ s with phase := .stopped }, [])
      else (s, [])
    | _ => (s, [])
  -- 201-205
  | .readFail =>
    match s.phase with
    | .header => ({ s with phase := .stopped }, [])
    | .body _ => ({ s with phase := .stopped }, [])
    | _ => (s, [])
  -- 193-200
  | .hand =>
    match s.phase with
    | .handing m =>
      if s.recvClosed then ({ s with phase := .stopped }, [])
      else if room s.cap s.recvQ.length then
        ({ s with phase := .header, recvQ := s.recvQ ++ [m] }, [])
      else (s, [])
    | _ => (s, [])
  -- 274-281: messages already in the channel can be received after the task has ended
  | .recv =>
    match s.recvQ with
    | m :: q => ({ s with recvQ := q }, [.got m])
    | [] => if s.phase = .stopped then (s, [.recvError]) else (s, [])
  -- 105-116
  | .dropReceiver => ({ s with phase := .stopped, recvClosed := true, recvQ := [] }, [])

/-- A schedule. -/
def Link.run (s : Link) : List Label → Link × List Obs
  | [] => (s, [])
  | l :: ls =>
    let r := s.step l
    let r' := r.1.run ls
    (r'.1, r.2 ++ r'.2)

/-- A fresh connection (139-217). -/
def Link.new (cap : Option Nat) : Link := { cap := cap }

end Verif.Frame

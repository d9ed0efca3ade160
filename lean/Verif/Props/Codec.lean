import Verif.Lemmas.CodecRead
import Verif.Lemmas.CodecSize
import Verif.Props.Frame

/-!
# Properties of the wire format: C30, C31, and C69 about messages over a connection
-/

namespace Verif.Props.Codec
open Verif Verif.Codec Verif.Frame Verif.Props.Frame

deriving instance DecidableEq for Except

/-! ## C30: messages round-trip -/

/-- The lists of bytes a message consists of, as they are written; a text is written with a final zero byte. -/
def fields : Msg → List Bytes
  | .authKey publicKey _ signature => [publicKey, signature]
  | .authPermit _ => []
  | .authResponse _ context => [context.toUTF8.data.toList ++ [0]]
  | .direct recipient message => [recipient, message]
  | .broadcast topics message => [topics, message]
  | .subscribe topics => [topics]
  | .unsubscribe topics => [topics]
  | .userSync data => [data]
  | .topicSync data => [data]

theorem fields_eq (m : Msg) : fields m = lists m := by cases m <;> rfl

/-- **C30**, with the condition under which it holds: a message all of whose fields have fewer than `2 ^ 29` bytes is
read back as it was, however the writer divides its memory into segments. -/
theorem C30_partial (pol : Policy) (m : Msg) (h : ∀ f ∈ fields m, f.length < 2 ^ 29) :
    deserialize (serialize pol m) = .ok m := by
  rw [fields_eq] at h
  exact deserialize_serialize pol m ((fits_iff m).2 h)

/-- The condition cannot be weakened: no bytes at all are read as a message with a longer field. -/
theorem C30_exactly (pol : Policy) (m : Msg) :
    deserialize (serialize pol m) = .ok m ↔ ∀ f ∈ fields m, f.length < 2 ^ 29 := by
  refine ⟨fun h => ?_, C30_partial pol m⟩
  rw [fields_eq, ← fits_iff]
  rcases deserialize_spec (serialize pol m) with ⟨m', h1, h2⟩ | h1
  · rw [h] at h1
    cases h1
    exact h2.1
  · rw [h] at h1
    cases h1

/-- **C30 is false** as stated: a message with a field of `2 ^ 29` bytes is not read back. -/
theorem C30_false : ¬ ∀ (pol : Policy) (m : Msg), deserialize (serialize pol m) = .ok m := by
  intro h
  obtain ⟨l, hl⟩ : ∃ l : Bytes, l.length = 2 ^ 29 := ⟨List.replicate (2 ^ 29) 0, List.length_replicate⟩
  have := (C30_exactly heap (.userSync l)).1 (h _ _) l (by simp [fields])
  omega

/-- But every encoded message short enough to be received (`MAX_MESSAGE_SIZE`) is read back. -/
theorem C30_receivable (pol : Policy) (m : Msg) (h : (serialize pol m).length ≤ maxMessageSize) :
    deserialize (serialize pol m) = .ok m := by
  refine C30_partial pol m fun f hf => ?_
  rw [fields_eq] at hf
  have := length_lt_serialize pol m f hf
  have hmax : maxMessageSize = 2 ^ 29 - 1 := by decide
  omega

/-- Different messages, of the same or of different kinds, have different encodings, even if they are written with
different divisions into segments. -/
theorem C30_injective (pol pol' : Policy) (m m' : Msg) (h : ∀ f ∈ fields m, f.length < 2 ^ 29)
    (h' : ∀ f ∈ fields m', f.length < 2 ^ 29) (he : serialize pol m = serialize pol' m') : m = m' := by
  have h1 := C30_partial pol m h
  rw [he, C30_partial pol' m' h'] at h1
  exact (Except.ok.inj h1).symm

/-- The encoding of a small message, byte by byte. -/
example : serialize heap (.subscribe [7, 9]) =
    [0, 0, 0, 0, 4, 0, 0, 0,
     0, 0, 0, 0, 1, 0, 1, 0,
     5, 0, 0, 0, 0, 0, 0, 0,
     1, 0, 0, 0, 18, 0, 0, 0,
     7, 9, 0, 0, 0, 0, 0, 0] := by decide +kernel

/-- A message in several segments (with segments of one word each). -/
example : deserialize (serialize (fun _ => 1) (.direct [1, 2, 3] [4, 5, 6, 7, 8, 9, 10, 11, 12])) =
    .ok (.direct [1, 2, 3] [4, 5, 6, 7, 8, 9, 10, 11, 12]) := C30_partial _ _ (by decide)

example : (build (fun _ => 1) (.direct [1, 2, 3] [4, 5, 6, 7, 8, 9, 10, 11, 12])).segs.length = 5 := by decide +kernel

/-! ## C31: decoding arbitrary bytes -/

/-- The fields that are copied from the message: data, and texts as UTF-8. -/
def dataFields : Msg → List Bytes
  | .authKey publicKey _ signature => [publicKey, signature]
  | .authPermit _ => []
  | .authResponse _ context => [context.toUTF8.data.toList]
  | .direct recipient message => [recipient, message]
  | .broadcast _ message => [message]
  | .subscribe _ => []
  | .unsubscribe _ => []
  | .userSync data => [data]
  | .topicSync data => [data]

def topicFields : Msg → List (List Topic)
  | .broadcast topics _ => [topics]
  | .subscribe topics => [topics]
  | .unsubscribe topics => [topics]
  | _ => []

/-- **C31**: any bytes give a message, or they are refused; no memory outside of them is read. -/
theorem C31_no_overread (bs : Bytes) : (∃ m, deserialize bs = .ok m) ∨ deserialize bs = .error .malformed := by
  rcases deserialize_spec bs with ⟨m, h, _⟩ | h
  · exact Or.inl ⟨m, h⟩
  · exact Or.inr h

/-- **C31**: the data in the message is made of consecutive bytes received, topics of bytes received, in their order. -/
theorem C31_slices (bs : Bytes) (m : Msg) (h : deserialize bs = .ok m) :
    (∀ f ∈ dataFields m, f <:+: bs) ∧ ∀ ts ∈ topicFields m, ts.Sublist bs := by
  rcases deserialize_spec bs with ⟨m', h1, h2⟩ | h1
  · rw [h] at h1
    cases h1
    obtain ⟨_, h2⟩ := h2
    cases m <;> simp only [dataFields, topicFields, List.mem_cons, List.not_mem_nil, or_false, false_implies,
      forall_const, and_true, true_and, forall_eq, forall_eq_or_imp] at h2 ⊢ <;>
      first | exact h2 | exact ⟨h2.2, h2.1⟩
  · rw [h] at h1
    cases h1

/-- **C31**: no field is longer than what was received, and no field has a byte that was not received. -/
theorem C31_bounded (bs : Bytes) (m : Msg) (h : deserialize bs = .ok m) :
    (∀ f ∈ dataFields m, f.length ≤ bs.length ∧ ∀ b ∈ f, b ∈ bs) ∧
    ∀ ts ∈ topicFields m, ts.length ≤ bs.length ∧ ∀ t ∈ ts, t ∈ bs := by
  obtain ⟨h1, h2⟩ := C31_slices bs m h
  exact ⟨fun f hf => ⟨(h1 f hf).length_le, fun b hb => (h1 f hf).subset hb⟩,
    fun f hf => ⟨(h2 f hf).length_le, fun b hb => (h2 f hf).subset hb⟩⟩

/-- Eight zero words: the root pointer is null, and a null root is read as the first kind of message with empty
fields. -/
example : deserialize (le 4 0 ++ le 4 1 ++ le 8 0) = .ok (.authKey [] 0 []) := by decide +kernel

/-- Bytes after the last segment are ignored. -/
example : deserialize (serialize heap (.subscribe [7, 9]) ++ [1, 2, 3]) = .ok (.subscribe [7, 9]) := by decide +kernel

/-- A list of two numbers of 16 bits where topics are expected: the lower bytes are taken. -/
example : deserialize (le 4 0 ++ le 4 4 ++ bytesOf [mkPtr 0 0 (1 + 2 ^ 16), 5, mkPtr 1 0 (8 * 2 + 3), 0xAABBCCDD]) =
    .ok (.subscribe [0xDD, 0xBB]) := by decide +kernel

/-- A pointer out of the message is refused. -/
example : deserialize (le 4 0 ++ le 4 4 ++ bytesOf [mkPtr 0 0 (1 + 2 ^ 16), 5, mkPtr 1 0 (8 * 9 + 2), 0]) =
    .error .malformed := by decide +kernel

/-! ## C69: messages over a connection -/

theorem delivered_small (cap : Option Nat) (ls : List Label) :
    ∀ m ∈ delivered ((Link.new cap).run ls).2, m.length ≤ maxMessageSize := by
  have h := inv_run ls true (Link.new cap) [] (inv_new cap)
  rw [List.nil_append] at h
  obtain ⟨_, arrived, done, pend, sent, handled, hr, hs⟩ := h
  rw [delivered_eq]
  intro m hm
  exact hr.small m ((tail_received hr.tail).subset hm)

/-- **C69**: if one side of a connection sends messages, then, whatever happens, what the other side has received up to
any moment decodes, each without an error, to the first of the messages sent, in order. -/
theorem C69_decodes_to_prefix (pol : Policy) (cap : Option Nat) (ls : List Label) (sent : List Msg)
    (h : submitted ((Link.new cap).run ls).2 = sent.map (serialize pol)) :
    ∃ got, got <+: sent ∧ (delivered ((Link.new cap).run ls).2).map deserialize = got.map .ok := by
  have h1 := C25_received_is_prefix cap ls
  rw [h] at h1
  have h2 := delivered_small cap ls
  generalize delivered ((Link.new cap).run ls).2 = d at h1 h2
  obtain ⟨got, rest, rfl, rfl, -⟩ : ∃ got rest, sent = got ++ rest ∧ d = got.map (serialize pol) ∧ True := by
    obtain ⟨r, hr⟩ := h1
    obtain ⟨got, rest, h3, h4, _⟩ := List.map_eq_append_iff.1 hr.symm
    exact ⟨got, rest, h3, h4.symm, trivial⟩
  refine ⟨got, List.prefix_append _ _, ?_⟩
  rw [List.map_map]
  exact List.map_congr_left fun m hm => C30_receivable pol m (h2 _ (List.mem_map_of_mem hm))

/-- **C69**: and if nothing fails, all of them are received, provided that they are short enough. -/
theorem C69_all_decoded (pol : Policy) (cap : Option Nat) (hcap : cap ≠ some 0) (ls : List Label)
    (hl : ∀ l ∈ ls, Label.failure l = false) (sent : List Msg)
    (h : submitted ((Link.new cap).run ls).2 = sent.map (serialize pol))
    (hs : ∀ m ∈ sent, (serialize pol m).length ≤ maxMessageSize) (hidle : Idle ((Link.new cap).run ls).1) :
    (delivered ((Link.new cap).run ls).2).map deserialize = sent.map .ok := by
  rw [C25_all_received cap hcap ls hl (by rw [h]; simpa using hs) hidle, h, List.map_map]
  exact List.map_congr_left fun m hm => C30_receivable pol m (hs m hm)

/-- Two messages over a connection that breaks: the first is received, the second is not. -/
example :
    let a := Msg.authPermit 5
    let b := Msg.subscribe [1, 2]
    let r := (Link.new none).run [.send (.bytes (serialize heap a)), .send (.bytes (serialize heap b)), .write, .write,
      .cut 60, .arrive 70, .arriveEnd, .readHeader, .grant, .readBody, .hand, .readHeader, .grant, .readBody, .hand, .recv]
    submitted r.2 = [a, b].map (serialize heap) ∧ (delivered r.2).map deserialize = [.ok a] := by decide +kernel

end Verif.Props.Codec

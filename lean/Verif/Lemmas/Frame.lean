import Verif.Model.Frame

/-!
# Lemmas about framing and connections
-/

namespace Verif.Frame
open Verif

/-! ## Encoding -/

theorem be32_length (n : Nat) : (be32 n).length = 4 := rfl

theorem readBe32_be32 (n : Nat) (h : n ≤ u32Max) :
    readBe32 (UInt8.ofNat (n / 16777216)) (UInt8.ofNat (n / 65536)) (UInt8.ofNat (n / 256))
      (UInt8.ofNat n) = n := by
  unfold u32Max at h
  simp only [readBe32, UInt8.toNat_ofNat']
  omega

theorem be32_readBe32 (a b c d : UInt8) : be32 (readBe32 a b c d) = [a, b, c, d] := by
  have ha := a.toNat_lt; have hb := b.toNat_lt; have hc := c.toNat_lt; have hd := d.toNat_lt
  unfold be32 readBe32
  have e1 : (a.toNat * 16777216 + b.toNat * 65536 + c.toNat * 256 + d.toNat) / 16777216 = a.toNat := by
    omega
  have e2 : UInt8.ofNat ((a.toNat * 16777216 + b.toNat * 65536 + c.toNat * 256 + d.toNat) / 65536) = b := by
    apply UInt8.toNat_inj.1
    rw [UInt8.toNat_ofNat']; omega
  have e3 : UInt8.ofNat ((a.toNat * 16777216 + b.toNat * 65536 + c.toNat * 256 + d.toNat) / 256) = c := by
    apply UInt8.toNat_inj.1
    rw [UInt8.toNat_ofNat']; omega
  have e4 : UInt8.ofNat (a.toNat * 16777216 + b.toNat * 65536 + c.toNat * 256 + d.toNat) = d := by
    apply UInt8.toNat_inj.1
    rw [UInt8.toNat_ofNat']; omega
  rw [e1, e2, e3, e4]
  simp

theorem readBe32_le (a b c d : UInt8) : readBe32 a b c d ≤ u32Max := by
  have ha := a.toNat_lt; have hb := b.toNat_lt; have hc := c.toNat_lt; have hd := d.toNat_lt
  unfold readBe32 u32Max; omega

theorem be32_inj {n m : Nat} (hn : n ≤ u32Max) (hm : m ≤ u32Max) (h : be32 n = be32 m) : n = m := by
  rw [← readBe32_be32 n hn, ← readBe32_be32 m hm]
  simp only [be32, List.cons.injEq] at h
  rw [h.1, h.2.1, h.2.2.1, h.2.2.2.1]

theorem max_le : maxMessageSize ≤ u32Max := by decide

/-- The bytes of a sequence of messages. -/
def encode : List Bytes → Bytes
  | [] => []
  | m :: ms => be32 m.length ++ m ++ encode ms

theorem encode_append (a b : List Bytes) : encode (a ++ b) = encode a ++ encode b := by
  induction a with
  | nil => rfl
  | cons m ms ih => simp only [List.cons_append, encode, ih, List.append_assoc]

theorem encode_single (m : Bytes) : encode [m] = be32 m.length ++ m := by simp [encode]

/-- Frames can be told apart: complete frames at the start of a stream of frames are the first ones. -/
theorem encode_prefix (done sent : List Bytes) (x : Bytes)
    (hd : ∀ m ∈ done, m.length ≤ u32Max) (hs : ∀ m ∈ sent, m.length ≤ u32Max)
    (h : encode done ++ x = encode sent) : ∃ rest, sent = done ++ rest ∧ x = encode rest := by
  induction done generalizing sent with
  | nil => exact ⟨sent, rfl, h⟩
  | cons d ds ih =>
    cases sent with
    | nil => simp [encode, be32] at h
    | cons t ts =>
      have h' : be32 d.length ++ (d ++ (encode ds ++ x)) = be32 t.length ++ (t ++ encode ts) := by
        simpa [encode, List.append_assoc] using h
      obtain ⟨h1, h2⟩ := List.append_inj h' rfl
      have hl := be32_inj (hd d List.mem_cons_self) (hs t List.mem_cons_self) h1
      obtain ⟨h3, h4⟩ := List.append_inj h2 hl
      obtain ⟨r, e1, e2⟩ := ih ts (fun m hm => hd m (List.mem_cons_of_mem _ hm))
        (fun m hm => hs m (List.mem_cons_of_mem _ hm)) h4
      exact ⟨r, by rw [h3, e1]; rfl, e2⟩

/-- The same when the stream is cut somewhere. -/
theorem encode_prefix_le (done sent : List Bytes) (x y : Bytes)
    (hd : ∀ m ∈ done, m.length ≤ u32Max) (hs : ∀ m ∈ sent, m.length ≤ u32Max)
    (h : encode done ++ x ++ y = encode sent) : done <+: sent := by
  rw [List.append_assoc] at h
  obtain ⟨r, e, _⟩ := encode_prefix done sent (x ++ y) hd hs h
  exact ⟨r, e.symm⟩

/-! ## What a trace says -/

def acceptedItems : List Obs → List Item
  | [] => []
  | .accepted i :: l => i :: acceptedItems l
  | _ :: l => acceptedItems l

/-- The messages among items. -/
def msgs : List Item → List Bytes
  | [] => []
  | .bytes m :: l => m :: msgs l
  | .softClose _ :: l => msgs l

def wrote : List Obs → List Bytes
  | [] => []
  | .wrote m :: l => m :: wrote l
  | _ :: l => wrote l

def received : List Obs → List Bytes
  | [] => []
  | .got m :: l => m :: received l
  | _ :: l => received l

def reserved : List Obs → List Nat
  | [] => []
  | .reserve n :: l => n :: reserved l
  | _ :: l => reserved l

theorem acceptedItems_append (a b : List Obs) :
    acceptedItems (a ++ b) = acceptedItems a ++ acceptedItems b := by
  induction a with
  | nil => rfl
  | cons o l ih => cases o <;> simp [acceptedItems, ih]

theorem msgs_append (a b : List Item) : msgs (a ++ b) = msgs a ++ msgs b := by
  induction a with
  | nil => rfl
  | cons o l ih => cases o <;> simp [msgs, ih]

theorem wrote_append (a b : List Obs) : wrote (a ++ b) = wrote a ++ wrote b := by
  induction a with
  | nil => rfl
  | cons o l ih => cases o <;> simp [wrote, ih]

theorem received_append (a b : List Obs) : received (a ++ b) = received a ++ received b := by
  induction a with
  | nil => rfl
  | cons o l ih => cases o <;> simp [received, ih]

theorem reserved_append (a b : List Obs) : reserved (a ++ b) = reserved a ++ reserved b := by
  induction a with
  | nil => rfl
  | cons o l ih => cases o <;> simp [reserved, ih]

/-! ## The receiving half -/

/-- Labels that end the receiver task before its time. -/
def Label.breaksReader : Label → Bool
  | .readFail => true
  | .dropReceiver => true
  | _ => false

/-- A length read and its body not yet. -/
def pendBytes : Option Nat → Bytes
  | none => []
  | some n => be32 n

/-- Where the receiver task is. `ok`: it was not broken by a failure. -/
def Tail (ok : Bool) (s : Link) (rcv : List Bytes) (done : List Bytes) (pend : Option Nat) : Prop :=
  match s.phase with
  | .header => pend = none ∧ done = rcv ++ s.recvQ
  | .waiting n => pend = some n ∧ n ≤ maxMessageSize ∧ done = rcv ++ s.recvQ
  | .body n => pend = some n ∧ n ≤ maxMessageSize ∧ done = rcv ++ s.recvQ
  | .handing m => pend = none ∧ done = rcv ++ s.recvQ ++ [m]
  | .stopped => (rcv ++ s.recvQ) <+: done ∧ (ok = true → done = rcv ++ s.recvQ ∧
      match pend with
      | none => s.eof = true ∧ s.buf.length < 4
      | some n => maxMessageSize < n ∨ (s.eof = true ∧ s.buf.length < n))

/-- Invariant of the receiving half. `arrived`: all bytes that ever arrived. -/
structure RInv (ok : Bool) (arrived : Bytes) (s : Link) (obs : List Obs) (done : List Bytes)
    (pend : Option Nat) : Prop where
  small : ∀ m ∈ done, m.length ≤ maxMessageSize
  pendSmall : ∀ n, pend = some n → n ≤ u32Max
  bytes : arrived = encode done ++ pendBytes pend ++ s.buf
  res : reserved obs = done.map List.length ++ pend.toList.filter (fun n => decide (n ≤ maxMessageSize))
  tail : Tail ok s (received obs) done pend
  open' : ok = true → s.recvClosed = false
  eofWire : s.eof = true → s.wireClosed = true ∧ s.wire = []
  closedWire : s.wireClosed = true → s.writer = false ∨ s.broken = true

/-- The bytes that arrive with a label. -/
def arriving (s : Link) : Label → Bytes
  | .arrive k => s.wire.take k
  | _ => []

/-- The message the receiver task finishes reading with a label. -/
def readNow (s : Link) : Label → List Bytes
  | .readBody =>
    match s.phase with
    | .body n => if n ≤ s.buf.length then [s.buf.take n] else []
    | _ => []
  | _ => []

theorem readNow_take (s : Link) {n : Nat} (h : s.phase = .body n) (hn : n ≤ s.buf.length) :
    readNow s .readBody = [s.buf.take n] := by simp [readNow, h, hn]

theorem readNow_short (s : Link) {n : Nat} (h : s.phase = .body n) (hn : ¬ n ≤ s.buf.length) :
    readNow s .readBody = [] := by simp only [readNow, h, if_neg hn]

theorem readNow_other (s : Link) (h : ∀ n, s.phase = .body n → False) : readNow s .readBody = [] := by
  cases hph : s.phase with
  | body n => exact (h n hph).elim
  | _ => simp [readNow, hph]

theorem rinv_step (ok : Bool) (arrived : Bytes) (s : Link) (obs : List Obs) (done : List Bytes)
    (pend : Option Nat) (h : RInv ok arrived s obs done pend) (l : Label) :
    ∃ pend', RInv (ok && !l.breaksReader) (arrived ++ arriving s l) (s.step l).1
      (obs ++ (s.step l).2) (done ++ readNow s l) pend' := by
  obtain ⟨hs, hp, hb, hr, ht, ho, he, hc⟩ := h
  cases l with
  | send i =>
    simp only [Link.step, arriving, readNow, Label.breaksReader, Bool.not_false, Bool.and_true, List.append_nil]
    refine ⟨pend, ?_⟩
    split
    · exact ⟨hs, hp, hb, by rw [reserved_append, hr]; simp [reserved],
        by rw [received_append]; simp only [received, List.append_nil]; exact ht, ho, he, hc⟩
    · split
      · exact ⟨hs, hp, hb, by rw [reserved_append, hr]; simp [reserved],
          by rw [received_append]; simp only [received, List.append_nil]; exact ht, ho, he, hc⟩
      · rw [List.append_nil]; exact ⟨hs, hp, hb, hr, ht, ho, he, hc⟩
  | write =>
    refine ⟨pend, ?_⟩
    simp only [arriving, readNow, Label.breaksReader, Bool.not_false, Bool.and_true, List.append_nil]
    unfold Link.step
    simp only
    split
    · rename_i hw
      have hne : s.broken = false → s.wireClosed = false := by
        intro hbr
        cases hcl : s.wireClosed with
        | false => rfl
        | true => rcases hc hcl with h1 | h1 <;> simp_all
      split
      · split
        · rw [List.append_nil]
          exact ⟨hs, hp, hb, hr, ht, ho, fun h => ⟨rfl, (he h).2⟩, fun _ => Or.inl rfl⟩
        · rw [List.append_nil]; exact ⟨hs, hp, hb, hr, ht, ho, he, hc⟩
      · split
        · refine ⟨hs, hp, hb, by rw [reserved_append, hr]; simp [reserved],
            by rw [received_append]; simp only [received, List.append_nil]; exact ht, ho, ?_, hc⟩
          intro h
          obtain ⟨h1, h2⟩ := he h
          refine ⟨h1, ?_⟩
          cases hbr : s.broken with
          | true => simpa using h2
          | false => rw [hne hbr] at h1; simp at h1
        · rw [List.append_nil]
          exact ⟨hs, hp, hb, hr, ht, ho, fun h => ⟨rfl, (he h).2⟩, fun _ => Or.inl rfl⟩
      · exact ⟨hs, hp, hb, by rw [reserved_append, hr]; simp [reserved],
          by rw [received_append]; simp only [received, List.append_nil]; exact ht, ho, he, hc⟩
    · rw [List.append_nil]; exact ⟨hs, hp, hb, hr, ht, ho, he, hc⟩
  | writeFail k =>
    refine ⟨pend, ?_⟩
    simp only [arriving, readNow, Label.breaksReader, Bool.not_false, Bool.and_true, List.append_nil]
    unfold Link.step
    simp only
    split
    · rename_i hw
      have hne : s.broken = false → s.wireClosed = false := by
        intro hbr
        cases hcl : s.wireClosed with
        | false => rfl
        | true => rcases hc hcl with h1 | h1 <;> simp_all
      split
      · split
        · rw [List.append_nil]
          refine ⟨hs, hp, hb, hr, ht, ho, ?_, fun _ => Or.inl rfl⟩
          intro h
          obtain ⟨h1, h2⟩ := he h
          refine ⟨rfl, ?_⟩
          cases hbr : s.broken with
          | true => simpa [Link.stopWriter] using h2
          | false => rw [hne hbr] at h1; simp at h1
        · rw [List.append_nil]
          exact ⟨hs, hp, hb, hr, ht, ho, fun h => ⟨rfl, (he h).2⟩, fun _ => Or.inl rfl⟩
      · rw [List.append_nil]
        exact ⟨hs, hp, hb, hr, ht, ho, fun h => ⟨rfl, (he h).2⟩, fun _ => Or.inl rfl⟩
    · rw [List.append_nil]; exact ⟨hs, hp, hb, hr, ht, ho, he, hc⟩
  | dropSender =>
    refine ⟨pend, ?_⟩
    simp only [arriving, readNow, Label.breaksReader, Bool.not_false, Bool.and_true, List.append_nil, Link.step]
    exact ⟨hs, hp, hb, hr, ht, ho, fun h => ⟨rfl, (he h).2⟩, fun _ => Or.inl rfl⟩
  | cut k =>
    refine ⟨pend, ?_⟩
    simp only [arriving, readNow, Label.breaksReader, Bool.not_false, Bool.and_true, List.append_nil, Link.step]
    exact ⟨hs, hp, hb, hr, ht, ho, fun h => ⟨rfl, by simp [(he h).2]⟩, fun _ => Or.inr rfl⟩
  | arrive k =>
    refine ⟨pend, ?_⟩
    simp only [arriving, readNow, Label.breaksReader, Bool.not_false, Bool.and_true, List.append_nil, Link.step]
    refine ⟨hs, hp, by rw [hb]; simp [List.append_assoc], hr, ?_, ho,
      fun h => ⟨(he h).1, by simp [(he h).2]⟩, hc⟩
    unfold Tail at *
    simp only at *
    cases hph : s.phase with
    | stopped =>
      rw [hph] at ht
      refine ⟨ht.1, fun hok => ?_⟩
      obtain ⟨h1, h2⟩ := ht.2 hok
      refine ⟨h1, ?_⟩
      cases pend with
      | none => exact ⟨h2.1, by simp [(he h2.1).2, h2.2]⟩
      | some n =>
        rcases h2 with h2 | h2
        · exact Or.inl h2
        · exact Or.inr ⟨h2.1, by simp [(he h2.1).2, h2.2]⟩
    | _ => rw [hph] at ht; exact ht
  | arriveEnd =>
    refine ⟨pend, ?_⟩
    simp only [arriving, readNow, Label.breaksReader, Bool.not_false, Bool.and_true, List.append_nil, Link.step]
    split
    · rename_i hcond
      simp only [Bool.and_eq_true, List.isEmpty_iff] at hcond
      refine ⟨hs, hp, hb, by simpa using hr, ?_, ho, fun _ => hcond, hc⟩
      unfold Tail at *
      simp only [List.append_nil] at *
      cases hph : s.phase with
      | stopped =>
        rw [hph] at ht
        refine ⟨ht.1, fun hok => ?_⟩
        obtain ⟨h1, h2⟩ := ht.2 hok
        refine ⟨h1, ?_⟩
        cases pend with
        | none => exact ⟨trivial, h2.2⟩
        | some n =>
          rcases h2 with h2 | h2
          · exact Or.inl h2
          · exact Or.inr ⟨trivial, h2.2⟩
      | _ => rw [hph] at ht; exact ht
    · rw [List.append_nil]; exact ⟨hs, hp, hb, hr, ht, ho, he, hc⟩
  | readHeader =>
    simp only [arriving, readNow, Label.breaksReader, Bool.not_false, Bool.and_true, List.append_nil]
    unfold Link.step
    simp only
    split
    · rename_i hph
      unfold Tail at ht
      rw [hph] at ht
      obtain ⟨rfl, hd⟩ := ht
      split
      · rename_i a b c d rest hbuf
        have hle := readBe32_le a b c d
        have hby : arrived = encode done ++ pendBytes (some (readBe32 a b c d)) ++ rest := by
          rw [hb, hbuf]
          simp [pendBytes, be32_readBe32]
        split
        · rename_i hbig
          refine ⟨some (readBe32 a b c d), hs, ?_, hby, ?_, ?_, ho, he, hc⟩
          · intro n h; cases h; exact hle
          · rw [List.append_nil, hr]; simp; omega
          · rw [List.append_nil]
            exact ⟨⟨[], by simp [hd]⟩, fun _ => ⟨hd, Or.inl hbig⟩⟩
        · rename_i hbig
          refine ⟨some (readBe32 a b c d), hs, ?_, hby, ?_, ?_, ho, he, hc⟩
          · intro n h; cases h; exact hle
          · have hle' : readBe32 a b c d ≤ maxMessageSize := by omega
            rw [reserved_append, hr]; simp [reserved, hle']
          · rw [received_append]
            exact ⟨rfl, by omega, by simpa [received] using hd⟩
      · rename_i hshort
        refine ⟨none, ?_⟩
        split
        · rename_i heof
          rw [List.append_nil]
          refine ⟨hs, hp, hb, hr, ⟨⟨[], by simp [hd]⟩, fun _ => ⟨hd, heof, ?_⟩⟩, ho, he, hc⟩
          match hbuf : s.buf with
          | [] => simp
          | [_] => simp
          | [_, _] => simp
          | [_, _, _] => simp
          | a :: b :: c :: d :: rest => exact absurd hbuf (hshort a b c d rest)
        · rw [List.append_nil]
          refine ⟨hs, hp, hb, hr, ?_, ho, he, hc⟩
          unfold Tail; rw [hph]; exact ⟨rfl, hd⟩
    · rw [List.append_nil]; exact ⟨pend, hs, hp, hb, hr, ht, ho, he, hc⟩
  | grant =>
    refine ⟨pend, ?_⟩
    simp only [arriving, readNow, Label.breaksReader, Bool.not_false, Bool.and_true, List.append_nil]
    unfold Link.step
    simp only
    split
    · rename_i n hph
      rw [List.append_nil]
      refine ⟨hs, hp, hb, hr, ?_, ho, he, hc⟩
      unfold Tail at *
      rw [hph] at ht
      exact ht
    · rw [List.append_nil]; exact ⟨hs, hp, hb, hr, ht, ho, he, hc⟩
  | readBody =>
    simp only [arriving, Label.breaksReader, Bool.not_false, Bool.and_true, List.append_nil]
    unfold Link.step
    simp only
    split
    · rename_i n hph
      have ht' := ht
      unfold Tail at ht'
      rw [hph] at ht'
      obtain ⟨rfl, hn, hd⟩ := ht'
      split
      · rename_i hlen
        rw [readNow_take s hph hlen]
        have htl : (s.buf.take n).length = n := by rw [List.length_take]; omega
        refine ⟨none, ?_, ?_, ?_, ?_, ?_, ho, he, hc⟩
        · intro m hm
          rcases List.mem_append.1 hm with h1 | h1
          · exact hs m h1
          · rw [List.mem_singleton.1 h1, htl]; exact hn
        · intro n h; simp at h
        · rw [hb, encode_append, encode_single, htl]
          simp [pendBytes, List.append_assoc, List.take_append_drop]
        · rw [List.append_nil, hr]
          simp [hn, htl]
        · rw [List.append_nil]
          exact ⟨rfl, by rw [hd]⟩
      · rename_i hlen
        rw [readNow_short s hph hlen, List.append_nil]
        refine ⟨some n, ?_⟩
        split
        · rename_i heof
          rw [List.append_nil]
          exact ⟨hs, hp, hb, hr, ⟨⟨[], by simp [hd]⟩, fun _ => ⟨hd, Or.inr ⟨heof, by simpa using hlen⟩⟩⟩, ho, he, hc⟩
        · rw [List.append_nil]; exact ⟨hs, hp, hb, hr, ht, ho, he, hc⟩
    · rename_i hph
      rw [readNow_other s hph, List.append_nil, List.append_nil]; exact ⟨pend, hs, hp, hb, hr, ht, ho, he, hc⟩
  | readFail =>
    refine ⟨pend, ?_⟩
    simp only [arriving, readNow, Label.breaksReader, Bool.not_true, Bool.and_false, List.append_nil]
    unfold Link.step
    simp only
    unfold Tail at ht
    cases hph : s.phase with
    | header =>
      rw [hph] at ht
      simp only [List.append_nil]
      exact ⟨hs, hp, hb, hr, ⟨⟨[], by simp [ht.2]⟩, fun h => by simp at h⟩, fun h => by simp at h, he, hc⟩
    | body n =>
      rw [hph] at ht
      simp only [List.append_nil]
      exact ⟨hs, hp, hb, hr, ⟨⟨[], by simp [ht.2.2]⟩, fun h => by simp at h⟩, fun h => by simp at h, he, hc⟩
    | stopped =>
      simp only [List.append_nil]
      rw [hph] at ht
      refine ⟨hs, hp, hb, hr, ?_, fun h => by simp at h, he, hc⟩
      unfold Tail; rw [hph]; exact ⟨ht.1, fun h => by simp at h⟩
    | waiting n =>
      simp only [List.append_nil]
      rw [hph] at ht
      refine ⟨hs, hp, hb, hr, ?_, fun h => by simp at h, he, hc⟩
      unfold Tail; rw [hph]; exact ht
    | handing n =>
      simp only [List.append_nil]
      rw [hph] at ht
      refine ⟨hs, hp, hb, hr, ?_, fun h => by simp at h, he, hc⟩
      unfold Tail; rw [hph]; exact ht
  | hand =>
    refine ⟨pend, ?_⟩
    simp only [arriving, readNow, Label.breaksReader, Bool.not_false, Bool.and_true, List.append_nil]
    unfold Link.step
    simp only
    split
    · rename_i m hph
      have ht' := ht
      unfold Tail at ht'
      rw [hph] at ht'
      obtain ⟨rfl, hd⟩ := ht'
      split
      · rename_i hcl
        rw [List.append_nil]
        refine ⟨hs, hp, hb, hr, ⟨⟨[m], by rw [hd]⟩, fun hok => ?_⟩, ho, he, hc⟩
        rw [ho hok] at hcl; simp at hcl
      · split
        · rw [List.append_nil]
          refine ⟨hs, hp, hb, hr, ⟨rfl, ?_⟩, ho, he, hc⟩
          rw [hd, List.append_assoc]
        · rw [List.append_nil]; exact ⟨hs, hp, hb, hr, ht, ho, he, hc⟩
    · rw [List.append_nil]; exact ⟨hs, hp, hb, hr, ht, ho, he, hc⟩
  | recv =>
    refine ⟨pend, ?_⟩
    simp only [arriving, readNow, Label.breaksReader, Bool.not_false, Bool.and_true, List.append_nil]
    unfold Link.step
    simp only
    split
    · rename_i m q hq
      refine ⟨hs, hp, hb, by rw [reserved_append, hr]; simp [reserved], ?_, ho, he, hc⟩
      have : received (obs ++ [Obs.got m]) ++ q = received obs ++ s.recvQ := by
        rw [received_append, hq]; simp [received]
      unfold Tail at *
      simp only [this]
      exact ht
    · split
      · exact ⟨hs, hp, hb, by rw [reserved_append, hr]; simp [reserved],
          by rw [received_append]; simp only [received, List.append_nil]; exact ht, ho, he, hc⟩
      · rw [List.append_nil]; exact ⟨hs, hp, hb, hr, ht, ho, he, hc⟩
  | dropReceiver =>
    refine ⟨pend, ?_⟩
    simp only [arriving, readNow, Label.breaksReader, Bool.not_true, Bool.and_false, List.append_nil, Link.step]
    refine ⟨hs, hp, hb, hr, ⟨?_, fun h => by simp at h⟩, fun h => by simp at h, he, hc⟩
    unfold Tail at ht
    have : received obs <+: done := by
      cases hph : s.phase <;> rw [hph] at ht <;> simp only at ht
      · exact ⟨s.recvQ, ht.2.symm⟩
      · exact ⟨s.recvQ, ht.2.2.symm⟩
      · exact ⟨s.recvQ, ht.2.2.symm⟩
      · rename_i m; exact ⟨s.recvQ ++ [m], by rw [ht.2, List.append_assoc]⟩
      · exact List.IsPrefix.trans ⟨s.recvQ, rfl⟩ ht.1
    simpa using this

theorem rinv_run (ls : List Label) (ok : Bool) (arrived : Bytes) (s : Link) (obs : List Obs)
    (done : List Bytes) (pend : Option Nat) (h : RInv ok arrived s obs done pend) :
    ∃ more done' pend', RInv (ok && ls.all (fun l => !l.breaksReader)) (arrived ++ more) (s.run ls).1
      (obs ++ (s.run ls).2) done' pend' := by
  induction ls generalizing ok arrived s obs done pend with
  | nil => exact ⟨[], done, pend, by simpa [Link.run] using h⟩
  | cons l ls ih =>
    obtain ⟨p, h1⟩ := rinv_step ok arrived s obs done pend h l
    obtain ⟨more, d', p', h2⟩ := ih _ _ _ _ _ _ h1
    refine ⟨arriving s l ++ more, d', p', ?_⟩
    simpa [Link.run, List.append_assoc, Bool.and_assoc] using h2

/-! ## The sending half -/

/-- Invariant of the sending half. `sent`: the messages whose frames were begun, in order; `handled`:
the items the sender task has taken from its channel. -/
structure SInv (arrived : Bytes) (s : Link) (obs : List Obs) (sent : List Bytes)
    (handled : List Item) : Prop where
  bytes : (arrived ++ s.wire) <+: encode sent
  sub : sent <+: msgs (acceptedItems obs)
  small : ∀ m ∈ sent, m.length ≤ u32Max
  live : s.writer = true → acceptedItems obs = handled ++ s.sendQ ∧ msgs handled = sent ∧
    wrote obs = sent ∧ (s.broken = false → arrived ++ s.wire = encode sent)
  most : sent = wrote obs ∨ ∃ m, sent = wrote obs ++ [m]

/-- Acknowledged requests were preceded by the writing of all messages accepted before them. -/
def AckInv (obs : List Obs) : Prop :=
  ∀ pre id post, obs = pre ++ Obs.acked id :: post →
    ∃ before after, acceptedItems pre = before ++ Item.softClose id :: after ∧ wrote pre = msgs before

theorem ackInv_nil : AckInv [] := by
  intro pre id post h
  simp at h

theorem ackInv_snoc (obs : List Obs) (o : Obs) (h : AckInv obs)
    (ho : ∀ id, o = .acked id → ∃ before after,
      acceptedItems obs = before ++ Item.softClose id :: after ∧ wrote obs = msgs before) :
    AckInv (obs ++ [o]) := by
  intro pre id post he
  rcases List.eq_nil_or_concat post with rfl | ⟨p, x, rfl⟩
  · have : obs = pre ∧ o = .acked id := by
      have := List.append_inj' he rfl
      simpa using this
    rw [← this.1]
    exact ho id this.2
  · have he' : obs ++ [o] = (pre ++ Obs.acked id :: p) ++ [x] := by rw [he]; simp
    have := List.append_inj' he' rfl
    exact h pre id p this.1

/-- `sent` and the rest when only the reader moves. -/
theorem sinv_reader (arrived more : Bytes) (s s' : Link) (obs o : List Obs) (sent : List Bytes)
    (handled : List Item) (h : SInv arrived s obs sent handled)
    (hw : more ++ s'.wire = s.wire) (hq : s'.sendQ = s.sendQ) (hwr : s'.writer = s.writer)
    (hbr : s'.broken = s.broken) (ho : acceptedItems o = []) (ho' : wrote o = []) :
    SInv (arrived ++ more) s' (obs ++ o) sent handled := by
  obtain ⟨h1, h2, h3, h4, hmo⟩ := h
  refine ⟨by rw [List.append_assoc, hw]; exact h1,
    by rw [acceptedItems_append, ho, List.append_nil]; exact h2, h3, ?_,
    by rw [wrote_append, ho', List.append_nil]; exact hmo⟩
  rw [hwr, hbr, hq, acceptedItems_append, ho, wrote_append, ho', List.append_assoc, hw]
  simpa using h4

theorem frame_some {m f : Bytes} (h : frame m = some f) :
    m.length ≤ u32Max ∧ f = be32 m.length ++ m := by
  unfold frame at h
  split at h
  · rename_i hl; cases h; exact ⟨hl, rfl⟩
  · simp at h

theorem sinv_stop (arrived : Bytes) (s : Link) (obs : List Obs) (sent : List Bytes)
    (handled : List Item) (h : SInv arrived s obs sent handled) (s' : Link)
    (hw : s'.wire = s.wire) (hwr : s'.writer = false) : SInv arrived s' obs sent handled := by
  obtain ⟨h1, h2, h3, h4, hmo⟩ := h
  exact ⟨by rw [hw]; exact h1, h2, h3, by rw [hwr]; intro h; simp at h, hmo⟩

theorem sinv_step (arrived : Bytes) (s : Link) (obs : List Obs) (sent : List Bytes)
    (handled : List Item) (h : SInv arrived s obs sent handled) (ha : AckInv obs) (l : Label) :
    (∃ sent' handled', SInv (arrived ++ arriving s l) (s.step l).1 (obs ++ (s.step l).2)
      sent' handled') ∧ AckInv (obs ++ (s.step l).2) := by
  have hread : ∀ (s' : Link) (o : List Obs) (more : Bytes), more ++ s'.wire = s.wire →
      s'.sendQ = s.sendQ → s'.writer = s.writer → s'.broken = s.broken → acceptedItems o = [] →
      wrote o = [] → (o = [] ∨ ∃ x, o = [x] ∧ ∀ id, x ≠ .acked id) →
      (∃ sent' handled', SInv (arrived ++ more) s' (obs ++ o) sent' handled') ∧ AckInv (obs ++ o) := by
    intro s' o more h1 h2 h3 h4 h5 h6 h7
    refine ⟨⟨sent, handled, sinv_reader arrived more s s' obs o sent handled h h1 h2 h3 h4 h5 h6⟩, ?_⟩
    rcases h7 with rfl | ⟨x, rfl, hx⟩
    · simpa using ha
    · exact ackInv_snoc obs x ha (fun id hid => absurd hid (hx id))
  cases l with
  | send i =>
    simp only [Link.step, arriving]
    split
    · exact hread s [.sendError] [] rfl rfl rfl rfl rfl rfl (Or.inr ⟨_, rfl, by simp⟩)
    · split
      · refine ⟨⟨sent, handled, ?_⟩, ackInv_snoc obs _ ha (by simp)⟩
        obtain ⟨h1, h2, h3, h4, hmo⟩ := h
        rw [List.append_nil]
        refine ⟨h1, ?_, h3, ?_, by rw [wrote_append]; simpa [wrote] using hmo⟩
        · rw [acceptedItems_append, msgs_append]
          exact h2.trans (List.prefix_append _ _)
        · intro hw
          obtain ⟨h5, h6, h7, h8⟩ := h4 hw
          refine ⟨by rw [acceptedItems_append, h5]; simp [acceptedItems], h6,
            by rw [wrote_append, h7]; simp [wrote], h8⟩
      · exact hread s [] [] rfl rfl rfl rfl rfl rfl (Or.inl rfl)
  | write =>
    simp only [Link.step, arriving]
    split
    · rename_i hw
      obtain ⟨h5, h6, h7, h8⟩ := h.live hw
      split
      · split
        · simp only [List.append_nil]
          exact ⟨⟨sent, handled, sinv_stop arrived s obs sent handled h _ rfl rfl⟩, ha⟩
        · exact hread s [] [] rfl rfl rfl rfl rfl rfl (Or.inl rfl)
      · rename_i m q hq
        split
        · rename_i f hf
          obtain ⟨hl, rfl⟩ := frame_some hf
          refine ⟨⟨sent ++ [m], handled ++ [.bytes m], ?_⟩, ackInv_snoc obs _ ha (by simp)⟩
          have hacc : acceptedItems (obs ++ [Obs.wrote m]) = handled ++ s.sendQ := by
            rw [acceptedItems_append, h5]; simp [acceptedItems]
          rw [List.append_nil]
          refine ⟨?_, ?_, ?_, ?_, Or.inl (by rw [wrote_append, h7]; rfl)⟩
          · simp only
            split
            · rw [encode_append]
              exact h.bytes.trans (List.prefix_append _ _)
            · rename_i hbr
              rw [← List.append_assoc, h8 (by simpa using hbr), encode_append, encode_single]
              exact List.prefix_refl _
          · rw [hacc, msgs_append, h6, hq]
            exact ⟨msgs q, by simp [msgs]⟩
          · intro x hx
            rcases List.mem_append.1 hx with h9 | h9
            · exact h.small x h9
            · rw [List.mem_singleton.1 h9]; exact hl
          · intro _
            refine ⟨by rw [hacc, hq]; simp, by rw [msgs_append, h6]; rfl,
              by rw [wrote_append, h7]; rfl, ?_⟩
            intro hbr
            have hbr' : s.broken = false := hbr
            simp only [hbr', Bool.false_eq_true, if_false]
            rw [← List.append_assoc, h8 hbr', encode_append, encode_single]
        · simp only [List.append_nil]
          exact ⟨⟨sent, handled, sinv_stop arrived s obs sent handled h _ rfl rfl⟩, ha⟩
      · rename_i id q hq
        refine ⟨⟨sent, handled ++ [.softClose id], ?_⟩, ackInv_snoc obs _ ha ?_⟩
        · rw [List.append_nil]
          refine ⟨h.bytes, by rw [acceptedItems_append]; simpa [acceptedItems] using h.sub, h.small, ?_,
            by rw [wrote_append]; simpa [wrote] using h.most⟩
          intro _
          refine ⟨by rw [acceptedItems_append, h5, hq]; simp [acceptedItems],
            by rw [msgs_append, h6]; simp [msgs], by rw [wrote_append, h7]; simp [wrote], h8⟩
        · intro id' hid
          cases hid
          exact ⟨handled, q, by rw [h5, hq], by rw [h7, h6]⟩
    · exact hread s [] [] rfl rfl rfl rfl rfl rfl (Or.inl rfl)
  | writeFail k =>
    simp only [Link.step, arriving]
    split
    · rename_i hw
      obtain ⟨h5, h6, h7, h8⟩ := h.live hw
      split
      · rename_i m q hq
        split
        · rename_i f hf
          obtain ⟨hl, rfl⟩ := frame_some hf
          simp only [List.append_nil]
          refine ⟨⟨sent ++ [m], handled, ?_⟩, ha⟩
          refine ⟨?_, ?_, ?_, ?_, Or.inr ⟨m, by rw [h7]⟩⟩
          · simp only [Link.stopWriter]
            split
            · rw [encode_append]
              exact h.bytes.trans (List.prefix_append _ _)
            · rename_i hbr
              rw [← List.append_assoc, h8 (by simpa using hbr), encode_append, encode_single]
              exact (List.prefix_append_right_inj _).2 (List.take_prefix _ _)
          · rw [h5, msgs_append, h6, hq]
            exact ⟨msgs q, by simp [msgs]⟩
          · intro x hx
            rcases List.mem_append.1 hx with h9 | h9
            · exact h.small x h9
            · rw [List.mem_singleton.1 h9]; exact hl
          · intro hf; simp [Link.stopWriter] at hf
        · simp only [List.append_nil]
          exact ⟨⟨sent, handled, sinv_stop arrived s obs sent handled h _ rfl rfl⟩, ha⟩
      · simp only [List.append_nil]
        exact ⟨⟨sent, handled, sinv_stop arrived s obs sent handled h _ rfl rfl⟩, ha⟩
    · exact hread s [] [] rfl rfl rfl rfl rfl rfl (Or.inl rfl)
  | dropSender =>
    simp only [Link.step, arriving, List.append_nil]
    exact ⟨⟨sent, handled, sinv_stop arrived s obs sent handled h _ rfl rfl⟩, ha⟩
  | cut k =>
    simp only [Link.step, arriving, List.append_nil]
    refine ⟨⟨sent, handled, ?_⟩, ha⟩
    obtain ⟨h1, h2, h3, h4, hmo⟩ := h
    refine ⟨?_, h2, h3, fun hw => ?_, hmo⟩
    · exact List.IsPrefix.trans ((List.prefix_append_right_inj _).2 (List.take_prefix _ _)) h1
    · obtain ⟨h5, h6, h7, _⟩ := h4 hw
      exact ⟨h5, h6, h7, fun hb => by simp at hb⟩
  | arrive k =>
    simp only [Link.step, arriving]
    exact hread _ [] (s.wire.take k) (List.take_append_drop k s.wire) rfl rfl rfl rfl rfl (Or.inl rfl)
  | arriveEnd =>
    simp only [Link.step, arriving]
    split
    · exact hread _ [] [] rfl rfl rfl rfl rfl rfl (Or.inl rfl)
    · exact hread _ [] [] rfl rfl rfl rfl rfl rfl (Or.inl rfl)
  | readHeader =>
    simp only [Link.step, arriving]
    split
    · split
      · split
        · exact hread _ [] [] rfl rfl rfl rfl rfl rfl (Or.inl rfl)
        · exact hread _ _ [] rfl rfl rfl rfl rfl rfl (Or.inr ⟨_, rfl, by simp⟩)
      · split <;> exact hread _ [] [] rfl rfl rfl rfl rfl rfl (Or.inl rfl)
    · exact hread _ [] [] rfl rfl rfl rfl rfl rfl (Or.inl rfl)
  | grant =>
    simp only [Link.step, arriving]
    split <;> exact hread _ [] [] rfl rfl rfl rfl rfl rfl (Or.inl rfl)
  | readBody =>
    simp only [Link.step, arriving]
    split
    · split
      · exact hread _ [] [] rfl rfl rfl rfl rfl rfl (Or.inl rfl)
      · split <;> exact hread _ [] [] rfl rfl rfl rfl rfl rfl (Or.inl rfl)
    · exact hread _ [] [] rfl rfl rfl rfl rfl rfl (Or.inl rfl)
  | readFail =>
    simp only [Link.step, arriving]
    split <;> exact hread _ [] [] rfl rfl rfl rfl rfl rfl (Or.inl rfl)
  | hand =>
    simp only [Link.step, arriving]
    split
    · split
      · exact hread _ [] [] rfl rfl rfl rfl rfl rfl (Or.inl rfl)
      · split <;> exact hread _ [] [] rfl rfl rfl rfl rfl rfl (Or.inl rfl)
    · exact hread _ [] [] rfl rfl rfl rfl rfl rfl (Or.inl rfl)
  | recv =>
    simp only [Link.step, arriving]
    split
    · exact hread _ _ [] rfl rfl rfl rfl rfl rfl (Or.inr ⟨_, rfl, by simp⟩)
    · split
      · exact hread _ _ [] rfl rfl rfl rfl rfl rfl (Or.inr ⟨_, rfl, by simp⟩)
      · exact hread _ [] [] rfl rfl rfl rfl rfl rfl (Or.inl rfl)
  | dropReceiver =>
    simp only [Link.step, arriving]
    exact hread _ [] [] rfl rfl rfl rfl rfl rfl (Or.inl rfl)

/-! ## Both halves -/

/-- Invariant of a connection between two of our endpoints. -/
structure Inv (ok : Bool) (s : Link) (obs : List Obs) : Prop where
  ack : AckInv obs
  both : ∃ arrived done pend sent handled, RInv ok arrived s obs done pend ∧
    SInv arrived s obs sent handled

theorem inv_new (cap : Option Nat) : Inv true (Link.new cap) [] :=
  ⟨ackInv_nil, [], [], none, [], [], ⟨by simp, by simp, rfl, rfl, ⟨rfl, rfl⟩, fun _ => rfl,
    fun h => by simp [Link.new] at h, fun h => by simp [Link.new] at h⟩,
    ⟨List.prefix_refl _, List.prefix_refl _, by simp, fun _ => ⟨rfl, rfl, rfl, fun _ => rfl⟩, Or.inl rfl⟩⟩

theorem inv_run (ls : List Label) (ok : Bool) (s : Link) (obs : List Obs) (h : Inv ok s obs) :
    Inv (ok && ls.all (fun l => !l.breaksReader)) (s.run ls).1 (obs ++ (s.run ls).2) := by
  induction ls generalizing ok s obs with
  | nil => simpa [Link.run] using h
  | cons l ls ih =>
    obtain ⟨ha, arrived, done, pend, sent, handled, hr, hs⟩ := h
    obtain ⟨p, h1⟩ := rinv_step ok arrived s obs done pend hr l
    obtain ⟨⟨s', q', h2⟩, h3⟩ := sinv_step arrived s obs sent handled hs ha l
    have := ih _ _ _ ⟨h3, _, _, p, s', q', h1, h2⟩
    simpa [Link.run, List.append_assoc, Bool.and_assoc] using this

end Verif.Frame

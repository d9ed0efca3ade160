import Verif.Lemmas.Frame

/-!
# Properties C25, C26, C27, C50: framing and connections

The model is `Verif/Model/Frame.lean`. A schedule is any list of labels: sends, task steps, pieces of
the byte stream arriving, failures at any point.
-/

namespace Verif.Props.Frame
open Verif Verif.Frame

/-! ## Specification -/

/-- The messages accepted for sending, in order. -/
def submitted (obs : List Obs) : List Bytes :=
  obs.filterMap fun o => match o with | .accepted (.bytes m) => some m | _ => none

/-- The messages the other side received, in order. -/
def delivered (obs : List Obs) : List Bytes :=
  obs.filterMap fun o => match o with | .got m => some m | _ => none

/-- The messages completely written to the stream, in order. -/
def written (obs : List Obs) : List Bytes :=
  obs.filterMap fun o => match o with | .wrote m => some m | _ => none

/-- The sizes for which memory was asked, in order. -/
def askedFor (obs : List Obs) : List Nat :=
  obs.filterMap fun o => match o with | .reserve n => some n | _ => none

/-- Failures: an error of the stream, a timeout, or a handle dropped. -/
def Label.failure : Label → Bool
  | .writeFail _ => true
  | .dropSender => true
  | .cut _ => true
  | .readFail => true
  | .dropReceiver => true
  | _ => false

/-- The steps the tasks and the stream take by themselves, and receiving. -/
def Label.progress : Label → Bool
  | .write => true
  | .arrive _ => true
  | .arriveEnd => true
  | .readHeader => true
  | .grant => true
  | .readBody => true
  | .hand => true
  | .recv => true
  | _ => false

/-- Nothing is left to do: no such step changes the connection. -/
def Idle (s : Link) : Prop := ∀ l, Label.progress l = true → (s.step l).1 = s

/-- What one message looks like on the wire: a big-endian 32 bit length, then the message. -/
def wireFormat (m : Bytes) : Bytes :=
  [UInt8.ofNat (m.length / 2 ^ 24), UInt8.ofNat (m.length / 2 ^ 16), UInt8.ofNat (m.length / 2 ^ 8),
    UInt8.ofNat m.length] ++ m

/-! ## Lemmas -/

theorem submitted_eq (obs : List Obs) : submitted obs = msgs (acceptedItems obs) := by
  induction obs with
  | nil => rfl
  | cons o l ih =>
    unfold submitted at *
    cases o with
    | accepted i => cases i <;> simp [acceptedItems, msgs, ih]
    | _ => simp [acceptedItems, ih]

theorem delivered_eq (obs : List Obs) : delivered obs = received obs := by
  induction obs with
  | nil => rfl
  | cons o l ih =>
    unfold delivered at *
    cases o <;> simp [received, ih]

theorem written_eq (obs : List Obs) : written obs = wrote obs := by
  induction obs with
  | nil => rfl
  | cons o l ih =>
    unfold written at *
    cases o <;> simp [wrote, ih]

theorem askedFor_eq (obs : List Obs) : askedFor obs = reserved obs := by
  induction obs with
  | nil => rfl
  | cons o l ih =>
    unfold askedFor at *
    cases o <;> simp [reserved, ih]

theorem encode_eq (ms : List Bytes) : encode ms = ms.flatMap wireFormat := by
  induction ms with
  | nil => rfl
  | cons m ms ih => rw [encode, ih, List.flatMap_cons]; rfl

theorem tail_received {ok : Bool} {s : Link} {rcv done : List Bytes} {pend : Option Nat}
    (h : Tail ok s rcv done pend) : rcv <+: done := by
  unfold Tail at h
  cases hph : s.phase <;> rw [hph] at h <;> simp only at h
  · exact ⟨s.recvQ, h.2.symm⟩
  · exact ⟨s.recvQ, h.2.2.symm⟩
  · exact ⟨s.recvQ, h.2.2.symm⟩
  · rename_i m; exact ⟨s.recvQ ++ [m], by rw [h.2, List.append_assoc]⟩
  · exact List.IsPrefix.trans ⟨s.recvQ, rfl⟩ h.1

theorem small_le {m : Bytes} (h : m.length ≤ maxMessageSize) : m.length ≤ u32Max :=
  Nat.le_trans h max_le

/-- When nothing is left to do. -/
theorem idle_phase (s : Link) (cap0 : s.cap ≠ some 0) (hidle : Idle s) :
    s.recvQ = [] ∧ (∀ n, s.phase ≠ .waiting n) ∧ (∀ m, s.phase ≠ .handing m ∨ s.recvClosed = true) ∧
    (s.phase = .header → s.buf.length < 4 ∧ s.eof = false) ∧
    (∀ n, s.phase = .body n → s.buf.length < n ∧ s.eof = false) ∧ s.wire = [] ∧
    (s.writer = true → s.sendQ = []) := by
  have hq : s.recvQ = [] := by
    have h := congrArg Link.recvQ (hidle .recv rfl)
    simp only [Link.step] at h
    split at h
    · rename_i m q hq
      rw [hq] at h
      simp only at h
      exact absurd (congrArg List.length h) (by simp)
    · assumption
  have hwire : s.wire = [] := by
    have h := congrArg Link.wire (hidle (.arrive s.wire.length) rfl)
    simpa [Link.step] using h.symm
  refine ⟨hq, ?_, ?_, ?_, ?_, hwire, ?_⟩
  · intro n hph
    have h := congrArg Link.phase (hidle .grant rfl)
    simp [Link.step, hph] at h
  · intro m
    by_cases hph : s.phase = .handing m
    · right
      have h := congrArg Link.phase (hidle .hand rfl)
      simp only [Link.step, hph] at h
      split at h
      · assumption
      · split at h
        · simp at h
        · rename_i hroom
          rw [hq] at hroom
          exfalso
          cases hc : s.cap with
          | none => rw [hc] at hroom; simp [room] at hroom
          | some c =>
            rw [hc] at hroom
            have : c ≠ 0 := fun h0 => cap0 (by rw [hc, h0])
            simp [room] at hroom
            omega
    · exact Or.inl hph
  · intro hph
    have h := congrArg Link.phase (hidle .readHeader rfl)
    simp only [Link.step, hph] at h
    split at h
    · split at h <;> simp at h
    · rename_i hshort
      split at h
      · simp at h
      · rename_i he
        refine ⟨?_, by simpa using he⟩
        match hbuf : s.buf with
        | [] => simp
        | [_] => simp
        | [_, _] => simp
        | [_, _, _] => simp
        | a :: b :: c :: d :: rest => exact absurd hbuf (hshort a b c d rest)
  · intro n hph
    have h := congrArg Link.phase (hidle .readBody rfl)
    simp only [Link.step, hph] at h
    split at h
    · simp at h
    · split at h
      · simp at h
      · rename_i h1 h2
        exact ⟨by simpa using h1, by simpa using h2⟩
  · intro hw
    have h := congrArg Link.sendQ (hidle .write rfl)
    simp only [Link.step, hw, if_true] at h
    split at h
    · assumption
    · rename_i m q hq
      rw [hq] at h
      split at h <;> exact absurd (congrArg List.length h) (by simp [Link.stopWriter])
    · rename_i m q hq
      rw [hq] at h
      exact absurd (congrArg List.length h) (by simp)

theorem cap_step (s : Link) (l : Label) : (s.step l).1.cap = s.cap := by
  cases l <;> simp only [Link.step] <;> repeat' split
  all_goals rfl

theorem cap_run (s : Link) (ls : List Label) : (s.run ls).1.cap = s.cap := by
  induction ls generalizing s with
  | nil => rfl
  | cons l ls ih => simp only [Link.run]; rw [ih, cap_step]

/-- Without failures, and with messages that fit a length field, the sender task stays alive. -/
def Healthy (s : Link) : Prop :=
  s.writer = true ∧ s.broken = false ∧ s.sendClosed = false ∧ s.wireClosed = false ∧ s.eof = false ∧
  s.recvClosed = false ∧ ∀ m, .bytes m ∈ s.sendQ → m.length ≤ maxMessageSize

theorem healthy_step (s : Link) (h : Healthy s) (l : Label) (hl : Label.failure l = false)
    (hs : ∀ m ∈ submitted (s.step l).2, m.length ≤ maxMessageSize) : Healthy (s.step l).1 := by
  obtain ⟨h1, h2, h3, h4, h5, h6, h7⟩ := h
  cases l with
  | send i =>
    have h3' : ¬ s.sendClosed = true := by rw [h3]; simp
    simp only [Link.step, if_neg h3'] at hs ⊢
    split
    · rename_i hroom
      refine ⟨h1, h2, h3, h4, h5, h6, ?_⟩
      intro m hm
      rcases List.mem_append.1 hm with hm | hm
      · exact h7 m hm
      · cases List.mem_singleton.1 hm
        apply hs
        simp [hroom, submitted]
    · exact ⟨h1, h2, h3, h4, h5, h6, h7⟩
  | write =>
    have h3' : ¬ s.sendClosed = true := by rw [h3]; simp
    simp only [Link.step, if_pos h1, if_neg h3']
    split
    · exact ⟨h1, h2, h3, h4, h5, h6, h7⟩
    · rename_i m q hq
      have hm : m.length ≤ maxMessageSize := h7 m (by rw [hq]; simp)
      have hf : frame m = some (be32 m.length ++ m) := by
        unfold frame; rw [if_pos (small_le hm)]
      rw [hf]
      exact ⟨h1, h2, h3, h4, h5, h6, fun m' hm' => h7 m' (by rw [hq]; simp [hm'])⟩
    · rename_i m q hq
      exact ⟨h1, h2, h3, h4, h5, h6, fun m' hm' => h7 m' (by rw [hq]; simp [hm'])⟩
  | arrive k => exact ⟨h1, h2, h3, h4, h5, h6, h7⟩
  | arriveEnd =>
    have h4' : ¬ (s.wireClosed && s.wire.isEmpty) = true := by rw [h4]; simp
    simp only [Link.step, if_neg h4']
    exact ⟨h1, h2, h3, h4, h5, h6, h7⟩
  | readHeader =>
    simp only [Link.step]
    repeat' split
    all_goals exact ⟨h1, h2, h3, h4, h5, h6, h7⟩
  | grant =>
    simp only [Link.step]
    repeat' split
    all_goals exact ⟨h1, h2, h3, h4, h5, h6, h7⟩
  | readBody =>
    simp only [Link.step]
    repeat' split
    all_goals exact ⟨h1, h2, h3, h4, h5, h6, h7⟩
  | hand =>
    simp only [Link.step]
    repeat' split
    all_goals exact ⟨h1, h2, h3, h4, h5, h6, h7⟩
  | recv =>
    simp only [Link.step]
    repeat' split
    all_goals exact ⟨h1, h2, h3, h4, h5, h6, h7⟩
  | _ => simp [Label.failure] at hl

theorem submitted_append (a b : List Obs) : submitted (a ++ b) = submitted a ++ submitted b := by
  unfold submitted; rw [List.filterMap_append]

theorem healthy_run (ls : List Label) (s : Link) (h : Healthy s)
    (hl : ∀ l ∈ ls, Label.failure l = false)
    (hs : ∀ m ∈ submitted (s.run ls).2, m.length ≤ maxMessageSize) : Healthy (s.run ls).1 := by
  induction ls generalizing s with
  | nil => exact h
  | cons l ls ih =>
    simp only [Link.run] at *
    rw [submitted_append] at hs
    exact ih _ (healthy_step s h l (hl l List.mem_cons_self)
      (fun m hm => hs m (List.mem_append_left _ hm)))
      (fun l' hl' => hl l' (List.mem_cons_of_mem _ hl'))
      (fun m hm => hs m (List.mem_append_right _ hm))

theorem ok_of_no_failure (ls : List Label) (hl : ∀ l ∈ ls, Label.failure l = false) :
    (ls.all fun l => !l.breaksReader) = true := by
  rw [List.all_eq_true]
  intro l hm
  have := hl l hm
  cases l <;> simp_all [Label.failure, Label.breaksReader]

/-! ## C25 -/

/-- **C25, safety.** Whatever is sent, however the byte stream is cut into pieces, however tasks
interleave and whatever fails: the messages received are the first messages submitted, unchanged and in
order. -/
theorem C25_received_is_prefix (cap : Option Nat) (ls : List Label) :
    delivered ((Link.new cap).run ls).2 <+: submitted ((Link.new cap).run ls).2 := by
  have h := inv_run ls true (Link.new cap) [] (inv_new cap)
  rw [List.nil_append] at h
  obtain ⟨_, arrived, done, pend, sent, handled, hr, hs⟩ := h
  rw [delivered_eq, submitted_eq]
  refine (tail_received hr.tail).trans (List.IsPrefix.trans ?_ hs.sub)
  obtain ⟨y, hy⟩ := hs.bytes
  refine encode_prefix_le done sent (pendBytes pend ++ ((Link.new cap).run ls).1.buf ++
    ((Link.new cap).run ls).1.wire) y (fun m hm => small_le (hr.small m hm)) hs.small ?_
  rw [← hy, hr.bytes]
  simp [List.append_assoc]

/-- **C25, completeness.** Without failures, and with messages of at most the maximum size, once nothing
is left to do everything submitted has been received. -/
theorem C25_all_received (cap : Option Nat) (hcap : cap ≠ some 0) (ls : List Label)
    (hl : ∀ l ∈ ls, Label.failure l = false)
    (hs : ∀ m ∈ submitted ((Link.new cap).run ls).2, m.length ≤ maxMessageSize)
    (hidle : Idle ((Link.new cap).run ls).1) :
    delivered ((Link.new cap).run ls).2 = submitted ((Link.new cap).run ls).2 := by
  have hh := healthy_run ls (Link.new cap) ⟨rfl, rfl, rfl, rfl, rfl, rfl, by simp [Link.new]⟩ hl hs
  have h := inv_run ls true (Link.new cap) [] (inv_new cap)
  rw [List.nil_append, ok_of_no_failure ls hl] at h
  have hcap' := cap_run (Link.new cap) ls
  rw [submitted_eq] at hs ⊢
  rw [delivered_eq]
  generalize ((Link.new cap).run ls).1 = s at *
  generalize ((Link.new cap).run ls).2 = obs at *
  obtain ⟨_, arrived, done, pend, sent, handled, hr, hsi⟩ := h
  obtain ⟨hw, hb, -, -, heof, hrc, -⟩ := hh
  obtain ⟨h1, h2, h3, h4⟩ := hsi.live hw
  obtain ⟨i1, i2, i3, i4, i5, i6, i7⟩ := idle_phase s (by rw [hcap']; exact hcap) hidle
  have hacc : msgs (acceptedItems obs) = sent := by rw [h1, i7 hw, List.append_nil, h2]
  rw [hacc] at hs ⊢
  have hall := h4 hb
  rw [i6, List.append_nil, hr.bytes, List.append_assoc] at hall
  obtain ⟨rest, hrest, hx⟩ := encode_prefix done sent _ (fun m hm => small_le (hr.small m hm))
    (fun m hm => small_le (hs m hm)) hall
  -- an announced length is the length of the next message
  have hpend : ∀ n, pend = some n → ∃ m r, rest = m :: r ∧ m.length = n ∧ n ≤ s.buf.length ∧
      n ≤ maxMessageSize := by
    intro n hn
    subst hn
    cases rest with
    | nil => simp [pendBytes, encode, be32] at hx
    | cons m r =>
      have hm : m ∈ sent := by rw [hrest]; simp
      have hx' : be32 n ++ s.buf = be32 m.length ++ (m ++ encode r) := by
        simpa [pendBytes, encode] using hx
      obtain ⟨e1, e2⟩ := List.append_inj hx' rfl
      have e3 := be32_inj (hr.pendSmall n rfl) (small_le (hs m hm)) e1
      refine ⟨m, r, rfl, e3.symm, ?_, ?_⟩
      · rw [e2, e3]; simp
      · rw [e3]; exact hs m hm
  have ht := hr.tail
  have hdone : done = received obs ∧ pend = none ∧ s.buf.length < 4 := by
    unfold Tail at ht
    cases hph : s.phase <;> rw [hph] at ht <;> simp only at ht
    · exact ⟨by rw [ht.2, i1, List.append_nil], ht.1, (i4 hph).1⟩
    · exact absurd hph (i2 _)
    · rename_i n
      obtain ⟨m, r, -, -, h5, -⟩ := hpend n ht.1
      have := (i5 n hph).1
      omega
    · rename_i m
      rcases i3 m with h5 | h5
      · exact absurd hph h5
      · rw [hrc] at h5; simp at h5
    · obtain ⟨h6, h7⟩ := ht.2 rfl
      exfalso
      cases hp : pend with
      | none => rw [hp] at h7; rw [heof] at h7; simp at h7
      | some n =>
        rw [hp] at h7
        obtain ⟨m, r, -, -, h5, h8⟩ := hpend n hp
        rcases h7 with h7 | h7
        · omega
        · rw [heof] at h7; simp at h7
  obtain ⟨hd, hp, hlt⟩ := hdone
  rw [hp] at hx
  have : rest = [] := by
    cases rest with
    | nil => rfl
    | cons m r =>
      have := congrArg List.length hx
      simp [pendBytes, encode, be32] at this
      omega
  rw [hrest, this, List.append_nil, hd]

/-- How much is left to do, at most. -/
def work (s : Link) : Nat :=
  (s.sendQ.map fun i => match i with
    | .bytes m => 9 * (m.length + 4) + 1
    | .softClose _ => 1).sum + 9 * s.wire.length + 8 * s.buf.length + s.recvQ.length +
  (match s.phase with
   | .header => 1
   | .waiting _ => 5
   | .body _ => 4
   | .handing _ => 3
   | .stopped => 0) + (!s.eof).toNat + s.writer.toNat

/-- **C25, progress.** Each step of the tasks either does nothing or brings the connection closer to
being idle: a connection on which nobody sends any more becomes idle after at most `work` effective
steps. -/
theorem C25_progress (s : Link) (l : Label) (hl : Label.progress l = true) :
    (s.step l).1 = s ∨ work (s.step l).1 < work s := by
  cases l with
  | write =>
    simp only [Link.step]
    split
    · rename_i hw
      split
      · rename_i hq
        split
        · right; simp [work, Link.stopWriter, hq, hw]
        · left; rfl
      · rename_i m q hq
        split
        · rename_i f hf
          obtain ⟨_, rfl⟩ := frame_some hf
          right
          simp only [work, hq, List.map_cons, List.sum_cons]
          split
          · omega
          · simp only [List.length_append, be32_length]; omega
        · right
          simp only [work, hq, List.map_cons, List.sum_cons, Link.stopWriter, hw]
          simp; omega
      · rename_i m q hq
        right
        simp only [work, hq, List.map_cons, List.sum_cons]; omega
    · left; rfl
  | arrive k =>
    by_cases hk : s.wire.take k = []
    · left
      simp only [Link.step, hk, List.append_nil]
      have : s.wire.drop k = s.wire := by
        conv => rhs; rw [← List.take_append_drop k s.wire, hk, List.nil_append]
      rw [this]
    · right
      simp only [Link.step, work, List.length_append]
      have h1 : s.wire.length = (s.wire.take k).length + (s.wire.drop k).length := by
        rw [← List.length_append, List.take_append_drop]
      have h2 : 0 < (s.wire.take k).length := List.length_pos_iff.2 hk
      omega
  | arriveEnd =>
    simp only [Link.step]
    split
    · cases he : s.eof with
      | true => left; cases s; simp only at he; rw [he]
      | false => right; simp [work, he]
    · left; rfl
  | readHeader =>
    simp only [Link.step]
    split
    · rename_i hph
      split
      · rename_i hbuf
        split
        · right; simp only [work, hph, hbuf, List.length_cons]; omega
        · right; simp only [work, hph, hbuf, List.length_cons]; omega
      · split
        · right; simp only [work, hph]; omega
        · left; rfl
    · left; rfl
  | grant =>
    simp only [Link.step]
    split
    · rename_i hph
      right; simp only [work, hph]; omega
    · left; rfl
  | readBody =>
    simp only [Link.step]
    split
    · rename_i hph
      split
      · right; simp only [work, hph, List.length_drop]; omega
      · split
        · right; simp only [work, hph]; omega
        · left; rfl
    · left; rfl
  | hand =>
    simp only [Link.step]
    split
    · rename_i hph
      split
      · right; simp only [work, hph]; omega
      · split
        · right; simp only [work, hph, List.length_append, List.length_singleton]; omega
        · left; rfl
    · left; rfl
  | recv =>
    simp only [Link.step]
    split
    · rename_i hq
      right; simp only [work, hq, List.length_cons]; omega
    · split <;> (left; rfl)
  | _ => simp [Label.progress] at hl

/-! ### A case

Two messages, one of them empty, and a soft close through channels of capacity two; the bytes arrive in
pieces of one, four and two. -/

def demoLabels : List Label :=
  [.send (.bytes [1, 2, 3]), .send (.bytes []), .send (.bytes [9]), .write, .arrive 1, .readHeader, .send (.softClose 5),
   .arrive 4, .readHeader, .grant, .readBody, .write, .arrive 2, .readBody, .hand, .write,
   .arrive 9, .readHeader, .recv, .grant, .readBody, .hand, .recv]

example : (∀ l ∈ demoLabels, Label.failure l = false) ∧
    submitted ((Link.new (some 2)).run demoLabels).2 = [[1, 2, 3], []] ∧
    delivered ((Link.new (some 2)).run demoLabels).2 = [[1, 2, 3], []] := by decide

example : Idle ((Link.new (some 2)).run demoLabels).1 := by
  have h : ((Link.new (some 2)).run demoLabels).1 = { cap := some 2 } := by rfl
  rw [h]
  intro l hl
  cases l <;> simp [Label.progress] at hl <;> simp [Link.step]

/-! ## A peer that sends arbitrary bytes -/

/-- A connection whose peer sends the bytes `bs` and nothing else, at any speed, and may or may not
close the stream after them. -/
def peer (cap : Option Nat) (bs : Bytes) : Link :=
  { cap := cap, wire := bs, wireClosed := true, writer := false, sendClosed := true }

/-- The bytes that have arrived are the first of the bytes the peer sent. -/
theorem peer_run (ls : List Label) (bs : Bytes) (ok nocut : Bool) (arrived : Bytes) (s : Link)
    (obs : List Obs) (done : List Bytes) (pend : Option Nat) (h : RInv ok arrived s obs done pend)
    (hw : s.writer = false) (hb : (arrived ++ s.wire) <+: bs)
    (hn : nocut = true → arrived ++ s.wire = bs ∧ s.wireClosed = true) :
    ∃ arrived' done' pend', RInv (ok && ls.all fun l => !l.breaksReader) arrived' (s.run ls).1
      (obs ++ (s.run ls).2) done' pend' ∧ (arrived' ++ (s.run ls).1.wire) <+: bs ∧
      ((nocut && ls.all fun l => !(Label.failure l)) = true → arrived' ++ (s.run ls).1.wire = bs ∧
        (s.run ls).1.wireClosed = true) := by
  induction ls generalizing ok nocut arrived s obs done pend with
  | nil => exact ⟨arrived, done, pend, by simpa [Link.run] using h, hb, by simpa [Link.run] using hn⟩
  | cons l ls ih =>
    obtain ⟨p, h1⟩ := rinv_step ok arrived s obs done pend h l
    have hstep : (s.step l).1.writer = false ∧
        ((arrived ++ arriving s l) ++ (s.step l).1.wire) <+: bs ∧
        ((nocut && !(Label.failure l)) = true →
          (arrived ++ arriving s l) ++ (s.step l).1.wire = bs ∧ (s.step l).1.wireClosed = true) := by
      have hid : ∀ s' : Link, s'.writer = false → s'.wire = s.wire →
          (s'.wireClosed = s.wireClosed ∨ s'.wireClosed = true) →
          s'.writer = false ∧ ((arrived ++ []) ++ s'.wire) <+: bs ∧ ∀ x : Bool, ((nocut && x) = true →
          (arrived ++ []) ++ s'.wire = bs ∧ s'.wireClosed = true) := by
        intro s' e1 e2 e3
        rw [List.append_nil, e2]
        refine ⟨e1, hb, fun x hx => ?_⟩
        rw [Bool.and_eq_true] at hx
        refine ⟨(hn hx.1).1, ?_⟩
        rcases e3 with e3 | e3
        · rw [e3]; exact (hn hx.1).2
        · exact e3
      have hid' : ∀ (s' : Link) (x : Bool), s'.writer = false → s'.wire = s.wire →
          (s'.wireClosed = s.wireClosed ∨ s'.wireClosed = true) →
          s'.writer = false ∧ ((arrived ++ []) ++ s'.wire) <+: bs ∧ ((nocut && x) = true →
          (arrived ++ []) ++ s'.wire = bs ∧ s'.wireClosed = true) :=
        fun s' x e1 e2 e3 => ⟨(hid s' e1 e2 e3).1, (hid s' e1 e2 e3).2.1, (hid s' e1 e2 e3).2.2 x⟩
      have hw' : ¬ s.writer = true := by rw [hw]; simp
      cases l with
      | send i =>
        simp only [Link.step]
        repeat' split
        all_goals exact hid' _ _ hw rfl (Or.inl rfl)
      | write =>
        simp only [Link.step, if_neg hw']
        exact hid' _ _ hw rfl (Or.inl rfl)
      | writeFail k =>
        simp only [Link.step, if_neg hw']
        exact hid' _ _ hw rfl (Or.inl rfl)
      | dropSender => exact hid' _ _ rfl rfl (Or.inr rfl)
      | cut k =>
        refine ⟨hw, ?_, by simp [Label.failure]⟩
        simp only [arriving, List.append_nil, Link.step]
        exact List.IsPrefix.trans ((List.prefix_append_right_inj _).2 (List.take_prefix _ _)) hb
      | arrive k =>
        simp only [Link.step, arriving, List.append_assoc, List.take_append_drop]
        refine ⟨hw, hb, fun hx => ?_⟩
        rw [Bool.and_eq_true] at hx
        exact hn hx.1
      | arriveEnd =>
        simp only [Link.step]
        repeat' split
        all_goals exact hid' _ _ hw rfl (Or.inl rfl)
      | readHeader =>
        simp only [Link.step]
        repeat' split
        all_goals exact hid' _ _ hw rfl (Or.inl rfl)
      | grant =>
        simp only [Link.step]
        repeat' split
        all_goals exact hid' _ _ hw rfl (Or.inl rfl)
      | readBody =>
        simp only [Link.step]
        repeat' split
        all_goals exact hid' _ _ hw rfl (Or.inl rfl)
      | readFail =>
        simp only [Link.step]
        repeat' split
        all_goals exact hid' _ _ hw rfl (Or.inl rfl)
      | hand =>
        simp only [Link.step]
        repeat' split
        all_goals exact hid' _ _ hw rfl (Or.inl rfl)
      | recv =>
        simp only [Link.step]
        repeat' split
        all_goals exact hid' _ _ hw rfl (Or.inl rfl)
      | dropReceiver => exact hid' _ _ hw rfl (Or.inl rfl)
    obtain ⟨h2, h3, h4⟩ := hstep
    obtain ⟨a', d', p', h5, h6, h7⟩ := ih _ _ _ _ _ _ _ h1 h2 h3 h4
    refine ⟨a', d', p', ?_, h6, ?_⟩
    · simpa [Link.run, List.append_assoc, Bool.and_assoc] using h5
    · simpa [Link.run, Bool.and_assoc] using h7

theorem peer_inv (cap : Option Nat) (bs : Bytes) (ls : List Label) :
    ∃ arrived done pend, RInv (ls.all fun l => !l.breaksReader) arrived ((peer cap bs).run ls).1
      ((peer cap bs).run ls).2 done pend ∧ (arrived ++ ((peer cap bs).run ls).1.wire) <+: bs ∧
      ((ls.all fun l => !(Label.failure l)) = true →
        arrived ++ ((peer cap bs).run ls).1.wire = bs ∧ ((peer cap bs).run ls).1.wireClosed = true) := by
  have := peer_run ls bs true true [] (peer cap bs) [] [] none
    ⟨by simp, by simp, rfl, rfl, ⟨rfl, rfl⟩, fun _ => rfl, fun h => by simp [peer] at h,
      fun _ => Or.inl rfl⟩ rfl (List.prefix_refl _) (fun _ => ⟨rfl, rfl⟩)
  simpa using this

theorem no_failure_all (ls : List Label) (hl : ∀ l ∈ ls, Label.failure l = false) :
    (ls.all fun l => !(Label.failure l)) = true := by
  rw [List.all_eq_true]
  intro l hm
  rw [hl l hm]; rfl

/-! ## C26 -/

/-- **C26, sizes.** Whatever bytes a peer sends: memory is only ever asked for messages of at most the
maximum size, every message handed to the application is at most that size, and the memory asked for
the messages is exactly their length. -/
theorem C26_reservations_bounded (cap : Option Nat) (bs : Bytes) (ls : List Label) :
    (∀ n ∈ askedFor ((peer cap bs).run ls).2, n ≤ maxMessageSize) ∧
    (∀ m ∈ delivered ((peer cap bs).run ls).2, m.length ≤ maxMessageSize) ∧
    (delivered ((peer cap bs).run ls).2).map List.length <+: askedFor ((peer cap bs).run ls).2 := by
  obtain ⟨arrived, done, pend, hr, -, -⟩ := peer_inv cap bs ls
  rw [askedFor_eq, delivered_eq]
  have hp := tail_received hr.tail
  refine ⟨?_, ?_, ?_⟩
  · intro n hn
    rw [hr.res] at hn
    rcases List.mem_append.1 hn with h | h
    · obtain ⟨m, hm, rfl⟩ := List.mem_map.1 h
      exact hr.small m hm
    · simpa using (List.mem_filter.1 h).2
  · intro m hm
    exact hr.small m (hp.subset hm)
  · rw [hr.res]
    exact (hp.map _).trans (List.prefix_append _ _)

/-- Frames in front of an oversized one. -/
theorem encode_oversize (done ms : List Bytes) (pend : Option Nat) (x rest : Bytes) (n : Nat)
    (hd : ∀ m ∈ done, m.length ≤ maxMessageSize) (hm : ∀ m ∈ ms, m.length ≤ maxMessageSize)
    (hn : maxMessageSize < n) (hn' : n ≤ u32Max)
    (h : encode done ++ (pendBytes pend ++ x) = encode ms ++ (be32 n ++ rest)) :
    ∃ r, ms = done ++ r ∧ pendBytes pend ++ x = encode r ++ (be32 n ++ rest) := by
  induction done generalizing ms with
  | nil => exact ⟨ms, rfl, h⟩
  | cons d ds ih =>
    have hdl := hd d List.mem_cons_self
    cases ms with
    | nil =>
      have h' : be32 d.length ++ (d ++ (encode ds ++ (pendBytes pend ++ x))) = be32 n ++ rest := by
        simpa [encode] using h
      have := be32_inj (small_le hdl) hn' (List.append_inj h' rfl).1
      omega
    | cons t ts =>
      have h' : be32 d.length ++ (d ++ (encode ds ++ (pendBytes pend ++ x))) =
          be32 t.length ++ (t ++ (encode ts ++ (be32 n ++ rest))) := by
        simpa [encode] using h
      obtain ⟨h1, h2⟩ := List.append_inj h' rfl
      have hl := be32_inj (small_le hdl) (small_le (hm t List.mem_cons_self)) h1
      obtain ⟨h3, h4⟩ := List.append_inj h2 hl
      obtain ⟨r, e1, e2⟩ := ih ts (fun m hm => hd m (List.mem_cons_of_mem _ hm))
        (fun m h => hm m (List.mem_cons_of_mem _ h)) h4
      exact ⟨r, by rw [h3, e1]; rfl, e2⟩

/-- **C26, refusal.** A peer sends some messages and then a frame that declares a length above the
maximum. Whatever follows, and whatever the schedule: memory is asked only for the messages in front of
it, only those are handed out, and the bytes behind the declared length are never read. If nothing
fails, then once nothing is left to do exactly those messages were handed out and the connection has
ended. -/
theorem C26_oversize_refused (cap : Option Nat) (ms : List Bytes) (n : Nat) (rest : Bytes)
    (hms : ∀ m ∈ ms, m.length ≤ maxMessageSize) (hn : maxMessageSize < n) (hn' : n ≤ u32Max)
    (ls : List Label) :
    let r := (peer cap (ms.flatMap wireFormat ++ be32 n ++ rest)).run ls
    askedFor r.2 <+: ms.map List.length ∧ delivered r.2 <+: ms ∧
    ((∀ l ∈ ls, Label.failure l = false) →
      (∃ unread, r.1.buf ++ r.1.wire = unread ++ rest) ∧
      (cap ≠ some 0 → Idle r.1 → delivered r.2 = ms ∧ r.1.phase = .stopped)) := by
  intro r
  obtain ⟨arrived, done, pend, hr, hb, hnf⟩ := peer_inv cap (ms.flatMap wireFormat ++ be32 n ++ rest) ls
  have hcap : r.1.cap = cap := cap_run _ _
  rw [askedFor_eq, delivered_eq]
  change RInv _ arrived r.1 r.2 done pend at hr
  change arrived ++ r.1.wire <+: _ at hb
  change _ → arrived ++ r.1.wire = _ ∧ r.1.wireClosed = true at hnf
  rw [← encode_eq] at hb hnf
  obtain ⟨y, hy⟩ := hb
  rw [hr.bytes] at hy
  obtain ⟨q, hq, hx⟩ := encode_oversize done ms pend (r.1.buf ++ (r.1.wire ++ y)) rest n hr.small hms
    hn hn' (by simpa [List.append_assoc] using hy)
  have hrcv := tail_received hr.tail
  -- a pending length is that of the next message, or the oversized one
  have hpend : ∀ k, pend = some k →
      (q = [] ∧ k = n ∧ r.1.buf ++ (r.1.wire ++ y) = rest) ∨
      (∃ m q', q = m :: q' ∧ k = m.length ∧
        r.1.buf ++ (r.1.wire ++ y) = m ++ (encode q' ++ (be32 n ++ rest))) := by
    intro k hk
    subst hk
    cases q with
    | nil =>
      left
      obtain ⟨e1, e2⟩ := List.append_inj (show be32 k ++ _ = be32 n ++ rest from hx) rfl
      exact ⟨rfl, be32_inj (hr.pendSmall k rfl) hn' e1, e2⟩
    | cons m q' =>
      right
      have hx' : be32 k ++ (r.1.buf ++ (r.1.wire ++ y)) =
          be32 m.length ++ (m ++ (encode q' ++ (be32 n ++ rest))) := by
        simpa [pendBytes, encode] using hx
      obtain ⟨e1, e2⟩ := List.append_inj hx' rfl
      exact ⟨m, q', rfl, be32_inj (hr.pendSmall k rfl) (small_le (hms m (by rw [hq]; simp))) e1, e2⟩
  refine ⟨?_, hrcv.trans ⟨q, hq.symm⟩, ?_⟩
  · rw [hr.res, hq, List.map_append, List.prefix_append_right_inj]
    cases hp : pend with
    | none => simp
    | some k =>
      rcases hpend k hp with ⟨-, rfl, -⟩ | ⟨m, q', rfl, rfl, -⟩
      · have : ¬ k ≤ maxMessageSize := by omega
        simp [this]
      · simp only [Option.toList_some, List.map_cons]
        by_cases hk : m.length ≤ maxMessageSize
        · simp [hk]
        · simp [hk]
  · intro hl
    have hy0 : y = [] := by
      have h1 := (hnf (no_failure_all ls hl)).1
      rw [hr.bytes] at h1
      rw [← h1] at hy
      simpa using hy
    subst hy0
    simp only [List.append_nil] at hx hpend
    refine ⟨?_, ?_⟩
    · cases hp : pend with
      | none =>
        rw [hp] at hx
        exact ⟨encode q ++ be32 n, by simpa [pendBytes] using hx⟩
      | some k =>
        rcases hpend k hp with ⟨-, -, h⟩ | ⟨m, q', -, -, h⟩
        · exact ⟨[], h⟩
        · exact ⟨m ++ encode q' ++ be32 n, by rw [h]; simp⟩
    · intro hcap0 hidle
      rw [ok_of_no_failure ls hl] at hr
      obtain ⟨i1, i2, i3, i4, i5, i6, -⟩ := idle_phase r.1 (by rw [hcap]; exact hcap0) hidle
      rw [i6, List.append_nil] at hx
      simp only [i6, List.append_nil] at hpend
      have heof : r.1.eof = true := by
        have h := congrArg Link.eof (hidle .arriveEnd rfl)
        have hc := (hnf (no_failure_all ls hl)).2
        simp only [Link.step, hc, i6] at h
        simpa using h.symm
      have ht := hr.tail
      unfold Tail at ht
      cases hph : r.1.phase <;> rw [hph] at ht <;> simp only at ht
      · have := (i4 hph).2; rw [heof] at this; simp at this
      · exact absurd hph (i2 _)
      · have := (i5 _ hph).2; rw [heof] at this; simp at this
      · rename_i m
        rcases i3 m with h5 | h5
        · exact absurd hph h5
        · rw [hr.open' rfl] at h5; simp at h5
      · obtain ⟨h6, h7⟩ := ht.2 trivial
        refine ⟨?_, rfl⟩
        rw [hq, h6, i1]
        have : q = [] := by
          cases hp : pend with
          | none =>
            rw [hp] at h7 hx
            simp only at h7
            have := congrArg List.length hx
            simp [pendBytes, be32_length] at this
            omega
          | some k =>
            rw [hp] at h7
            rcases hpend k hp with ⟨h, -, -⟩ | ⟨m, q', e1, e2, h⟩
            · exact h
            · exfalso
              have hms' := hms m (by rw [hq, e1]; simp)
              simp only at h7
              rcases h7 with h7 | h7
              · omega
              · have := congrArg List.length h
                simp at this
                omega
        rw [this]; simp

/-- A case: one good message, then a frame that declares 4 GB. -/
example :
    let r := (peer none ([[1, 2]].flatMap wireFormat ++ be32 4294967295 ++ [7, 7, 7])).run
      [.arrive 5, .readHeader, .grant, .readBody, .arrive 20, .readBody, .hand, .readHeader, .readBody,
       .arriveEnd, .recv, .recv]
    r.2 = [.reserve 2, .got [1, 2], .recvError] ∧ r.1.buf = [7, 7, 7] := by decide

/-! ## C27 -/

/-- The messages of `ms` that are complete in the first `n` bytes of the stream. -/
def complete : List Bytes → Nat → List Bytes
  | [], _ => []
  | m :: ms, n => if (wireFormat m).length ≤ n then m :: complete ms (n - (wireFormat m).length) else []

theorem complete_append (done r : List Bytes) (j : Nat) :
    complete (done ++ r) ((encode done).length + j) = done ++ complete r j := by
  induction done with
  | nil => simp [encode]
  | cons d ds ih =>
    have e1 : (encode (d :: ds)).length = (wireFormat d).length + (encode ds).length := by
      simp [encode, wireFormat, be32]; omega
    rw [List.cons_append, complete, e1, if_pos (by omega)]
    have e2 : (wireFormat d).length + (encode ds).length + j - (wireFormat d).length =
        (encode ds).length + j := by omega
    rw [e2, ih]; rfl

/-- **C27, safety.** The sender's messages `ms` were cut off after the bytes `p` (anywhere, also inside
a length). Whatever the schedule, whatever else fails, only messages that are complete in `p` are handed
out, in order. -/
theorem C27_only_complete (cap : Option Nat) (ms : List Bytes) (p : Bytes)
    (hms : ∀ m ∈ ms, m.length ≤ u32Max) (hp : p <+: ms.flatMap wireFormat) (ls : List Label) :
    delivered ((peer cap p).run ls).2 <+: complete ms p.length := by
  obtain ⟨arrived, done, pend, hr, hb, -⟩ := peer_inv cap p ls
  rw [delivered_eq]
  refine (tail_received hr.tail).trans ?_
  generalize ((peer cap p).run ls).1 = s at *
  rw [← encode_eq] at hp
  obtain ⟨y, hy⟩ := hp
  obtain ⟨z, hz⟩ := hb
  rw [hr.bytes] at hz
  obtain ⟨q, hq, hx⟩ := encode_prefix done ms
    (pendBytes pend ++ s.buf ++ s.wire ++ z ++ y)
    (fun m hm => small_le (hr.small m hm)) hms (by rw [← hy, ← hz]; simp [List.append_assoc])
  have hlen : p.length = (encode done).length + (pendBytes pend ++ s.buf ++
      s.wire ++ z).length := by
    rw [← List.length_append, ← hz]; simp [List.append_assoc]
  rw [hq, hlen, complete_append]
  exact List.prefix_append _ _

/-- **C27, completeness.** If nothing else fails and the end of the stream is seen, then once nothing is
left to do, exactly the complete messages were handed out and the connection has ended. -/
theorem C27_then_fails (cap : Option Nat) (hcap : cap ≠ some 0) (ms : List Bytes) (p : Bytes)
    (hms : ∀ m ∈ ms, m.length ≤ maxMessageSize) (hp : p <+: ms.flatMap wireFormat) (ls : List Label)
    (hl : ∀ l ∈ ls, Label.failure l = false) (hidle : Idle ((peer cap p).run ls).1) :
    delivered ((peer cap p).run ls).2 = complete ms p.length ∧
    (((peer cap p).run ls).1.step .recv).2 = [.recvError] := by
  obtain ⟨arrived, done, pend, hr, -, hnf⟩ := peer_inv cap p ls
  obtain ⟨hb, hclosed⟩ := hnf (no_failure_all ls hl)
  have hcap' : ((peer cap p).run ls).1.cap = cap := cap_run _ _
  rw [delivered_eq]
  generalize ((peer cap p).run ls).1 = s at *
  generalize ((peer cap p).run ls).2 = obs at *
  rw [ok_of_no_failure ls hl] at hr
  obtain ⟨i1, i2, i3, i4, i5, i6, -⟩ := idle_phase s (by rw [hcap']; exact hcap) hidle
  have heof : s.eof = true := by
    have h := congrArg Link.eof (hidle .arriveEnd rfl)
    simp only [Link.step, hclosed, i6] at h
    simpa using h.symm
  rw [i6, List.append_nil, hr.bytes] at hb
  rw [← encode_eq] at hp
  obtain ⟨y, hy⟩ := hp
  obtain ⟨q, hq, hx⟩ := encode_prefix done ms (pendBytes pend ++ s.buf ++ y)
    (fun m hm => small_le (hr.small m hm)) (fun m hm => small_le (hms m hm))
    (by rw [← hy, ← hb]; simp [List.append_assoc])
  have hlen : p.length = (encode done).length + (pendBytes pend ++ s.buf).length := by
    rw [← List.length_append, ← hb]; simp [List.append_assoc]
  rw [hq, hlen, complete_append]
  have ht := hr.tail
  unfold Tail at ht
  cases hph : s.phase <;> rw [hph] at ht <;> simp only at ht
  · have := (i4 hph).2; rw [heof] at this; simp at this
  · exact absurd hph (i2 _)
  · have := (i5 _ hph).2; rw [heof] at this; simp at this
  · rename_i m
    rcases i3 m with h5 | h5
    · exact absurd hph h5
    · rw [hr.open' rfl] at h5; simp at h5
  · obtain ⟨h6, h7⟩ := ht.2 trivial
    refine ⟨?_, by simp [Link.step, i1, hph]⟩
    have hnone : complete q (pendBytes pend ++ s.buf).length = [] := by
      cases q with
      | nil => rfl
      | cons m q' =>
        have hm := hms m (by rw [hq]; simp)
        have hwl : (wireFormat m).length = 4 + m.length := by simp [wireFormat]; omega
        rw [complete, if_neg]
        rw [hwl]
        cases hp' : pend with
        | none =>
          rw [hp'] at h7
          simp only at h7
          simp [pendBytes]; omega
        | some k =>
          rw [hp'] at h7 hx
          have hx' : be32 k ++ (s.buf ++ y) = be32 m.length ++ (m ++ encode q') := by
            simpa [pendBytes, encode] using hx
          have e := be32_inj (hr.pendSmall k hp') (small_le hm) (List.append_inj hx' rfl).1
          simp only at h7
          rcases h7 with h7 | h7
          · omega
          · simp [pendBytes, be32_length]; omega
    rw [hnone, List.append_nil, h6, i1, List.append_nil]

/-- A case: the stream ends inside the body of the second message. -/
example :
    let ms : List Bytes := [[1, 2], [3, 4, 5]]
    let p := (ms.flatMap wireFormat).take 12
    let r := (peer none p).run [.arrive 7, .readHeader, .grant, .readBody, .hand, .arrive 9, .readHeader,
      .grant, .readBody, .arriveEnd, .readBody, .recv, .recv]
    complete ms p.length = [[1, 2]] ∧ r.2 = [.reserve 2, .reserve 3, .got [1, 2], .recvError] := by
  decide

/-! ## C50 -/

theorem accepted_split (obs : List Obs) (x y : List Item) (i : Item)
    (h : acceptedItems obs = x ++ i :: y) :
    ∃ a b, obs = a ++ Obs.accepted i :: b ∧ acceptedItems a = x := by
  induction obs generalizing x with
  | nil => simp [acceptedItems] at h
  | cons o l ih =>
    have hskip : acceptedItems l = x ++ i :: y → acceptedItems [o] = [] →
        ∃ a b, o :: l = a ++ Obs.accepted i :: b ∧ acceptedItems a = x := by
      intro h1 h2
      obtain ⟨a, b, e1, e2⟩ := ih x h1
      refine ⟨o :: a, b, by rw [e1]; rfl, ?_⟩
      rw [show o :: a = [o] ++ a from rfl, acceptedItems_append, h2, e2]; rfl
    cases o with
    | accepted j =>
      cases x with
      | nil =>
        simp only [acceptedItems, List.nil_append, List.cons.injEq] at h
        exact ⟨[], l, by rw [h.1]; rfl, rfl⟩
      | cons j' x' =>
        simp only [acceptedItems, List.cons_append, List.cons.injEq] at h
        obtain ⟨a, b, e1, e2⟩ := ih x' h.2
        exact ⟨.accepted j :: a, b, by rw [e1]; rfl, by rw [acceptedItems, e2, h.1]⟩
    | _ => exact hskip h rfl

/-- **C50.** When a soft close request is acknowledged, the messages written to the stream and flushed
are exactly the messages submitted before the request, in the order of submission. -/
theorem C50_soft_close_flushes (cap : Option Nat) (ls : List Label) (id : Nat) (pre post : List Obs)
    (h : ((Link.new cap).run ls).2 = pre ++ Obs.acked id :: post) :
    ∃ before after, pre = before ++ Obs.accepted (.softClose id) :: after ∧
      written pre = submitted before := by
  have hi := inv_run ls true (Link.new cap) [] (inv_new cap)
  rw [List.nil_append] at hi
  obtain ⟨x, y, h1, h2⟩ := hi.ack pre id post h
  obtain ⟨a, b, e1, e2⟩ := accepted_split pre x y _ h1
  exact ⟨a, b, e1, by rw [written_eq, submitted_eq, h2, e2]⟩

/-- **C50, on the wire.** As long as the sender task runs and the stream is not broken, the stream has
carried exactly the messages reported as written: those that reached the other side and those still
under way. -/
theorem C50_written_is_on_the_wire (cap : Option Nat) (ls : List Label)
    (hw : ((Link.new cap).run ls).1.writer = true) (hb : ((Link.new cap).run ls).1.broken = false) :
    ∃ consumed, consumed ++ ((Link.new cap).run ls).1.buf ++ ((Link.new cap).run ls).1.wire =
      (written ((Link.new cap).run ls).2).flatMap wireFormat := by
  have hi := inv_run ls true (Link.new cap) [] (inv_new cap)
  rw [List.nil_append] at hi
  obtain ⟨_, arrived, done, pend, sent, handled, hr, hs⟩ := hi
  obtain ⟨h1, h2, h3, h4⟩ := hs.live hw
  refine ⟨encode done ++ pendBytes pend, ?_⟩
  rw [written_eq, h3, ← encode_eq, ← h4 hb, hr.bytes]

/-- A case: two messages, a soft close, one more message; the acknowledgement comes after the first two
were written and before the third. -/
example :
    ((Link.new none).run [.send (.bytes [1]), .send (.bytes [2, 3]), .send (.softClose 0),
      .send (.bytes [4]), .write, .write, .write, .write]).2 =
    [.accepted (.bytes [1]), .accepted (.bytes [2, 3]), .accepted (.softClose 0), .accepted (.bytes [4]),
     .wrote [1], .wrote [2, 3], .acked 0, .wrote [4]] := by decide

end Verif.Props.Frame

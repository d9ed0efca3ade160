import Verif.Model.Meter
import Verif.Props.Frame

/-!
# C104: the byte gauges

`submitted`, `delivered`, `written`, `Idle` and `Label.failure` are as for C25.
-/

namespace Verif.Props.Meter
open Verif.Frame Verif.Meter Verif.Props.Frame

/-- The number of bytes of some messages, without the four bytes of length in front of each. -/
def total (ms : List Bytes) : Nat := (ms.map List.length).sum

theorem total_append (a b : List Bytes) : total (a ++ b) = total a + total b := by simp [total]

theorem total_le_of_prefix {a b : List Bytes} (h : a <+: b) : total a ≤ total b := by
  obtain ⟨c, rfl⟩ := h
  rw [total_append]; omega

theorem addRecv_eq (s : Link) (l : Label) : addRecv s l = total (readNow s l) := by
  cases l <;> try rfl
  simp only [addRecv, readNow]
  cases s.phase with
  | body n =>
    by_cases h : n ≤ s.buf.length
    · simp [h, total, List.length_take]
    · simp [h, total]
  | _ => rfl

theorem addSent_eq (s : Link) (l : Label) : addSent s l = total (wrote (s.step l).2) := by
  cases l with
  | write =>
    simp only [addSent, Link.step]
    split
    · cases hq : s.sendQ with
      | nil => simp only; split <;> rfl
      | cons i q =>
        cases i with
        | bytes m =>
          simp only
          cases frame m <;> simp [wrote, total]
        | softClose id => rfl
    · rfl
  | _ =>
    simp only [addSent, Link.step]
    repeat' split
    all_goals rfl

/-- Both halves of a connection, with the messages read so far. -/
theorem meter_run (ls : List Label) (ok : Bool) (s : Link) (obs : List Obs) (arrived : Bytes) (done : List Bytes)
    (pend : Option Nat) (sent : List Bytes) (handled : List Item) (ha : AckInv obs)
    (hr : RInv ok arrived s obs done pend) (hs : SInv arrived s obs sent handled) :
    ∃ arrived' more pend' sent' handled',
      RInv (ok && ls.all (fun l => !l.breaksReader)) arrived' (s.run ls).1 (obs ++ (s.run ls).2) (done ++ more) pend' ∧
      SInv arrived' (s.run ls).1 (obs ++ (s.run ls).2) sent' handled' ∧
      (metered s ls).2 = total more ∧ (metered s ls).1 = total (wrote (s.run ls).2) := by
  induction ls generalizing ok s obs arrived done pend sent handled with
  | nil => exact ⟨arrived, [], pend, sent, handled, by simpa [Link.run] using hr, by simpa [Link.run] using hs, rfl, rfl⟩
  | cons l ls ih =>
    obtain ⟨p, h1⟩ := rinv_step ok arrived s obs done pend hr l
    obtain ⟨⟨s', q', h2⟩, h3⟩ := sinv_step arrived s obs sent handled hs ha l
    obtain ⟨a, more, p', s'', q'', h4, h5, h6, h7⟩ := ih _ _ _ _ _ _ _ _ h3 h1 h2
    refine ⟨a, readNow s l ++ more, p', s'', q'', ?_, ?_, ?_, ?_⟩
    · simpa [Link.run, List.append_assoc, Bool.and_assoc] using h4
    · simpa [Link.run, List.append_assoc] using h5
    · simp only [metered]; rw [total_append, h6, addRecv_eq]
    · simp only [metered, Link.run]; rw [wrote_append, total_append, h7, addSent_eq]

theorem meter_new (cap : Option Nat) (ls : List Label) :
    ∃ arrived read pend sent handled,
      RInv (ls.all (fun l => !l.breaksReader)) arrived ((Link.new cap).run ls).1 ((Link.new cap).run ls).2 read pend ∧
      SInv arrived ((Link.new cap).run ls).1 ((Link.new cap).run ls).2 sent handled ∧
      (metered (Link.new cap) ls).2 = total read ∧ (metered (Link.new cap) ls).1 = total (wrote ((Link.new cap).run ls).2) := by
  have hr : RInv true [] (Link.new cap) [] [] none := ⟨by simp, by simp, rfl, rfl, ⟨rfl, rfl⟩, fun _ => rfl,
    fun h => by simp [Link.new] at h, fun h => by simp [Link.new] at h⟩
  have hs : SInv [] (Link.new cap) [] [] [] :=
    ⟨List.prefix_refl _, List.prefix_refl _, by simp, fun _ => ⟨rfl, rfl, rfl, fun _ => rfl⟩, Or.inl rfl⟩
  obtain ⟨a, more, p, s', q, h1, h2, h3, h4⟩ := meter_run ls true (Link.new cap) [] [] [] none [] [] ackInv_nil hr hs
  exact ⟨a, more, p, s', q, by simpa using h1, by simpa using h2, h3, h4⟩

/-- **C104, what is counted.** Whatever happens on a connection, there is a list of messages read such that: it consists of the
first messages submitted, in order, and begins with the messages received; the receiver's gauge counts exactly their bytes; the
sender's gauge counts exactly the bytes of the messages written; and all messages read were written, except possibly the last
one. -/
theorem C104_counts (cap : Option Nat) (ls : List Label) : ∃ read : List Bytes,
    read <+: submitted ((Link.new cap).run ls).2 ∧ delivered ((Link.new cap).run ls).2 <+: read ∧
    (∀ m ∈ read, m.length ≤ maxMessageSize) ∧
    (metered (Link.new cap) ls).2 = total read ∧
    (metered (Link.new cap) ls).1 = total (written ((Link.new cap).run ls).2) ∧
    (read <+: written ((Link.new cap).run ls).2 ∨ ∃ m, read = written ((Link.new cap).run ls).2 ++ [m]) := by
  obtain ⟨arrived, read, pend, sent, handled, hr, hs, h3, h4⟩ := meter_new cap ls
  have hle : read <+: sent := by
    obtain ⟨y, hy⟩ := hs.bytes
    refine encode_prefix_le read sent (pendBytes pend ++ ((Link.new cap).run ls).1.buf ++
      ((Link.new cap).run ls).1.wire) y (fun m hm => small_le (hr.small m hm)) hs.small ?_
    rw [← hy, hr.bytes]
    simp [List.append_assoc]
  rw [written_eq, delivered_eq, submitted_eq]
  refine ⟨read, hle.trans hs.sub, tail_received hr.tail, hr.small, h3, h4, ?_⟩
  rcases hs.most with h | ⟨m, h⟩
  · exact Or.inl (by rw [← h]; exact hle)
  · rw [h] at hle
    rcases List.prefix_concat_iff.1 hle with h5 | h5
    · exact Or.inr ⟨m, h5⟩
    · exact Or.inl h5

/-- **C104, one connection.** What the receiver counts exceeds what the sender counts by one message at most. -/
theorem C104_bound (cap : Option Nat) (ls : List Label) :
    (metered (Link.new cap) ls).2 ≤ (metered (Link.new cap) ls).1 + maxMessageSize := by
  obtain ⟨read, -, -, hsm, h3, h4, h | ⟨m, h⟩⟩ := C104_counts cap ls
  · have := total_le_of_prefix h; omega
  · rw [h3, h4, h, total_append]
    have := hsm m (by rw [h]; simp)
    simp only [total, List.map_cons, List.map_nil, List.sum_cons, List.sum_nil]
    omega

/-- **C104, at rest.** Without failures and with messages of at most the maximum size, once nothing is left to do both sides
have counted the same: the bytes of all messages submitted. -/
theorem C104_equal (cap : Option Nat) (hcap : cap ≠ some 0) (ls : List Label)
    (hl : ∀ l ∈ ls, Label.failure l = false)
    (hs : ∀ m ∈ submitted ((Link.new cap).run ls).2, m.length ≤ maxMessageSize)
    (hidle : Idle ((Link.new cap).run ls).1) :
    (metered (Link.new cap) ls).1 = total (submitted ((Link.new cap).run ls).2) ∧
    (metered (Link.new cap) ls).2 = total (submitted ((Link.new cap).run ls).2) := by
  have hall := C25_all_received cap hcap ls hl hs hidle
  obtain ⟨read, h1, h2, -, h3, h4, -⟩ := C104_counts cap ls
  have hread : read = submitted ((Link.new cap).run ls).2 := by
    rw [hall] at h2
    exact List.IsPrefix.eq_of_length h1 (Nat.le_antisymm h1.length_le h2.length_le)
  refine ⟨?_, by rw [h3, hread]⟩
  -- everything submitted was written
  obtain ⟨_, arrived, done, pend, sent, handled, -, hsi⟩ := inv_run ls true (Link.new cap) [] (inv_new cap)
  have hh := healthy_run ls (Link.new cap) ⟨rfl, rfl, rfl, rfl, rfl, rfl, by simp [Link.new]⟩ hl hs
  obtain ⟨e1, e2, e3, -⟩ := hsi.live hh.1
  rw [List.nil_append] at e1 e3
  have hq := (idle_phase _ (by rw [cap_run]; exact hcap) hidle).2.2.2.2.2.2 hh.1
  rw [h4, written_eq, submitted_eq, e1, hq, List.append_nil, e2, e3]

/-! ## All connections of all processes -/

theorem sum_procs (cs : List Channel) (ps : List Nat) (hn : ps.Nodup) (f : Channel → Nat) (g : Channel → Nat)
    (hall : ∀ c ∈ cs, f c ∈ ps) : (ps.map fun p => ((cs.filter fun c => f c = p).map g).sum).sum = (cs.map g).sum := by
  induction cs with
  | nil =>
    clear hn hall
    induction ps with
    | nil => rfl
    | cons p ps ih => simpa using ih
  | cons c cs ih =>
    have ih' := ih (fun c' h => hall c' (List.mem_cons_of_mem _ h))
    rw [List.map_cons, List.sum_cons, ← ih']
    have hc := hall c List.mem_cons_self
    clear ih ih' hall
    induction ps with
    | nil => simp at hc
    | cons p ps ihp =>
      rw [List.nodup_cons] at hn
      simp only [List.map_cons, List.sum_cons, List.filter_cons]
      by_cases h : f c = p
      · have : (ps.map fun q => (((if decide (f c = q) = true then c :: cs.filter fun c => decide (f c = q)
            else cs.filter fun c => decide (f c = q))).map g).sum) =
            ps.map fun q => ((cs.filter fun c => decide (f c = q)).map g).sum := by
          apply List.map_congr_left
          intro q hq
          have : f c ≠ q := fun e => hn.1 (by rw [← h, e]; exact hq)
          simp [this]
        rw [this]
        simp [h]; omega
      · have hc' : f c ∈ ps := by
          rcases List.mem_cons.1 hc with h1 | h1
          · exact absurd h1 h
          · exact h1
        have := ihp hn.2 hc'
        simp only [List.filter_cons] at this
        rw [this]
        simp [h]; omega

/-- **C104, everybody.** Summed over all processes: if on every connection nothing failed and nothing is left to do, as many
bytes were received as sent, namely those of the messages submitted. -/
theorem C104_fleet (cs : List Channel) (ps : List Nat) (hn : ps.Nodup) (hp : ∀ c ∈ cs, c.sender ∈ ps ∧ c.receiver ∈ ps)
    (hcap : ∀ c ∈ cs, c.cap ≠ some 0) (hl : ∀ c ∈ cs, ∀ l ∈ c.past, Label.failure l = false)
    (hs : ∀ c ∈ cs, ∀ m ∈ submitted ((Link.new c.cap).run c.past).2, m.length ≤ maxMessageSize)
    (hidle : ∀ c ∈ cs, Idle ((Link.new c.cap).run c.past).1) :
    (ps.map (totalSent cs)).sum = (cs.map fun c => total (submitted ((Link.new c.cap).run c.past).2)).sum ∧
    (ps.map (totalRecv cs)).sum = (cs.map fun c => total (submitted ((Link.new c.cap).run c.past).2)).sum := by
  have h1 := sum_procs cs ps hn Channel.sender (fun c => (metered (Link.new c.cap) c.past).1) (fun c h => (hp c h).1)
  have h2 := sum_procs cs ps hn Channel.receiver (fun c => (metered (Link.new c.cap) c.past).2) (fun c h => (hp c h).2)
  constructor
  · refine Eq.trans h1 (congrArg List.sum (List.map_congr_left fun c h => ?_))
    exact (C104_equal c.cap (hcap c h) c.past (hl c h) (hs c h) (hidle c h)).1
  · refine Eq.trans h2 (congrArg List.sum (List.map_congr_left fun c h => ?_))
    exact (C104_equal c.cap (hcap c h) c.past (hl c h) (hs c h) (hidle c h)).2

/-- In general: the number of bytes received exceeds that of bytes sent by one message per connection at most. -/
theorem C104_fleet_bound (cs : List Channel) (ps : List Nat) (hn : ps.Nodup)
    (hp : ∀ c ∈ cs, c.sender ∈ ps ∧ c.receiver ∈ ps) :
    (ps.map (totalRecv cs)).sum ≤ (ps.map (totalSent cs)).sum + cs.length * maxMessageSize := by
  have h1 := sum_procs cs ps hn Channel.sender (fun c => (metered (Link.new c.cap) c.past).1) (fun c h => (hp c h).1)
  have h2 := sum_procs cs ps hn Channel.receiver (fun c => (metered (Link.new c.cap) c.past).2) (fun c h => (hp c h).2)
  have e1 : (ps.map (totalSent cs)).sum = _ := h1
  have e2 : (ps.map (totalRecv cs)).sum = _ := h2
  rw [e1, e2]
  clear h1 h2 e1 e2 hp
  induction cs with
  | nil => simp
  | cons c cs ih =>
    have := C104_bound c.cap c.past
    simp only [List.map_cons, List.sum_cons, List.length_cons, Nat.add_mul]
    omega

/-! ## Concrete cases -/

/-- Two messages, the second empty. -/
def demo : List Label := [.send (.bytes [7, 8, 9]), .send (.bytes []), .write, .write, .arrive 9, .readHeader, .grant, .arrive 9,
  .readBody, .hand, .readHeader, .grant, .readBody, .hand, .recv, .recv]

/-- Both gauges count three bytes; eleven crossed the wire, since the lengths are not counted. -/
example : metered (Link.new none) demo = (3, 3) := by decide +kernel

/-- A message that arrived although its writing was reported as failed is counted by the receiver only. -/
example : metered (Link.new none) [.send (.bytes [7, 8, 9]), .writeFail 7, .arrive 7, .readHeader, .grant, .readBody] = (0, 3) := by
  decide +kernel

/-- Two connections between three processes. -/
example : totalSent [⟨0, 1, none, demo⟩, ⟨0, 2, some 4, demo⟩] 0 = 6 ∧ totalRecv [⟨0, 1, none, demo⟩, ⟨0, 2, some 4, demo⟩] 2 = 3 := by
  decide +kernel

/-- The hypotheses of `C104_equal` can be met. -/
example : (∀ l ∈ demo, Label.failure l = false) ∧ Idle ((Link.new none).run demo).1 := by
  refine ⟨by decide, ?_⟩
  have : ((Link.new none).run demo).1 = Link.new none := by
    simp [demo, Link.run, Link.step, Link.new, room, frame, be32, readBe32, maxMessageSize, u32Max]
  rw [this]
  intro l h
  cases l <;> simp [Label.progress] at h <;> simp [Link.step, Link.new]

end Verif.Props.Meter

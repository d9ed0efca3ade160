import Verif.Lemmas.Transfer
import Verif.Model.Frame

/-!
# Property C90: messages of permitted size get through, however slow the network and however busy the receiver

False: the five seconds for reading a message bound its size, and the five seconds for writing it bound how long its receiver may
wait for memory. What holds is shown beside.
-/

namespace Verif.Props.Transfer
open Verif Verif.Transfer

/-- **C90**, what limits the size: in every run a message that was received is no larger than what the receiver's side of the
transport holds and the network carries in the time limit. -/
theorem C90_size_partial (c : Cfg) (ls : List Label) (s : St) (h : Run c init ls s) (x : Got) (hx : x ∈ s.got) :
    x.size ≤ c.inCap + c.rate * (c.limit + c.late + 1) := by
  obtain ⟨_, h2, h3, h4, _⟩ := (run_inv c ls s h).got x hx
  have h5 : c.rate * (x.done - x.granted) ≤ c.rate * (c.limit + c.late) := Nat.mul_le_mul_left _ (by omega)
  have h6 : c.rate * (c.limit + c.late + 1) = c.rate * (c.limit + c.late) + c.rate := by rw [Nat.mul_add, Nat.mul_one]
  omega

/-- **C90** is false: over a connection that carries 12500 bytes in a millisecond (100 Mbit/s), whose buffers hold six million
bytes and whose tasks are resumed within a second, the largest permitted message is never received: with the five seconds of the
code. -/
theorem C90_false (ls : List Label) (s : St) (h : Run ⟨6000000, 6000000, 12500, 5000, 1000⟩ init ls s) (x : Got) (hx : x ∈ s.got) :
    x.size < Frame.maxMessageSize := by
  have := C90_size_partial _ ls s h x hx
  simp only [Frame.maxMessageSize, Frame.u32Max] at this ⊢
  omega

/-- **C90**, what limits the receiver: a message that does not fit into the transport and was received was given its memory
within the sender's time limit. If the receiver's memory is taken for longer, the sender gives the connection up. -/
theorem C90_busy_partial (c : Cfg) (ls : List Label) (s : St) (h : Run c init ls s) (x : Got) (hx : x ∈ s.got)
    (hs : c.outCap + c.inCap < x.size) : x.granted ≤ x.asked + c.limit + c.late := by
  obtain h | h := ((run_inv c ls s h).got x hx).2.2.2.2
  · omega
  · exact h

/-- **C90**, whatever the limits do: the messages received are the first ones of the messages sent, in order. -/
theorem C90_in_order_partial (c : Cfg) (ls : List Label) (s : St) (h : Run c init ls s) :
    s.got.map (·.size) <+: submitted ls := (order c ls s h).2

/-- **C90**, the part that holds: if the network carries any message within the limit less a millisecond, and nobody waits
without need (in particular not for memory), then neither side ever gives up, and what was sent is received as soon as the
network could have carried it, and a millisecond. -/
theorem C90_received_partial (c : Cfg) (M : Nat) (hf : Fast c M) (ls : List Label) (s0 : St) (h0 : Prompt c init ls s0)
    (hn : ∀ n ∈ submitted ls, n ≤ M) :
    (∀ lost, s0.snd ≠ .ended lost) ∧ s0.rcv ≠ .ended ∧
    ∀ ls' s, Prompt c s0 ls' s → submitted ls' = [] →
      ((submitted ls).map (4 + ·)).sum + c.rate < c.rate * (s.now - s0.now) → s.got.map (·.size) = submitted ls := by
  have hp := prompt_pinv c M hf ls s0 h0 hn
  refine ⟨hp.snd, hp.rcv, ?_⟩
  intro ls' s h hns ht
  have hall := h0.append h
  have hsub : submitted (ls ++ ls') = submitted ls := by rw [submitted_append, hns, List.append_nil]
  have hi := run_inv c _ _ hall.run
  have hU := U_le c ls s0 h0.run
  have hor := (order c _ _ hall.run).1
  obtain ⟨_, hid | hle⟩ := arrives c M hf ls s0 h0 hn ls' s h hns
  · obtain ⟨i1, i2, i3, i4, i5, i6⟩ := hid
    have := hor (by rw [i5]; simp)
    rw [i1, i5, i6, hsub] at this
    simpa [current] using this
  · have := hi.credit
    simp only [wireBytes] at hU
    omega

/-- **C90**, there always is such a continuation: time goes on however much is under way. -/
theorem C90_goes_on_partial (c : Cfg) (M : Nat) (hf : Fast c M) (ls : List Label) (s0 : St) (h0 : Prompt c init ls s0)
    (hn : ∀ n ∈ submitted ls, n ≤ M) :
    ∃ ls' s, Prompt c s0 ls' s ∧ submitted ls' = [] ∧ s.got.map (·.size) = submitted ls := by
  obtain ⟨ls', s, h1, h2, h3⟩ := can_wait c M hf ls s0 h0 hn (((submitted ls).map (4 + ·)).sum + 2)
  refine ⟨ls', s, h1, h2, (C90_received_partial c M hf ls s0 h0 hn).2.2 ls' s h1 h2 ?_⟩
  rw [h3, Nat.add_sub_cancel_left]
  have := hf.rate
  have h4 : ((submitted ls).map (4 + ·)).sum ≤ c.rate * ((submitted ls).map (4 + ·)).sum := Nat.le_mul_of_pos_left _ this
  rw [Nat.mul_add]; omega

/-- Gigabit connections are fast enough for all permitted messages. -/
example : Fast ⟨65536, 65536, 125000, 5000, 1000⟩ Frame.maxMessageSize := by
  constructor <;> simp only [Frame.maxMessageSize, Frame.u32Max] <;> omega

/-- Two messages are received over a slow connection with buffers of two bytes. -/
example : ∃ ls s, Prompt ⟨2, 2, 1, 20, 0⟩ init ls s ∧ s.got.map (·.size) = [6, 3] := by
  have h0 : Prompt ⟨2, 2, 1, 20, 0⟩ init ([] ++ [.submit 6] ++ [.submit 3]) _ :=
    .snoc (.snoc .nil (.submit 6) (by simp)) (.submit 3) (by simp)
  obtain ⟨ls', s, h1, _, h2⟩ := C90_goes_on_partial ⟨2, 2, 1, 20, 0⟩ 6 (by constructor <;> decide) _ _ h0
    (by simp [submitted])
  exact ⟨_, s, h0.append h1, h2⟩

/-- The receiver waits for memory for too long: the sender gives up with two bytes left, and the message is lost. -/
example : ∃ s, Run ⟨2, 2, 4, 3, 0⟩ init [.submit 6, .tick, .begin, .write 2, .carry 2, .read 2, .write 2, .carry 2, .read 2, .write 2,
    .tick, .carry 2, .write 2, .tick, .tick, .sndTimeout, .tick, .grant, .read 2, .carry 2, .read 2, .tick, .tick, .tick,
    .rcvTimeout] s ∧ s.snd = .ended 2 ∧ s.rcv = .ended ∧ s.got = [] :=
  execAll_sat _ _ (fun s => s.snd = .ended 2 ∧ s.rcv = .ended ∧ s.got = []) (by decide +kernel)

/-- The network is too slow: the receiver gives up. -/
example : ∃ s, Run ⟨13, 2, 1, 3, 0⟩ init [.submit 9, .begin, .write 4, .write 9, .tick, .carry 1, .read 1, .tick, .carry 1, .read 1, .tick, .carry 1,
    .read 1, .tick, .carry 1, .read 1, .grant, .tick, .carry 1, .read 1, .tick, .carry 1, .read 1, .tick, .carry 1, .read 1,
    .rcvTimeout] s ∧ s.rcv = .ended ∧ s.got = [] :=
  execAll_sat _ _ (fun s => s.rcv = .ended ∧ s.got = []) (by decide +kernel)

end Verif.Props.Transfer

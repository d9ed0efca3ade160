import Verif.Props.Frame

/-!
# C109: calls on a connection that has failed return
-/

namespace Verif.Props.Returns
open Verif Verif.Frame

theorem run_append (s : Link) (ls ls' : List Label) :
    s.run (ls ++ ls') = (((s.run ls).1.run ls').1, (s.run ls).2 ++ ((s.run ls).1.run ls').2) := by
  induction ls generalizing s with
  | nil => rfl
  | cons l ls ih => simp only [List.cons_append, Link.run, ih, List.append_assoc]

/-- The channel of a sender task that has ended is closed, and the task does not start again. -/
theorem writer_step (s : Link) (l : Label) (h : s.writer = false → s.sendClosed = true) :
    ((s.step l).1.writer = false → (s.step l).1.sendClosed = true) ∧ (s.writer = false → (s.step l).1.writer = false) := by
  cases l <;> simp only [Link.step, Link.stopWriter] <;> (repeat' split) <;> simp_all

theorem writer_run (s : Link) (ls : List Label) (h : s.writer = false → s.sendClosed = true) :
    ((s.run ls).1.writer = false → (s.run ls).1.sendClosed = true) ∧ (s.writer = false → (s.run ls).1.writer = false) := by
  induction ls generalizing s with
  | nil => exact ⟨h, id⟩
  | cons l ls ih =>
    obtain ⟨h1, h2⟩ := writer_step s l h
    obtain ⟨h3, h4⟩ := ih (s.step l).1 h1
    exact ⟨h3, fun e => h4 (h2 e)⟩

/-- **C109, sending.** Once the sender task of a connection has ended, every call that sends something (`send_message`,
`send_message_raw`, `soft_close`), made then or later, returns an error: none is accepted and none waits. -/
theorem C109_send_partial (cap : Option Nat) (ls ls' : List Label) (hw : ((Link.new cap).run ls).1.writer = false) (i : Item) :
    (((Link.new cap).run (ls ++ ls')).1.step (.send i)).2 = [.sendError] := by
  have h0 := writer_run (Link.new cap) ls (fun e => by cases e)
  have h1 := writer_run _ ls' h0.1
  rw [run_append]
  simp only [Link.step, h1.1 (h1.2 hw), if_true]

theorem stopped_step (s : Link) (l : Label) (h : s.phase = .stopped) : (s.step l).1.phase = .stopped := by
  cases l <;> simp only [Link.step, Link.stopWriter] <;> (repeat' split) <;> simp_all

theorem stopped_run (s : Link) (ls : List Label) (h : s.phase = .stopped) : (s.run ls).1.phase = .stopped := by
  induction ls generalizing s with
  | nil => exact h
  | cons l ls ih => exact ih _ (stopped_step s l h)

/-- **C109, receiving.** Once the receiver task of a connection has ended, every call that receives, made then or later,
returns: the oldest message that was received completely and not returned yet, or, if there is none, an error. -/
theorem C109_recv_partial (cap : Option Nat) (ls ls' : List Label) (hs : ((Link.new cap).run ls).1.phase = .stopped) :
    (∃ m q, ((Link.new cap).run (ls ++ ls')).1.recvQ = m :: q ∧ (((Link.new cap).run (ls ++ ls')).1.step .recv).2 = [.got m]) ∨
    (((Link.new cap).run (ls ++ ls')).1.recvQ = [] ∧ (((Link.new cap).run (ls ++ ls')).1.step .recv).2 = [.recvError]) := by
  have h1 := stopped_run _ ls' hs
  rw [run_append]
  dsimp only
  generalize (((Link.new cap).run ls).1.run ls').1 = s at h1
  cases hq : s.recvQ with
  | nil => exact .inr ⟨rfl, by simp [Link.step, hq, h1]⟩
  | cons m q => exact .inl ⟨m, q, rfl, by simp [Link.step, hq]⟩

/-- Does the sender task fail, or is the handle dropped? -/
def stops : Label → Bool
  | .writeFail _ | .dropSender => true
  | _ => false

/-- **C109, soft close.** As long as the sender task does not fail, a call of `soft_close` whose request was accepted
returns `Ok` when the task has handled what was accepted before it. -/
theorem C109_soft_close_partial (ls : List Label) (s : Link) (hw : s.writer = true) (before after : List Item) (id : Nat)
    (hq : s.sendQ = before ++ .softClose id :: after) (hb : ∀ m, Item.bytes m ∈ before → m.length ≤ u32Max)
    (hl : ∀ l ∈ ls, stops l = false) (hn : before.length < ls.count .write) : Obs.acked id ∈ (s.run ls).2 := by
  induction ls generalizing s before after with
  | nil => cases hn
  | cons l ls ih =>
    have hl0 := hl l (List.mem_cons_self ..)
    have hl1 : ∀ l ∈ ls, stops l = false := fun l h => hl l (List.mem_cons_of_mem _ h)
    show Obs.acked id ∈ (s.step l).2 ++ ((s.step l).1.run ls).2
    by_cases e : l = .write
    · subst e
      rw [List.count_cons_self] at hn
      cases before with
      | nil =>
        refine List.mem_append_left _ ?_
        simp [Link.step, hw, hq]
      | cons x before =>
        refine List.mem_append_right _ ?_
        have hb' : ∀ m, Item.bytes m ∈ before → m.length ≤ u32Max := fun m h => hb m (List.mem_cons_of_mem _ h)
        have hn' : before.length < ls.count .write := by simp only [List.length_cons] at hn; omega
        cases x with
        | softClose id' =>
          exact ih _ (by simp [Link.step, hw, hq]) before after (by simp [Link.step, hw, hq]) hb' hl1 hn'
        | bytes m =>
          have hf : frame m = some (be32 m.length ++ m) := by
            unfold frame; rw [if_pos (hb m (List.mem_cons_self ..))]
          exact ih _ (by simp [Link.step, hw, hq, hf]) before after (by simp [Link.step, hw, hq, hf]) hb' hl1 hn'
    · rw [List.count_cons_of_ne e] at hn
      refine List.mem_append_right _ ?_
      have key : (s.step l).1.writer = true ∧ ∃ more, (s.step l).1.sendQ = s.sendQ ++ more := by
        cases l <;> simp only [stops, Bool.true_eq_false] at hl0 <;> simp only [Link.step] <;> (repeat' split) <;>
          first
          | exact absurd rfl e
          | exact ⟨hw, [], (List.append_nil _).symm⟩
          | exact ⟨hw, _, rfl⟩
      obtain ⟨h1, more, h2⟩ := key
      exact ih _ h1 before (after ++ more) (by rw [h2, hq]; simp) hb hl1 hn

/-- Once the sender task has ended, what is in its channel stays there, and nothing is acknowledged. -/
theorem left_step (s : Link) (l : Label) (hw : s.writer = false) (hc : s.sendClosed = true) :
    (s.step l).1.sendQ = s.sendQ ∧ ∀ id, Obs.acked id ∉ (s.step l).2 := by
  cases l <;> simp only [Link.step, Link.stopWriter, hw, hc] <;> (repeat' split) <;> simp_all

theorem left_run (s : Link) (ls : List Label) (hw : s.writer = false) (hc : s.sendClosed = true) :
    (s.run ls).1.sendQ = s.sendQ ∧ ∀ id, Obs.acked id ∉ (s.run ls).2 := by
  induction ls generalizing s with
  | nil => exact ⟨rfl, fun _ h => by cases h⟩
  | cons l ls ih =>
    obtain ⟨h1, h2⟩ := left_step s l hw hc
    obtain ⟨h3, h4⟩ := writer_step s l (fun _ => hc)
    obtain ⟨h5, h6⟩ := ih (s.step l).1 (h4 hw) (h3 (h4 hw))
    refine ⟨h5.trans h1, fun id hm => ?_⟩
    rcases List.mem_append.1 hm with hm | hm
    · exact h2 id hm
    · exact h6 id hm

/-- **C109 is false of `soft_close`.** If writing an earlier message fails after the request was accepted, then,
whatever happens afterwards, the request is never acknowledged; it stays in the channel, so the `oneshot` sender in
it is not dropped either, as long as the handle (which the waiting call itself keeps) is not dropped. The call never
returns. -/
theorem C109_false (cap : Option Nat) (hcap : room cap 1 = true) (m : Bytes) (id : Nat) :
    ∃ ls, Obs.accepted (.softClose id) ∈ ((Link.new cap).run ls).2 ∧ ((Link.new cap).run ls).1.writer = false ∧
      ∀ ls', (∀ l ∈ ls', l ≠ .dropSender) → Obs.acked id ∉ ((Link.new cap).run (ls ++ ls')).2 ∧
        Item.softClose id ∈ ((Link.new cap).run (ls ++ ls')).1.sendQ := by
  have h0 : room cap 0 = true := by
    cases cap with
    | none => rfl
    | some c => simp [room] at hcap ⊢; omega
  have e : (Link.new cap).run [.send (.bytes m), .send (.softClose id), .writeFail 0] =
      ({ cap := cap, sendQ := [.softClose id], sendClosed := true, writer := false, wireClosed := true },
        [.accepted (.bytes m), .accepted (.softClose id)]) := by
    cases hf : frame m <;> simp [Link.run, Link.step, Link.new, h0, hcap, hf, Link.stopWriter]
  refine ⟨_, by rw [e]; simp, by rw [e], fun ls' _ => ?_⟩
  obtain ⟨h1, h2⟩ := left_run ((Link.new cap).run [.send (.bytes m), .send (.softClose id), .writeFail 0]).1 ls'
    (by rw [e]) (by rw [e])
  rw [run_append]
  refine ⟨fun hm => ?_, ?_⟩
  · rcases List.mem_append.1 hm with hm | hm
    · rw [e] at hm; simp at hm
    · exact h2 id hm
  · dsimp only
    rw [h1, e]
    simp

/-- The hypotheses are met: a message and a request, both handled. -/
example : Obs.acked 7 ∈ ((((Link.new none).run [.send (.bytes [1, 2]), .send (.softClose 7)]).1).run [.arrive 3, .write, .recv, .write]).2 :=
  C109_soft_close_partial _ _ rfl [.bytes [1, 2]] [] 7 rfl (by simp [u32Max]) (by decide) (by decide)

/-- A connection whose sender task has failed and whose receiver task has seen the end. -/
example : ((Link.new none).run [.send (.bytes [1]), .writeFail 3, .arrive 3, .arriveEnd, .readHeader]).1.writer = false ∧
    ((Link.new none).run [.send (.bytes [1]), .writeFail 3, .arrive 3, .arriveEnd, .readHeader]).1.phase = .stopped := by
  decide

end Verif.Props.Returns

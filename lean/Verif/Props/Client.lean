import Verif.Lemmas.Client
import Verif.Props.BrokerFrames

/-!
# C45–C48, C51, C54, C59: the elastic client

`Run (St.new topics) es s`: some interleaving of any calls of the client's methods and of its reconnection
tasks, with any outcome of every network operation, leads to state `s`; `es` is what was observed.
-/

set_option linter.unusedSectionVars false

namespace Verif.Props.Client
open Verif Verif.Client

variable {s s' : St} {es : List Ev}

/-! ## C47 -/

/-- The task is a reconnection task that has not ended. -/
def Reconnecting (p : PC) : Prop :=
  p = .rWait ∨ p = .rLoop ∨ p = .rSleep ∨ p = .rConnecting ∨ p = .rWantSubs ∨ p = .rAuth ∨
    (∃ c, p = .rGot c) ∨ p = .rSet ∨ p = .rPermit

theorem reconnecting_iff (p : PC) : Reconnecting p ↔ (p.holdsP = true ∧ p ≠ .ensureHold) ∨ p = .rPermit := by
  cases p <;> simp [Reconnecting, PC.holdsP]

theorem not_reconnecting_of {p : PC} (h : p = .idle ∨ p = .done ∨ p = .ensureWait ∨ p = .ensureHold ∨ (∃ op, p = .new op) ∨
    (∃ w, p = .ready w) ∨ (∃ w, p = .reading w) ∨ (∃ w r, p = .spawned w r) ∨ (∃ w c, p = .using w c) ∨
    (∃ w, p = .failed w) ∨ (∃ w, p = .wantW w) ∨ (∃ w, p = .holdW w) ∨ p = .close1 ∨ p = .close2 ∨ p = .close3) :
    ¬ Reconnecting p := by
  rw [reconnecting_iff]
  rcases h with rfl | rfl | rfl | rfl | ⟨_, rfl⟩ | ⟨_, rfl⟩ | ⟨_, rfl⟩ | ⟨_, _, rfl⟩ | ⟨_, _, rfl⟩ | ⟨_, rfl⟩ | ⟨_, rfl⟩ | ⟨_, rfl⟩ | rfl | rfl | rfl <;>
    simp [PC.holdsP]

/-- A step makes a task a reconnection task only by spawning it, and that needs: no connection stored, no
reconnection task alive. -/
theorem becomes {t : Nat} (hi : s.Inv) (h : Step s es s') (h1 : Reconnecting (s'.pc t)) :
    Reconnecting (s.pc t) ∨ (s.conn = none ∧ s.closed = false ∧ t = s.n ∧ ∀ u, ¬ Reconnecting (s.pc u)) := by
  by_cases hc : s'.pc t = s.pc t
  · left; rw [← hc]; exact h1
  have hmove : ∀ {u : Nat} {p : PC}, s'.pc = upd s.pc u p → t = u ∧ s'.pc t = p := by
    intro u p hp
    by_cases e : t = u
    · exact ⟨e, by rw [hp, e, upd_self]⟩
    · rw [hp, upd_ne _ _ e] at hc; exact absurd rfl hc
  have hgive : ∀ {u : Nat} {w : Work}, s'.pc = (s.giveUp u w).1.pc → False := by
    intro u w hp
    rcases giveUp_pc s u w with h2 | h2 <;> rw [h2] at hp <;> obtain ⟨rfl, h3⟩ := hmove hp <;> rw [h3] at h1
    · simp [Reconnecting] at h1
    · simp [Reconnecting] at h1
  cases h with
  | spawn u w h hn ho hp =>
    right
    refine ⟨hn, ho, ?_, ?_⟩
    · by_cases e : t = s.n
      · exact e
      · exfalso
        simp only [upd_ne _ _ e] at h1 hc
        by_cases e2 : t = u
        · subst e2; rw [upd_self] at h1; simp [Reconnecting] at h1
        · rw [upd_ne _ _ e2] at hc; exact hc rfl
    · intro v hv
      rw [reconnecting_iff] at hv
      rcases hv with ⟨hv, -⟩ | hv
      · rw [hi.free rfl hp v] at hv; cases hv
      · have := hi.wr v u (by rw [hv]; rfl)
        rw [h] at this; cases this
  | noRead u w _ _ _ _ _ => exact (hgive rfl).elim
  | noSpawn u w _ _ _ => exact (hgive rfl).elim
  | store u w r _ => exact (hgive rfl).elim
  | call op => obtain ⟨-, h3⟩ := hmove (u := s.n) rfl; rw [h3] at h1; simp [Reconnecting] at h1
  | rFail u h => obtain ⟨rfl, -⟩ := hmove (u := u) rfl; left; rcases h with h | h | h <;> simp [Reconnecting, h]
  | rAbort u h ha => obtain ⟨-, h3⟩ := hmove (u := u) rfl; rw [h3] at h1; simp [Reconnecting] at h1
  | cancel u op h => obtain ⟨-, h3⟩ := hmove (u := u) rfl; rw [h3] at h1; simp [Reconnecting] at h1
  | rLock u h _ _ => obtain ⟨rfl, -⟩ := hmove (u := u) rfl; left; simp [Reconnecting, h]
  | rClosed u h _ => obtain ⟨rfl, -⟩ := hmove (u := u) rfl; left; simp [Reconnecting, h]
  | rConnect u h _ => obtain ⟨rfl, -⟩ := hmove (u := u) rfl; left; simp [Reconnecting, h]
  | rMarshal u h => obtain ⟨rfl, -⟩ := hmove (u := u) rfl; left; simp [Reconnecting, h]
  | rSubs u h _ => obtain ⟨rfl, -⟩ := hmove (u := u) rfl; left; simp [Reconnecting, h]
  | rAuthOk u h => obtain ⟨rfl, -⟩ := hmove (u := u) rfl; left; simp [Reconnecting, h]
  | rSet u c h => obtain ⟨rfl, -⟩ := hmove (u := u) rfl; left; simp [Reconnecting, h]
  | rPermit u h => obtain ⟨rfl, -⟩ := hmove (u := u) rfl; left; simp [Reconnecting, h]
  | rWake u h => obtain ⟨rfl, -⟩ := hmove (u := u) rfl; left; simp [Reconnecting, h]
  | rDone u h => obtain ⟨-, h3⟩ := hmove (u := u) rfl; rw [h3] at h1; simp [Reconnecting] at h1
  | sendNew u m h => obtain ⟨-, h3⟩ := hmove (u := u) rfl; rw [h3] at h1; simp [Reconnecting] at h1
  | recvNew u h => obtain ⟨-, h3⟩ := hmove (u := u) rfl; rw [h3] at h1; simp [Reconnecting] at h1
  | softNew u h => obtain ⟨-, h3⟩ := hmove (u := u) rfl; rw [h3] at h1; simp [Reconnecting] at h1
  | ensureNew u h _ => obtain ⟨-, h3⟩ := hmove (u := u) rfl; rw [h3] at h1; simp [Reconnecting] at h1
  | ensureErr u h _ => obtain ⟨-, h3⟩ := hmove (u := u) rfl; rw [h3] at h1; simp [Reconnecting] at h1
  | lockSubs u a ts h _ _ => obtain ⟨-, h3⟩ := hmove (u := u) rfl; rw [h3] at h1; simp [Reconnecting] at h1
  | read u w h _ => obtain ⟨-, h3⟩ := hmove (u := u) rfl; rw [h3] at h1; simp [Reconnecting] at h1
  | found u w h c _ _ => obtain ⟨-, h3⟩ := hmove (u := u) rfl; rw [h3] at h1; simp [Reconnecting] at h1
  | foundEnsure u h c _ => obtain ⟨-, h3⟩ := hmove (u := u) rfl; rw [h3] at h1; simp [Reconnecting] at h1
  | useOk u w c h => obtain ⟨-, h3⟩ := hmove (u := u) rfl; rw [h3] at h1; simp [Reconnecting] at h1
  | useErr u w c h => obtain ⟨-, h3⟩ := hmove (u := u) rfl; rw [h3] at h1; simp [Reconnecting] at h1
  | failBusy u w h _ => obtain ⟨-, h3⟩ := hmove (u := u) rfl; rw [h3] at h1; simp [Reconnecting] at h1
  | failFree u w h _ => obtain ⟨-, h3⟩ := hmove (u := u) rfl; rw [h3] at h1; simp [Reconnecting] at h1
  | lockW u w h _ _ => obtain ⟨-, h3⟩ := hmove (u := u) rfl; rw [h3] at h1; simp [Reconnecting] at h1
  | take u w h => obtain ⟨-, h3⟩ := hmove (u := u) rfl; rw [h3] at h1; simp [Reconnecting] at h1
  | ensureAcq u h _ _ => obtain ⟨-, h3⟩ := hmove (u := u) rfl; rw [h3] at h1; simp [Reconnecting] at h1
  | ensureRel u h => obtain ⟨-, h3⟩ := hmove (u := u) rfl; rw [h3] at h1; simp [Reconnecting] at h1
  | ensureShut u h _ => obtain ⟨-, h3⟩ := hmove (u := u) rfl; rw [h3] at h1; simp [Reconnecting] at h1
  | closeGuard u h => obtain ⟨-, h3⟩ := hmove (u := u) rfl; rw [h3] at h1; simp [Reconnecting] at h1
  | closeAbort u h => obtain ⟨-, h3⟩ := hmove (u := u) rfl; rw [h3] at h1; simp [Reconnecting] at h1
  | closeLock u h _ _ => obtain ⟨-, h3⟩ := hmove (u := u) rfl; rw [h3] at h1; simp [Reconnecting] at h1
  | closeTake u h => obtain ⟨-, h3⟩ := hmove (u := u) rfl; rw [h3] at h1; simp [Reconnecting] at h1

/-- At every moment at most one reconnection task is alive. -/
theorem C47_one_reconnection (topics : List Topic) (h : Run (St.new topics) es s) (t u : Nat)
    (ht : Reconnecting (s.pc t)) (hu : Reconnecting (s.pc u)) : t = u := by
  induction h with
  | nil => simp [St.new, Reconnecting] at ht
  | snoc es1 s1 es2 s2 h1 hs ih =>
    have hi := reach_inv h1
    rcases becomes hi hs ht with h2 | ⟨-, -, rfl, h2⟩
    · rcases becomes hi hs hu with h3 | ⟨-, -, rfl, h3⟩
      · exact ih h2 h3
      · exact absurd h2 (h3 t)
    · rcases becomes hi hs hu with h3 | ⟨-, -, rfl, h3⟩
      · exact absurd h3 (h2 u)
      · rfl

/-- A reconnection task is started only while no connection is stored, no other reconnection task is alive
and the client is not closed. -/
theorem C47_started_only_without_connection (topics : List Topic) {es' : List Ev}
    (h : Run (St.new topics) es s) (hs : Step s es' s') (t : Nat) (h0 : ¬ Reconnecting (s.pc t))
    (h1 : Reconnecting (s'.pc t)) : s.conn = none ∧ s.closed = false ∧ ∀ u, ¬ Reconnecting (s.pc u) := by
  rcases becomes (reach_inv h) hs h1 with h2 | ⟨h2, h3, -, h4⟩
  · exact absurd h2 h0
  · exact ⟨h2, h3, h4⟩

/-- Which steps change the stored connection. -/
theorem conn_step {es' : List Ev} (hs : Step s es' s') : s'.conn = s.conn ∨ s'.conn = none ∨
    ∃ t c, s.pc t = .rGot c ∧ s'.conn = some c := by
  have hg : ∀ t w, (s.giveUp t w).1.conn = s.conn := by
    intro t w; cases w <;> rfl
  cases hs <;> first
    | exact Or.inl rfl
    | exact Or.inl (hg _ _)
    | exact Or.inr (Or.inl rfl)
    | (rename_i t c h; exact Or.inr (Or.inr ⟨t, c, h, rfl⟩))

/-- A stored connection is never replaced by another one: it is first dropped. -/
theorem C47_never_replaced (topics : List Topic) {es' : List Ev} (h : Run (St.new topics) es s)
    (hs : Step s es' s') (c c' : Nat) (hc : s.conn = some c) (hc' : s'.conn = some c') : c' = c := by
  rcases conn_step hs with h1 | h1 | ⟨t, c1, h1, h2⟩
  · rw [h1, hc] at hc'; exact (Option.some.inj hc').symm
  · rw [h1] at hc'; cases hc'
  · have := (reach_inv h).none t (by rw [h1]; rfl)
    rw [hc] at this; cases this

/-! ## C45 -/

/-- A reconnection task that passed the check for a closed client. -/
def late : PC → Bool
  | .rConnecting | .rWantSubs | .rAuth | .rGot _ | .rSet | .rPermit => true
  | _ => false

/-- Points of calls made on a client that is closed. -/
def fresh : PC → Bool
  | .idle | .done | .new _ | .close1 | .close2 | .close3 => true
  | .ready w | .reading w => decide (w ≠ .ensure)
  | _ => false

theorem closing_closed (topics : List Topic) (h : Run (St.new topics) es s) (t : Nat)
    (ht : s.pc t = .close1 ∨ s.pc t = .close2 ∨ s.pc t = .close3) : s.closed = true := by
  induction h with
  | nil => simp [St.new] at ht
  | snoc es1 s1 es2 s2 h1 hs ih =>
    have hm : s1.closed = true → s2.closed = true := by
      intro h3; rcases closed_step hs with h4 | h4
      · rw [h4, h3]
      · exact h4.1
    rcases pc_step (reach_inv h1) hs t with h2 | h2
    · rw [h2] at ht; exact hm (ih ht)
    · generalize s1.pc t = p at h2 ih
      generalize s2.pc t = q at h2 ht
      cases h2 <;> simp_all

theorem late_step (hi : s.Inv) (hs : Step s es s') (hc : s.closed = true) (hn : s.conn = none)
    (hl : ∀ t, late (s.pc t) = false) : s'.closed = true ∧ s'.conn = none ∧ ∀ t, late (s'.pc t) = false := by
  refine ⟨?_, ?_, fun t => ?_⟩
  · rcases closed_step hs with h | h
    · rw [h, hc]
    · exact h.1
  · rcases conn_step hs with h | h | ⟨t, c, h, -⟩
    · rw [h, hn]
    · exact h
    · have := hl t; rw [h] at this; cases this
  · have h0 := hl t
    rcases pc_step hi hs t with h | h
    · rw [h, h0]
    · generalize s.pc t = p at h h0
      generalize s'.pc t = q at h ⊢
      cases h <;> simp_all [late]

theorem closed_run (topics : List Topic) (h : Run (St.new topics) es s) (t : Nat)
    (ht : Ev.returned t .close true ∈ es) : s.closed = true ∧ s.conn = none ∧ ∀ u, late (s.pc u) = false := by
  induction h with
  | nil => cases ht
  | snoc es1 s1 es2 s2 h1 hs ih =>
    have hi := reach_inv h1
    rcases List.mem_append.1 ht with h2 | h2
    · exact late_step hi hs (ih h2).1 (ih h2).2.1 (ih h2).2.2
    · have h3 : s1.pc t = .close3 ∧ s2.conn = none := by
        rcases ok_step hs h2 with ⟨w, c, -, h3, -⟩ | ⟨h3, -⟩ | ⟨-, h3⟩
        · cases w <;> simp [Work.op] at h3
        · cases h3
        · exact h3
      obtain ⟨h3, hn⟩ := h3
      have hcl := closing_closed topics h1 t (Or.inr (Or.inr h3))
      have hw : ∀ u, late (s1.pc u) = false := by
        intro u
        cases hu : late (s1.pc u) with
        | false => rfl
        | true =>
          have hu' : (s1.pc u).holdsW = true := by
            generalize s1.pc u = p at hu
            cases p <;> simp_all [late, PC.holdsW]
          have := hi.uW u t hu' (by rw [h3]; rfl)
          rw [this, h3] at hu
          cases hu
      refine ⟨?_, hn, fun u => ?_⟩
      · rcases closed_step hs with h | h
        · rw [h, hcl]
        · exact h.1
      · have h0 := hw u
        rcases pc_step hi hs u with h | h
        · rw [h, h0]
        · generalize s1.pc u = p at h h0
          generalize s2.pc u = q at h ⊢
          cases h <;> simp_all [late]

theorem fresh_step (hi : s.Inv) (hs : Step s es s') (hc : s.closed = true) (hn : s.conn = none) (m : Nat)
    (hf : ∀ t, m ≤ t → fresh (s.pc t) = true) : ∀ t, m ≤ t → fresh (s'.pc t) = true := by
  intro t ht
  have h0 := hf t ht
  rcases pc_step hi hs t with h | h
  · rw [h, h0]
  · generalize s.pc t = p at h h0
    generalize s'.pc t = q at h ⊢
    cases h <;> simp_all [fresh]

/-- Once a call of `close` has returned, for ever after: the client is closed and holds no connection, it
never again starts connecting, authenticates or obtains a connection, and every call made from then on,
other than of `close` itself, never returns `Ok`. -/
theorem C45_stays_closed_partial (topics : List Topic) {es1 es2 : List Ev} {s1 s2 : St}
    (h1 : Run (St.new topics) es1 s1) (hret : ∃ t, Ev.returned t .close true ∈ es1) (h2 : Run s1 es2 s2) :
    s2.closed = true ∧ s2.conn = none ∧
    (∀ t, Ev.connecting t ∉ es2 ∧ (∀ ts, Ev.authWith t ts ∉ es2) ∧ ∀ c, Ev.connected t c ∉ es2) ∧
    ∀ t op op', Ev.called t op ∈ es2 → Ev.returned t op' true ∈ es2 → op' = .close := by
  obtain ⟨t0, ht0⟩ := hret
  have h0 := closed_run topics h1 t0 ht0
  have key : (s2.closed = true ∧ s2.conn = none ∧ (∀ t, late (s2.pc t) = false)) ∧ s1.n ≤ s2.n ∧
      (∀ t, s1.n ≤ t → fresh (s2.pc t) = true) ∧
      (∀ t, Ev.connecting t ∉ es2 ∧ (∀ ts, Ev.authWith t ts ∉ es2) ∧ ∀ c, Ev.connected t c ∉ es2) ∧
      (∀ t op, Ev.called t op ∈ es2 → s1.n ≤ t) ∧
      ∀ t op, Ev.returned t op true ∈ es2 → s1.n ≤ t → op = .close := by
    induction h2 with
    | nil =>
      refine ⟨h0, Nat.le_refl _, fun t ht => ?_, by simp, by simp, by simp⟩
      rw [(reach_inv h1).idle t ht]; rfl
    | snoc e1 s3 e2 s4 hr hs ih =>
      obtain ⟨⟨i1, i2, i3⟩, i4, i5, i6, i7, i8⟩ := ih
      have hi := reach_inv (h1.trans hr)
      refine ⟨late_step hi hs i1 i2 i3, Nat.le_trans i4 (n_step hs), fresh_step hi hs i1 i2 s1.n i5, ?_, ?_, ?_⟩
      · intro t
        obtain ⟨a1, a2, a3⟩ := attempt_step hs (t := t)
        refine ⟨fun h => ?_, fun ts h => ?_, fun c h => ?_⟩ <;> rcases List.mem_append.1 h with h | h
        · exact (i6 t).1 h
        · have := (a1 h).2; rw [i1] at this; cases this
        · exact (i6 t).2.1 ts h
        · have := i3 t; rw [(a2 ts h).1] at this; cases this
        · exact (i6 t).2.2 c h
        · have := i3 t; rw [(a3 c h).1] at this; cases this
      · intro t op h
        rcases List.mem_append.1 h with h | h
        · exact i7 t op h
        · rw [(called_step hs h).1]; exact i4
      · intro t op h ht
        rcases List.mem_append.1 h with h | h
        · exact i8 t op h ht
        · have hf := i5 t ht
          rcases ok_step hs h with ⟨w, c, h3, -⟩ | ⟨-, h3⟩ | ⟨h3, -⟩
          · rw [h3] at hf; cases hf
          · rcases h3 with h3 | ⟨h3, -⟩ | ⟨-, h3⟩
            · rw [h3] at hf; cases hf
            · rw [h3] at hf; cases hf
            · exact absurd i2 h3
          · exact h3
  exact ⟨key.1.1, key.1.2.1, key.2.2.2.1, fun t op op' ha hb => key.2.2.2.2.2 t op' hb (key.2.2.2.2.1 t op ha)⟩

/-- Chaining steps in the witnesses below. -/
theorem _root_.Verif.Client.Run.then {s s1 s2 : St} {es es' : List Ev} (h : Run s es s1) (hs : Step s1 es' s2) :
    Run s (es ++ es') s2 := .snoc _ _ _ _ h hs

/-- States in which a reconnection task `r`, not aborted, loops on a closed client with the connection locked,
and the call of task `u` waits for that lock. -/
structure Stuck (s : St) (r u : Nat) : Prop where
  closed : s.closed = true
  loops : s.pc r = .rLoop ∨ s.pc r = .rSleep
  live : s.aborted r = false
  noClose : ∀ t, s.pc t ≠ .new .close ∧ s.pc t ≠ .close1
  waits : s.pc u = .new .recv ∨ s.pc u = .ready .recv ∨ s.pc u = .done

theorem stuck_step {r u : Nat} (hi : s.Inv) (hs : Step s es s') (hq : Stuck s r u)
    (hc : ∀ t, Ev.called t .close ∉ es) : Stuck s' r u ∧ ∀ op ok, Ev.returned u op ok ∉ es := by
  have hW : (s.pc r).holdsW = true := by rcases hq.loops with h | h <;> rw [h] <;> rfl
  have hr : r < s.n := hi.lt (by intro e; rw [e] at hW; cases hW)
  refine ⟨⟨?_, ?_, ?_, ?_, ?_⟩, ?_⟩
  · rcases closed_step hs with h | h
    · rw [h, hq.closed]
    · exact h.1
  · rcases pc_step hi hs r with h | h
    · rw [h]; exact hq.loops
    · have hl := hq.live
      have hcl := hq.closed
      have h0 := hq.loops
      generalize s.pc r = p at h h0
      generalize s'.pc r = q at h ⊢
      cases h <;> simp_all [PC.abortable, PC.awaits] <;> first | done | (rcases h0 with rfl | rfl <;> simp [PC.awaits] at *)
  · have hg : ∀ {v : Nat} {w : Work}, (s.giveUp v w).1.aborted = s.aborted := by
      intro v w; cases w <;> rfl
    cases hs with
    | store t w r' h =>
      have := hi.wr r t hW
      rw [h] at this; cases this
    | closeAbort t h => exact absurd h (hq.noClose t).2
    | noRead t w => rw [hg]; exact hq.live
    | noSpawn t w => rw [hg]; exact hq.live
    | _ => exact hq.live
  · intro t
    have h0 := hq.noClose t
    rcases pc_step hi hs t with h | h
    · rw [h]; exact h0
    · have hct := hc t
      generalize s.pc t = p at h h0
      generalize s'.pc t = q at h ⊢
      cases h <;> simp_all
      rintro rfl; exact hc _ ‹_›
  · rcases pc_step hi hs u with h | h
    · rw [h]; exact hq.waits
    · have h0 := hq.waits
      generalize s.pc u = p at h h0
      generalize s'.pc u = q at h ⊢
      cases h <;> simp_all
  · intro op ok h
    have := (ret_step hs h).1
    rcases hq.waits with h | h | h <;> rw [h] at this <;> simp [PC.returns] at this

theorem stuck_run {s0 : St} {r u : Nat} (hi : s0.Inv) (hq : Stuck s0 r u) (h : Run s0 es s)
    (hc : ∀ t, Ev.called t .close ∉ es) : Stuck s r u ∧ ∀ op ok, Ev.returned u op ok ∉ es := by
  induction h with
  | nil => exact ⟨hq, by simp⟩
  | snoc e1 s1 e2 s2 h1 hs ih =>
    obtain ⟨i1, i2⟩ := ih fun t h => hc t (List.mem_append_left _ h)
    obtain ⟨i3, i4⟩ := stuck_step (inv_run hi h1) hs i1 fun t h => hc t (List.mem_append_right _ h)
    refine ⟨i3, fun op ok h => ?_⟩
    rcases List.mem_append.1 h with h | h
    · exact i2 op ok h
    · exact i4 op ok h

theorem hang_of {r u : Nat} (h0 : Run (St.new []) es s) (h1 : s.closed = true) (h2 : s.pc r = .rLoop)
    (h3 : s.aborted r = false) (hn : ∀ t < s.n, s.pc t ≠ .new .close ∧ s.pc t ≠ .close1)
    (h4 : s.pc u = .new .recv) : ∀ es' s', Run s es' s' → (∀ t, Ev.called t .close ∉ es') →
      (∀ op ok, Ev.returned u op ok ∉ es') ∧ (s'.pc u = .new .recv ∨ s'.pc u = .ready .recv ∨ s'.pc u = .done) ∧
      (s'.pc r = .rLoop ∨ s'.pc r = .rSleep) := by
  intro es' s' h hc
  have hi := reach_inv h0
  have hq : Stuck s r u := ⟨h1, Or.inl h2, h3, fun t => (by
    rcases Nat.lt_or_ge t s.n with ht | ht
    · exact hn t ht
    · rw [hi.idle t ht]; exact ⟨PC.noConfusion, PC.noConfusion⟩), Or.inl h4⟩
  obtain ⟨h5, h6⟩ := stuck_run hi hq h hc
  exact ⟨h6, h5.waits, h5.loops⟩

/-- C45 is false as stated: "every later operation fails". There is a run in which `close` returns, after
which a call of `receive_message` is made (the last event) that never returns, whatever happens, unless
`close` is called again: a reconnection task spawned by a call concurrent with `close` had not been recorded
when `close` looked for it, so it is not aborted, and loops with the connection locked. -/
theorem C45_false : ∃ es s u r, Run (St.new []) (es ++ [Ev.called u .recv]) s ∧
    (∃ t, Ev.returned t .close true ∈ es) ∧
    ∀ es' s', Run s es' s' → (∀ t, Ev.called t .close ∉ es') →
      (∀ op ok, Ev.returned u op ok ∉ es') ∧ (s'.pc u = .new .recv ∨ s'.pc u = .ready .recv ∨ s'.pc u = .done) ∧
      (s'.pc r = .rLoop ∨ s'.pc r = .rSleep) := by
  have r0 := ((((((((Run.nil (s := St.new [])).then (.call (.send (.subscribe [])))).then
    (.sendNew 0 (.subscribe []) rfl)).then (.read 0 (.send (.subscribe [])) rfl (by decide))).then
    (.spawn 0 (.send (.subscribe [])) rfl rfl rfl (by decide))).then (.call .close)).then
    (.closeGuard 2 rfl)).then (.closeAbort 2 rfl))
  have r1 := ((((r0.then (.store 0 (.send (.subscribe [])) 1 rfl)).then (.closeLock 2 rfl (by decide) (by decide))).then
    (.closeTake 2 rfl)).then (.rLock 1 rfl (by decide) (by decide)))
  have r2 := r1.then (.call .recv)
  exact ⟨_, _, 3, 1, r2, ⟨2, by simp⟩, hang_of r2 rfl rfl rfl (by decide) rfl⟩

/-! ## C46 -/

/-- The topics the application has asked for, as far as its calls succeeded: the last successful call that
names `x` was a subscription, or no successful call named `x` in an unsubscription and it was given at
creation. -/
def Asked (init : List Topic) (es : List Ev) (x : Topic) : Prop :=
  (∃ pre t ts post, es = pre ++ Ev.returned t (.topics true ts) true :: post ∧ x ∈ ts ∧
    ∀ t' ts', x ∈ ts' → Ev.returned t' (.topics false ts') true ∉ post) ∨
  (x ∈ init ∧ ∀ t ts, x ∈ ts → Ev.returned t (.topics false ts) true ∉ es)

/-- Is this the successful return of a call of `subscribe` (`true`) or `unsubscribe` (`false`) naming `x`? -/
def naming (x : Topic) (add : Bool) : Ev → Bool
  | .returned _ (.topics a ts) true => a == add && decide (x ∈ ts)
  | _ => false

theorem asked_iff (init : List Topic) (es : List Ev) (x : Topic) : Asked init es x ↔
    (∃ pre e post, es = pre ++ e :: post ∧ naming x true e = true ∧ ∀ e' ∈ post, naming x false e' = false) ∨
    (x ∈ init ∧ ∀ e ∈ es, naming x false e = false) := by
  have hn : ∀ (es : List Ev), (∀ e ∈ es, naming x false e = false) ↔
      ∀ t ts, x ∈ ts → Ev.returned t (.topics false ts) true ∉ es := by
    intro es
    constructor
    · intro h t ts hx hm
      have := h _ hm
      simp [naming, hx] at this
    · intro h e he
      cases hq : naming x false e with
      | false => rfl
      | true =>
        cases e with
        | returned t op ok =>
          cases ok <;> cases op <;> simp [naming] at hq
          obtain ⟨rfl, hx⟩ := hq
          exact absurd he (h _ _ hx)
        | _ => simp [naming] at hq
  unfold Asked
  simp only [hn]
  refine or_congr ⟨?_, ?_⟩ Iff.rfl
  · rintro ⟨pre, t, ts, post, h1, h2, h3⟩
    exact ⟨pre, _, post, h1, by simp [naming, h2], h3⟩
  · rintro ⟨pre, e, post, h1, h2, h3⟩
    cases e with
    | returned t op ok =>
      cases ok <;> cases op <;> simp [naming] at h2
      obtain ⟨rfl, hx⟩ := h2
      exact ⟨pre, t, _, post, h1, hx, h3⟩
    | _ => simp [naming] at h2

theorem asked_nil (init : List Topic) (x : Topic) : Asked init [] x ↔ x ∈ init := by
  rw [asked_iff]; simp

theorem asked_snoc (init : List Topic) (es : List Ev) (e : Ev) (x : Topic) :
    Asked init (es ++ [e]) x ↔ naming x true e = true ∨ (naming x false e = false ∧ Asked init es x) := by
  simp only [asked_iff]
  constructor
  · rintro (⟨pre, r, post, h1, h2, h3⟩ | ⟨h1, h2⟩)
    · rcases List.eq_nil_or_concat post with rfl | ⟨post', e', hp⟩
      · have := List.append_inj_right' h1 rfl
        simp only [List.cons.injEq, and_true] at this
        rw [this]; exact Or.inl h2
      · rw [List.concat_eq_append] at hp
        subst hp
        rw [show pre ++ r :: (post' ++ [e']) = (pre ++ r :: post') ++ [e'] by simp] at h1
        have h4 := List.append_inj_left' h1 rfl
        have h5 := List.append_inj_right' h1 rfl
        simp only [List.cons.injEq, and_true] at h5
        subst h5
        exact Or.inr ⟨h3 _ (by simp), Or.inl ⟨pre, r, post', h4, h2, fun e' he => h3 e' (by simp [he])⟩⟩
    · exact Or.inr ⟨h2 e (by simp), Or.inr ⟨h1, fun e' he => h2 e' (by simp [he])⟩⟩
  · rintro (h | ⟨h1, ⟨pre, r, post, rfl, h3, h4⟩ | ⟨h2, h3⟩⟩)
    · exact Or.inl ⟨es, e, [], rfl, h, by simp⟩
    · refine Or.inl ⟨pre, r, post ++ [e], by simp, h3, fun e' he => ?_⟩
      rcases List.mem_append.1 he with he | he
      · exact h4 e' he
      · simp only [List.mem_singleton] at he; subst he; exact h1
    · refine Or.inr ⟨h2, fun e' he => ?_⟩
      rcases List.mem_append.1 he with he | he
      · exact h3 e' he
      · simp only [List.mem_singleton] at he; subst he; exact h1

theorem asked_quiet (init : List Topic) (es es' : List Ev) (x : Topic)
    (h : ∀ t add ts, Ev.returned t (.topics add ts) true ∉ es') :
    Asked init (es ++ es') x ↔ Asked init es x := by
  induction es' generalizing es with
  | nil => simp
  | cons e es' ih =>
    rw [show es ++ e :: es' = (es ++ [e]) ++ es' by simp, ih _ fun t a ts hm => h t a ts (List.mem_cons_of_mem _ hm), asked_snoc]
    have hn : ∀ a, naming x a e = false := by
      intro a
      cases e with
      | returned t op ok =>
        cases ok <;> cases op <;> simp [naming]
        exact absurd List.mem_cons_self (h _ _ _)
      | _ => rfl
    simp [hn]

/-- What a task between obtaining the topics' lock and giving it back is doing. -/
def work : PC → Option Work
  | .ready w | .reading w | .spawned w _ | .using w _ | .failed w | .wantW w | .holdW w => some w
  | _ => none

theorem work_holdsS {q : PC} {a : Bool} {ts todo : List Topic} (h : work q = some (.topics a ts todo)) :
    q.holdsS = true := by
  cases q <;> simp [work] at h <;> subst h <;> rfl

theorem move_holdsS {u : Nat} {p q : PC} (h : Move s es s' u p q) (hp : p.holdsS = false) (hq : q.holdsS = true) :
    ∀ t, (s.pc t).holdsS = false := by
  cases h with
  | lockSubs a l hw' => exact hw'
  | _ => first
    | (simp [PC.holdsS] at hq; done)
    | (simp [PC.holdsS, Work.subs] at hq; done)
    | (simp only [PC.holdsS] at hp hq; rw [hp] at hq; cases hq)

theorem subs_step (hs : Step s es s') : (s'.subs = s.subs ∧ ∀ t add ts, Ev.returned t (.topics add ts) true ∉ es) ∨
    ∃ t add ts todo c, s.pc t = .using (.topics add ts todo) c ∧
      s'.subs = (Work.topics add ts todo).record s.subs ∧
      es = (Work.topics add ts todo).message.map (.sent c) ++ [.returned t (.topics add ts) true] := by
  by_cases h : ∃ t add ts, Ev.returned t (.topics add ts) true ∈ es
  · right
    obtain ⟨t, add, ts, h⟩ := h
    rcases ok_step hs h with ⟨w, c, h1, h2, h3, h4⟩ | ⟨h1, -⟩ | ⟨h1, -⟩
    · cases w <;> simp only [Work.op, reduceCtorEq, Op.topics.injEq] at h2
      obtain ⟨rfl, rfl⟩ := h2
      exact ⟨t, _, _, _, c, h1, h3, h4⟩
    · cases h1
    · cases h1
  · left
    refine ⟨?_, fun t add ts hm => h ⟨t, add, ts, hm⟩⟩
    have hg : ∀ {v : Nat} {w : Work}, (s.giveUp v w).1.subs = s.subs := by
      intro v w; cases w <;> rfl
    cases hs with
    | noRead => exact hg
    | noSpawn => exact hg
    | store => exact hg
    | useOk t w c h1 =>
      cases w with
      | topics add ts todo => exact absurd ⟨t, add, ts, by simp [Work.op]⟩ h
      | _ => rfl
    | _ => rfl

/-- The recorded subscriptions are what the application asked for, and a subscription call in progress sends
the topics that change them. -/
theorem subs_asked (init : List Topic) (h : Run (St.new init) es s) :
    (∀ x, x ∈ s.subs ↔ Asked init es x) ∧
    ∀ t add ts todo, work (s.pc t) = some (.topics add ts todo) →
      todo = ts.filter fun x => decide (x ∈ s.subs) != add := by
  induction h with
  | nil => exact ⟨fun x => by simp [asked_nil, St.new], by simp [St.new, work]⟩
  | snoc es1 s1 es2 s2 h1 hs ih =>
    obtain ⟨i1, i2⟩ := ih
    have hi := reach_inv h1
    rcases subs_step hs with ⟨h2, h3⟩ | ⟨t, add, ts, todo, c, h2, h3, h4⟩
    · refine ⟨fun x => by rw [h2, asked_quiet _ _ _ _ h3]; exact i1 x, fun t add ts todo hw => ?_⟩
      rw [h2]
      have i3 := i2 t add ts todo
      rcases pc_step hi hs t with h | h
      · rw [h] at hw; exact i3 hw
      · generalize s1.pc t = p at h i3
        generalize s2.pc t = q at h hw
        cases h with
        | lockSubs a l =>
          simp only [work, Option.some.injEq, Work.topics.injEq] at hw
          obtain ⟨rfl, rfl, rfl⟩ := hw
          rfl
        | _ => first | exact i3 hw | (simp [work] at hw; done)
    · have htodo := i2 t add ts todo (by rw [h2]; rfl)
      refine ⟨fun x => ?_, fun u a' ts' todo' hw => ?_⟩
      · rw [h4, ← List.append_assoc, asked_snoc, asked_quiet _ _ _ _ (by simp), ← i1 x, h3, htodo]
        cases add <;> simp only [Work.record, naming, FSet.mem_insertMany, FSet.mem_eraseMany, List.mem_filter]
        · simp; grind
        · simp; grind
      · exfalso
        have hS : (s1.pc t).holdsS = true := by rw [h2]; rfl
        have hU : (s2.pc u).holdsS = true := work_holdsS hw
        have ht : s2.pc t = .done := (ret_step (op := .topics add ts) (ok := true) hs (by rw [h4]; simp)).2
        rcases pc_step hi hs u with h | h
        · rw [h] at hU
          have := hi.uS u t hU hS
          subst this
          rw [ht] at h; rw [← h] at hS; cases hS
        · have hne : u ≠ t := by rintro rfl; rw [ht] at hU; cases hU
          have hu : (s1.pc u).holdsS = false := by
            cases hq : (s1.pc u).holdsS with
            | false => rfl
            | true => exact absurd (hi.uS u t hq hS) hne
          rw [move_holdsS h hu hU t] at hS; cases hS

/-- Whenever a (re)connection authenticates with a broker, it does so with exactly the topics the application
asked for up to that moment: those given at creation, plus those of successful subscriptions, minus those of
successful unsubscriptions, later calls prevailing. -/
theorem C46_auth_topics (init : List Topic) (h : Run (St.new init) es s) {pre post : List Ev} {t : Nat}
    {ts : FSet Topic} (he : es = pre ++ Ev.authWith t ts :: post) (x : Topic) : x ∈ ts ↔ Asked init pre x := by
  induction h generalizing post with
  | nil => simp at he
  | snoc es1 s1 es2 s2 h1 hs ih =>
    by_cases hm : Ev.authWith t ts ∈ es2 ∧ pre = es1
    · obtain ⟨-, rfl, -⟩ := (attempt_step hs (t := t)).2.1 ts hm.1
      rw [hm.2]; exact (subs_asked init h1).1 x
    · rcases List.append_eq_append_iff.1 he with ⟨l, h2, h3⟩ | ⟨l, h2, h3⟩
      · have h4 := (attempt_step hs (t := t)).2.1 ts (by rw [h3]; simp)
        obtain ⟨-, rfl, h5⟩ := h4
        rw [h5] at h3
        cases l with
        | nil => exact absurd ⟨by rw [h5]; simp, by simpa using h2⟩ hm
        | cons a l => simp at h3
      · cases l with
        | nil =>
          simp only [List.nil_append] at h3
          exact absurd ⟨by rw [← h3]; simp, by simpa using h2.symm⟩ hm
        | cons a l =>
          simp only [List.cons_append, List.cons.injEq] at h3
          obtain ⟨rfl, h3⟩ := h3
          exact ih h2

/-- Between authenticating with a broker and obtaining the connection no subscription changes: the topics
the broker was told are still those asked for when the connection is established. -/
theorem C46_unchanged_until_connected (init : List Topic) (h : Run (St.new init) es s) {pre post : List Ev} {t c : Nat}
    (he : es = pre ++ Ev.connected t c :: post) :
    ∃ pre' ts mid, pre = pre' ++ Ev.authWith t ts :: mid ∧
      (∀ u add us, Ev.returned u (.topics add us) true ∉ mid) ∧
      ∀ x, x ∈ ts ↔ Asked init pre x := by
  have key : ∀ {es s}, Run (St.new init) es s → s.pc t = .rAuth → ∃ pre' ts mid,
      es = pre' ++ Ev.authWith t ts :: mid ∧ ∀ u add us, Ev.returned u (.topics add us) true ∉ mid := by
    intro es s h hp
    induction h with
    | nil => simp [St.new] at hp
    | snoc es1 s1 es2 s2 h1 hs ih =>
      have hi := reach_inv h1
      rcases pc_step hi hs t with h2 | h2
      · rw [h2] at hp
        obtain ⟨pre', ts, mid, h3, h4⟩ := ih hp
        refine ⟨pre', ts, mid ++ es2, by rw [h3]; simp, fun u add us hm => ?_⟩
        rcases List.mem_append.1 hm with hm | hm
        · exact h4 u add us hm
        · rcases ok_step hs hm with ⟨w, c, h5, h6, -⟩ | ⟨h5, -⟩ | ⟨h5, -⟩
          · have h7 : (s1.pc u).holdsS = true := by
              rw [h5]; cases w <;> simp [Work.op] at h6; rfl
            have := hi.sa u t h7
            rw [hp] at this; cases this
          · cases h5
          · cases h5
      · have h3 : s1.pc t = .rWantSubs ∧ Ev.authWith t s1.subs ∈ es2 := by
          rw [hp] at h2
          generalize hq : s1.pc t = q at h2
          cases h2
          exact ⟨rfl, ‹_›⟩
        obtain ⟨-, -, h4⟩ := (attempt_step hs (t := t)).2.1 _ h3.2
        exact ⟨es1, s1.subs, [], by rw [h4], by simp⟩
  induction h generalizing post with
  | nil => simp at he
  | snoc es1 s1 es2 s2 h1 hs ih =>
    have fin : Ev.connected t c ∈ es2 → pre = es1 → ∃ pre' ts mid, pre = pre' ++ Ev.authWith t ts :: mid ∧
      (∀ u add us, Ev.returned u (.topics add us) true ∉ mid) ∧ ∀ x, x ∈ ts ↔ Asked init pre x := by
      rintro hm rfl
      obtain ⟨h2, -⟩ := (attempt_step hs (t := t)).2.2 c hm
      obtain ⟨pre', ts, mid, rfl, h4⟩ := key h1 h2
      refine ⟨pre', ts, mid, rfl, h4, fun x => ?_⟩
      rw [C46_auth_topics init h1 rfl x, asked_quiet]
      intro u add us hm
      rcases List.mem_cons.1 hm with hm | hm
      · cases hm
      · exact h4 u add us hm
    rcases List.append_eq_append_iff.1 he with ⟨l, h2, h3⟩ | ⟨l, h2, h3⟩
    · have hm : Ev.connected t c ∈ es2 := by rw [h3]; simp
      have h5 := ((attempt_step hs (t := t)).2.2 c hm).2
      rw [h5] at h3
      cases l with
      | nil => exact fin hm (by simpa using h2)
      | cons a l => simp at h3
    · cases l with
      | nil =>
        simp only [List.nil_append] at h3
        exact fin (by rw [← h3]; simp) (by simpa using h2.symm)
      | cons a l =>
        simp only [List.cons_append, List.cons.injEq] at h3
        obtain ⟨rfl, h3⟩ := h3
        exact ih h2

/-! ## A run used by the witnesses: one connection is established -/

/-- After the first call (which fails, as there is no connection yet) the reconnection task established
connection 0. -/
def one (init : List Topic) : St :=
  ⟨fun t => if t < 2 then .done else .idle, 2, false, some 0, 1, FSet.ofList init, some 1, fun _ => false⟩

theorem run_one (init : List Topic) : Run (St.new init)
    [.called 0 (.send (.subscribe [])), .returned 0 (.send (.subscribe [])) false, .connecting 1,
      .authWith 1 (FSet.ofList init), .connected 1 0] (one init) := by
  have r := ((((((((((((((Run.nil (s := St.new init)).then (.call (.send (.subscribe [])))).then
    (.sendNew 0 (.subscribe []) rfl)).then (.read 0 (.send (.subscribe [])) rfl (fun t ht => by
      simp only [St.goto, St.new] at ht ⊢; rw [show t = 0 by omega]; rfl))).then
    (.spawn 0 (.send (.subscribe [])) rfl rfl rfl (fun t ht => by
      simp only [St.goto, St.new] at ht ⊢; rw [show t = 0 by omega]; rfl))).then
    (.store 0 (.send (.subscribe [])) 1 rfl)).then (.rLock 1 rfl (fun t ht => by
      simp only [St.giveUp, St.goto, St.new] at ht ⊢
      rcases (by omega : t = 0 ∨ t = 1) with rfl | rfl <;> rfl) (fun t ht => by
      simp only [St.giveUp, St.goto, St.new] at ht ⊢
      rcases (by omega : t = 0 ∨ t = 1) with rfl | rfl <;> rfl))).then (.rConnect 1 rfl rfl)).then (.rMarshal 1 rfl)).then
    (.rSubs 1 rfl (fun t ht => by
      simp only [St.giveUp, St.goto, St.new] at ht ⊢
      rcases (by omega : t = 0 ∨ t = 1) with rfl | rfl <;> rfl))).then (.rAuthOk 1 rfl)).then (.rSet 1 0 rfl)).then
    (.rPermit 1 rfl)).then (.rDone 1 rfl))
  have e : ∀ {es es' : List Ev} {s s' : St}, Run (St.new init) es s → es = es' → s = s' → Run (St.new init) es' s' := by
    rintro es es' s s' h rfl rfl; exact h
  refine e r (by simp [St.giveUp, St.goto, St.new, Work.op]) ?_
  simp only [one, St.goto, St.giveUp, St.new]
  congr 1
  funext t
  rcases (by omega : t = 0 ∨ t = 1 ∨ 2 ≤ t) with rfl | rfl | h
  · rfl
  · rfl
  · simp [upd, show ¬ t < 2 by omega, show t ≠ 0 by omega, show t ≠ 1 by omega]

end Verif.Props.Client

import Verif.Props.Client
import Mathlib.Logic.Relation

/-!
# C46 (example), C48, C51, C54, C59: more about the elastic client
-/

set_option linter.unusedSectionVars false

namespace Verif.Props.ClientLocks
open Verif Verif.Client Verif.Props.Client

variable {s s' : St} {es : List Ev}

/-- C46 at work: created with topic 3, subscribed to 5, connection lost; the reconnection authenticates with
both. -/
example : ∃ es s ts, Run (St.new [3]) es s ∧ Ev.returned 2 (.topics true [5]) true ∈ es ∧
    Ev.dropped 3 0 ∈ es ∧ Ev.authWith 5 ts ∈ es ∧ (3 : Topic) ∈ ts ∧ (5 : Topic) ∈ ts := by
  have r1 := ((((run_one [3]).then (.call (.topics true [5]))).then (.lockSubs 2 true [5] rfl (by decide) (by decide))).then
    (.read 2 (.topics true [5] [5]) rfl (by decide))).then (.found 2 (.topics true [5] [5]) rfl 0 rfl (by decide))
  have r2 := ((((((((r1.then (.useOk 2 (.topics true [5] [5]) 0 rfl)).then (.call .recv)).then (.recvNew 3 rfl)).then
    (.read 3 .recv rfl (by decide))).then (.found 3 .recv rfl 0 rfl (by decide))).then (.useErr 3 .recv 0 rfl)).then
    (.failFree 3 .recv rfl (by decide))).then (.lockW 3 .recv rfl (by decide) (by decide))).then (.take 3 .recv rfl)
  have r3 := (((((r2.then (.call .recv)).then (.recvNew 4 rfl)).then (.read 4 .recv rfl (by decide))).then
    (.spawn 4 .recv rfl rfl rfl (by decide))).then (.store 4 .recv 5 rfl)).then (.rLock 5 rfl (by decide) (by decide))
  have r4 := ((r3.then (.rConnect 5 rfl rfl)).then (.rMarshal 5 rfl)).then (.rSubs 5 rfl (by decide))
  exact ⟨_, _, _, r4, by simp [Work.op], by simp [one, St.goto], List.mem_append_right _ (List.mem_singleton.2 rfl), by decide, by decide⟩

theorem _root_.Verif.Client.Run.cast' {s0 s1 : St} {es es' : List Ev} (h : Run s0 es s1) (he : es = es') :
    Run s0 es' s1 := by subst he; exact h

/-- C47's subject exists: a reconnection task at work. -/
example : ∃ es s, Run (St.new []) es s ∧ Reconnecting (s.pc 1) ∧ s.pc 0 = .done := by
  have r := ((((((Run.nil (s := St.new [])).then (.call .recv)).then (.recvNew 0 rfl)).then
    (.read 0 .recv rfl (by decide))).then (.spawn 0 .recv rfl rfl rfl (by decide))).then (.store 0 .recv 1 rfl)).then
    (.rLock 1 rfl (by decide) (by decide))
  exact ⟨_, _, r, Or.inr (Or.inl rfl), rfl⟩

/-- `C45_stays_closed_partial` at work: a connected client is closed, then a receive is attempted and fails. -/
example : ∃ es s, Run (St.new []) (es ++ [.dropped 2 0, .returned 2 .close true, .called 3 .softClose,
    .returned 3 .softClose false]) s := by
  have r1 := (((((run_one []).then (.call .close)).then (.closeGuard 2 rfl)).then (.closeAbort 2 rfl)).then
    (.closeLock 2 rfl (by decide) (by decide))).then (.closeTake 2 rfl)
  have r2 := (((r1.then (.call .softClose)).then (.softNew 3 rfl)).then (.read 3 .softClose rfl (by decide))).then
    (.noSpawn 3 .softClose rfl rfl (Or.inl rfl))
  refine ⟨[.called 0 (.send (.subscribe [])), .returned 0 (.send (.subscribe [])) false, .connecting 1,
      .authWith 1 (FSet.ofList []), .connected 1 0, .called 2 .close], _, Verif.Client.Run.cast' r2 ?_⟩
  simp [one, St.goto, St.giveUp, Work.op]

/-! ## C48 -/

section C48
open Verif.Broker Verif.Conns Verif.Props.BrokerFrames
variable {B H σ : Type} [DecidableEq B] [DecidableEq H] [LT B] [DecidableLT B]

/-- A successful `subscribe` (`add = true`) or `unsubscribe` sends one message, with exactly the topics among
the given ones that change what the application asked for, in the order given. -/
theorem C48_what_is_sent_partial (init : List Topic) (h : Run (St.new init) es s) {es' : List Ev} (hs : Step s es' s')
    {t : Nat} {add : Bool} {ts : List Topic} (hr : Ev.returned t (.topics add ts) true ∈ es') :
    ∃ c todo, es' = [Ev.sent c (if add then .subscribe todo else .unsubscribe todo), .returned t (.topics add ts) true] ∧
      todo.Sublist ts ∧ ∀ x, x ∈ todo ↔ x ∈ ts ∧ ¬ (Asked init es x ↔ add = true) := by
  rcases ok_step hs hr with ⟨w, c, h1, h2, h3, h4⟩ | ⟨h1, -⟩ | ⟨h1, -⟩
  · cases w <;> simp only [Work.op, reduceCtorEq, Op.topics.injEq] at h2
    rename_i a l todo
    obtain ⟨rfl, rfl⟩ := h2
    obtain ⟨i1, i2⟩ := subs_asked init h
    have htodo := i2 t a l todo (by rw [h1]; rfl)
    refine ⟨c, todo, ?_, ?_, fun x => ?_⟩
    · rw [h4]; cases a <;> rfl
    · rw [htodo]; exact List.filter_sublist
    · rw [htodo, List.mem_filter, ← i1 x]
      cases a <;> simp
  · cases h1
  · cases h1

/-- C48 is false, for every client and every broker: subscribing only to topics that are already subscribed,
or unsubscribing only from topics that are not, sends a message without topics when it "succeeds", and a
broker receiving that message (with the hook that changes nothing) ends the connection. -/
theorem C48_false (init : List Topic) (h : Run (St.new init) es s) {es' : List Ev} (hs : Step s es' s')
    {t : Nat} {add : Bool} {ts : List Topic} (hr : Ev.returned t (.topics add ts) true ∈ es')
    (hno : ∀ x ∈ ts, (Asked init es x ↔ add = true)) :
    ∃ c m, Ev.sent c m ∈ es' ∧ ∀ (cfg : Cfg B σ) (tb : Table B H) (hk : σ) (u raw : Bytes) (sch : Sched B H),
      cfg.decode raw = some m → (∀ x, cfg.userHook hk x = (hk, x, .process)) →
      (userFrame cfg tb hk u raw sch).ok = false := by
  obtain ⟨c, todo, h1, -, h2⟩ := C48_what_is_sent_partial init h hs hr
  have h3 : todo = [] := List.eq_nil_iff_forall_not_mem.2 fun x hx => ((h2 x).1 hx).2 (hno x ((h2 x).1 hx).1)
  subst h3
  refine ⟨c, _, by rw [h1]; exact List.mem_cons_self, fun cfg tb hk u raw sch hd hh => ?_⟩
  cases add with
  | true =>
    have h4 := (C16_subscribe_frame cfg tb hk u raw sch _ hk [] hd (by rw [hh]; rfl)).1
    cases hq : (userFrame cfg tb hk u raw sch).ok with
    | false => rfl
    | true => obtain ⟨_, hx, _⟩ := h4.1 hq; cases hx
  | false =>
    have h4 := (C16_unsubscribe_frame cfg tb hk u raw sch _ hk [] hd (by rw [hh]; rfl)).1
    cases hq : (userFrame cfg tb hk u raw sch).ok with
    | false => rfl
    | true => obtain ⟨_, hx, _⟩ := h4.1 hq; cases hx

/-- What does hold: if one of the topics is new to the client and known to the broker, the broker keeps the
connection. -/
theorem C48_new_topic_partial (init : List Topic) (h : Run (St.new init) es s) {es' : List Ev} (hs : Step s es' s')
    {t : Nat} {add : Bool} {ts : List Topic} (hr : Ev.returned t (.topics add ts) true ∈ es') (cfg : Cfg B σ)
    (hyes : ∃ x ∈ ts, ¬ (Asked init es x ↔ add = true) ∧ cfg.valid x = true) :
    ∃ c m, Ev.sent c m ∈ es' ∧ ∀ (tb : Table B H) (hk : σ) (u raw : Bytes) (sch : Sched B H),
      cfg.decode raw = some m → (∀ x, cfg.userHook hk x = (hk, x, .process)) →
      (userFrame cfg tb hk u raw sch).ok = true := by
  obtain ⟨c, todo, h1, -, h2⟩ := C48_what_is_sent_partial init h hs hr
  obtain ⟨x, hx, hne, hv⟩ := hyes
  have hx' : x ∈ todo := (h2 x).2 ⟨hx, hne⟩
  refine ⟨c, _, by rw [h1]; exact List.mem_cons_self, fun tb hk u raw sch hd hh => ?_⟩
  cases add with
  | true => exact (C16_subscribe_frame cfg tb hk u raw sch _ hk todo hd (by rw [hh]; rfl)).1.2 ⟨x, hx', hv⟩
  | false => exact (C16_unsubscribe_frame cfg tb hk u raw sch _ hk todo hd (by rw [hh]; rfl)).1.2 ⟨x, hx', hv⟩

/-- The hypotheses of `C48_false` are met: a client created with topic 5 subscribes to it again. -/
example : ∃ es s es' s', Run (St.new [5]) es s ∧ Step s es' s' ∧ Ev.returned 2 (.topics true [5]) true ∈ es' ∧
    Ev.sent 0 (.subscribe []) ∈ es' ∧ ∀ x ∈ [(5 : Topic)], (Asked [5] es x ↔ true = true) := by
  have r1 := ((((run_one [5]).then (.call (.topics true [5]))).then (.lockSubs 2 true [5] rfl (by decide) (by decide))).then
    (.read 2 (.topics true [5] []) rfl (by decide))).then (.found 2 (.topics true [5] []) rfl 0 rfl (by decide))
  refine ⟨_, _, _, _, r1, .useOk 2 (.topics true [5] []) 0 rfl, by simp [Work.op], by simp [Work.message], ?_⟩
  intro x hx
  simp only [List.mem_singleton] at hx
  subst hx
  refine ⟨fun _ => rfl, fun _ => Or.inr ⟨by simp, fun t ts hx hm => ?_⟩⟩
  simp at hm

end C48

/-! ## C51 -/

/-- Only connection `c` can be stored, until a new one is established. -/
theorem only_run {c : Nat} {s0 : St} (hi : s0.Inv) (h : Run s0 es s) (h0 : s0.conn = some c)
    (hn : ∀ t c', Ev.connected t c' ∉ es) :
    (s.conn = some c ∨ s.conn = none) ∧ (∀ t c', s.pc t ≠ .rGot c') ∧ ∀ t c', Ev.dropped t c' ∈ es → c' = c := by
  induction h with
  | nil =>
    refine ⟨Or.inl h0, fun t c' h => ?_, by simp⟩
    have := hi.none t (by rw [h]; rfl)
    rw [h0] at this; cases this
  | snoc e1 s1 e2 s2 h1 hs ih =>
    have hn2 : ∀ t c', Ev.connected t c' ∉ e2 := fun t c' hm => hn t c' (List.mem_append_right _ hm)
    obtain ⟨i1, i2, i3⟩ := ih fun t c' hm => hn t c' (List.mem_append_left _ hm)
    refine ⟨?_, fun t c' hp => ?_, fun t c' hm => ?_⟩
    · rcases conn_step hs with h | h | ⟨t, c1, h, -⟩
      · rw [h]; exact i1
      · exact Or.inr h
      · exact absurd h (i2 t c1)
    · rcases pc_step (inv_run hi h1) hs t with h | h
      · rw [h] at hp; exact i2 t c' hp
      · rw [hp] at h
        generalize s1.pc t = p at h
        cases h
        exact hn2 _ _ ‹_›
    · rcases List.mem_append.1 hm with hm | hm
      · exact i3 t c' hm
      · have hg : ∀ {v : Nat} {w : Work}, Ev.dropped t c' ∉ (s1.giveUp v w).2 := by
          intro v w; cases w <;> simp [St.giveUp]
        have hd : s1.conn = some c' := by
          cases hs with
          | noRead => exact absurd hm hg
          | noSpawn => exact absurd hm hg
          | store => exact absurd hm hg
          | take u w h => simp [Option.mem_toList] at hm; exact hm.1
          | closeTake u h => simp [Option.mem_toList] at hm; exact hm.1
          | _ => simp at hm
        rcases i1 with h | h <;> rw [h] at hd
        · exact (Option.some.inj hd).symm
        · cases hd

/-- As long as no new connection was established since an operation obtained connection `c` (and `c` was still
the client's connection), what is dropped after a failure is `c`. -/
theorem C51_drops_its_own_partial (init : List Topic) {es1 es2 : List Ev} {s1 s2 : St}
    (h1 : Run (St.new init) es1 s1) {t c : Nat} {w : Work} (_ : s1.pc t = .using w c) (hc : s1.conn = some c)
    (h2 : Run s1 es2 s2) (hn : ∀ u c', Ev.connected u c' ∉ es2) :
    ∀ c', Ev.dropped t c' ∈ es2 → c' = c :=
  fun c' => (only_run (reach_inv h1) h2 hc hn).2.2 t c'

theorem _root_.Verif.Client.Run.cast {s0 s1 s2 : St} {es es' : List Ev} (h : Run s0 es s1) (he : es = es')
    (hs : s1 = s2) : Run s0 es' s2 := by subst he hs; exact h

/-- Task 2 receives on connection 0. -/
def recvOn0 : St :=
  ⟨fun t => if t < 2 then .done else if t = 2 then .using .recv 0 else .idle, 3, false, some 0, 1, FSet.empty, some 1,
    fun _ => false⟩

theorem run_recvOn0 : ∃ es, Run (St.new []) es recvOn0 :=
  ⟨_, Run.cast (((((run_one []).then (.call .recv)).then (.recvNew 2 rfl)).then (.read 2 .recv rfl (by decide))).then
    (.found 2 .recv rfl 0 rfl (by decide))) rfl (by
    simp only [one, recvOn0, St.goto]
    congr 1
    funext t
    rcases (by omega : t = 0 ∨ t = 1 ∨ t = 2 ∨ 3 ≤ t) with rfl | rfl | rfl | h
    · rfl
    · rfl
    · rfl
    · simp [upd, show ¬ t < 2 by omega, show t ≠ 2 by omega])⟩

/-- C51 is false: a failure of connection 0 makes the client drop the healthy connection 1. Task 2 receives on
connection 0; a failed send (task 3) drops it; connection 1 is established; then task 2's receive fails, and
it drops connection 1. -/
theorem C51_false : ∃ es1 s1 es2 s2, Run (St.new []) es1 s1 ∧ s1.pc 2 = .using .recv 0 ∧ s1.conn = some 0 ∧
    Run s1 es2 s2 ∧ Ev.connected 5 1 ∈ es2 ∧ Ev.dropped 2 1 ∈ es2 ∧ (∀ op ok, Ev.returned 2 op ok ∈ es2 → ok = false) ∧
    s2.conn = none := by
  have r2 := (((((((((Run.nil (s := recvOn0)).then (.call .softClose)).then (.softNew 3 rfl)).then
    (.read 3 .softClose rfl (by decide))).then (.found 3 .softClose rfl 0 rfl (by decide))).then (.useErr 3 .softClose 0 rfl)).then
    (.failFree 3 .softClose rfl (by decide))).then (.lockW 3 .softClose rfl (by decide) (by decide))).then (.take 3 .softClose rfl))
  have r3 := (((((r2.then (.call .recv)).then (.recvNew 4 rfl)).then (.read 4 .recv rfl (by decide))).then
    (.spawn 4 .recv rfl rfl rfl (by decide))).then (.store 4 .recv 5 rfl)).then (.rLock 5 rfl (by decide) (by decide))
  have r4 := (((((((r3.then (.rConnect 5 rfl rfl)).then (.rMarshal 5 rfl)).then (.rSubs 5 rfl (by decide))).then
    (.rAuthOk 5 rfl)).then (.rSet 5 1 rfl)).then (.rPermit 5 rfl)).then (.rDone 5 rfl))
  have r5 := (((r4.then (.useErr 2 .recv 0 rfl)).then (.failFree 2 .recv rfl (by decide))).then
    (.lockW 2 .recv rfl (by decide) (by decide))).then (.take 2 .recv rfl)
  obtain ⟨es1, r1⟩ := run_recvOn0
  exact ⟨_, _, _, _, r1, rfl, rfl, r5, by simp [recvOn0, St.goto, St.giveUp], by simp [recvOn0, St.goto, St.giveUp],
    by simp [recvOn0, St.goto, St.giveUp], rfl⟩

/-! ## C54 -/

/-- C54 is false: `ensure_initialized` returns `Ok` although no connection was ever established, if `close` is
called while it waits. -/
theorem C54_false : ∃ es s, Run (St.new []) es s ∧ Ev.returned 0 .ensure true ∈ es ∧
    ∀ t c, Ev.connected t c ∉ es := by
  have r1 := (((((Run.nil (s := St.new [])).then (.call .ensure)).then (.ensureNew 0 rfl rfl)).then
    (.read 0 .ensure rfl (by decide))).then (.spawn 0 .ensure rfl rfl rfl (by decide))).then (.store 0 .ensure 1 rfl)
  have r2 := ((r1.then (.call .close)).then (.closeGuard 2 rfl)).then (.ensureShut 0 rfl rfl)
  exact ⟨_, _, r2, by simp, by simp [St.giveUp]⟩

/-- Two calls failed; the first has dropped the connection, the second holds the lock. -/
def droppedOnce : St :=
  ⟨fun t => if t < 3 then .done else if t = 3 then .holdW .recv else .idle, 4, false, none, 1, FSet.empty, some 1,
    fun _ => false⟩

theorem run_droppedOnce : ∃ es, Run (St.new []) es droppedOnce := by
  have r1 := (((((((run_one []).then (.call .recv)).then (.recvNew 2 rfl)).then (.read 2 .recv rfl (by decide))).then
    (.found 2 .recv rfl 0 rfl (by decide))).then (.useErr 2 .recv 0 rfl)).then (.failFree 2 .recv rfl (by decide)))
  have r2 := ((((((r1.then (.call .recv)).then (.recvNew 3 rfl)).then (.read 3 .recv rfl (by decide))).then
    (.found 3 .recv rfl 0 rfl (by decide))).then (.useErr 3 .recv 0 rfl)).then (.failFree 3 .recv rfl (by decide)))
  have r3 := ((r2.then (.lockW 2 .recv rfl (by decide) (by decide))).then (.take 2 .recv rfl)).then
    (.lockW 3 .recv rfl (by decide) (by decide))
  refine ⟨_, Run.cast r3 rfl ?_⟩
  simp only [one, droppedOnce, St.goto]
  congr 1
  funext t
  rcases (by omega : t = 0 ∨ t = 1 ∨ t = 2 ∨ t = 3 ∨ 4 ≤ t) with rfl | rfl | rfl | rfl | h
  · rfl
  · rfl
  · rfl
  · rfl
  · simp [upd, show ¬ t < 2 by omega, show ¬ t < 3 by omega, show t ≠ 2 by omega, show t ≠ 3 by omega]

/-- C54 is false even if nobody closes the client: called while there is no connection, no reconnection task
and a failed call holds the lock for a moment, `ensure_initialized` returns `Ok` although no connection is
there or was established since the call. -/
theorem C54_false_without_close : ∃ es0 s0 es s, Run (St.new []) es0 s0 ∧ s0.conn = none ∧
    Run s0 es s ∧ Ev.called 4 .ensure ∈ es ∧ Ev.returned 4 .ensure true ∈ es ∧ (∀ t c, Ev.connected t c ∉ es) ∧
    (∀ t, Ev.called t .close ∉ es) ∧ s.conn = none ∧ s.closed = false := by
  obtain ⟨es0, r0⟩ := run_droppedOnce
  have r1 := (((((Run.nil (s := droppedOnce)).then (.call .ensure)).then (.ensureNew 4 rfl rfl)).then
    (.noRead 4 .ensure rfl (by decide) 3 (by decide) (Or.inl rfl))).then (.ensureAcq 4 rfl rfl (by decide))).then
    (.ensureRel 4 rfl)
  exact ⟨es0, droppedOnce, _, _, r0, rfl, r1, by simp [droppedOnce, St.giveUp], by simp, by simp [droppedOnce, St.giveUp],
    by simp [droppedOnce, St.giveUp], rfl, rfl⟩

/-- Once a connection was stored by a reconnection task that has not ended, it is there. -/
theorem set_conn (init : List Topic) (h : Run (St.new init) es s) (t : Nat)
    (ht : s.pc t = .rSet ∨ s.pc t = .rPermit) : s.conn ≠ none := by
  induction h with
  | nil => simp [St.new] at ht
  | snoc e1 s1 e2 s2 h1 hs ih =>
    have hi := reach_inv h1
    rcases pc_step hi hs t with h | h
    · rw [h] at ht
      have hW : (s1.pc t).holdsW = true := by rcases ht with h | h <;> rw [h] <;> rfl
      rcases conn_step hs with h2 | h2 | ⟨u, c, -, h2⟩
      · rw [h2]; exact ih ht
      · intro h3
        have hne := ih ht
        have hg : ∀ {v : Nat} {w : Work}, (s1.giveUp v w).1.conn = s1.conn := by
          intro v w; cases w <;> rfl
        cases hs with
        | take u w h4 =>
          have := hi.uW t u hW (by rw [h4]; rfl)
          subst this; rw [h4] at ht; simp at ht
        | closeTake u h4 =>
          have := hi.uW t u hW (by rw [h4]; rfl)
          subst this; rw [h4] at ht; simp at ht
        | noRead => rw [hg] at h3; exact hne h3
        | noSpawn => rw [hg] at h3; exact hne h3
        | store => exact hne (hg ▸ h3)
        | rSet u c h4 => cases h3
        | _ => exact hne h3
      · rw [h2]; simp
    · generalize hp : s1.pc t = p at h
      generalize hq : s2.pc t = q at h ht
      cases h with
      | rSet c hc => rw [hc]; simp
      | rPermit =>
        have hne := ih (Or.inl hp)
        rcases conn_step hs with h2 | h2 | ⟨u, c, -, h2⟩
        · rw [h2]; exact hne
        · intro h3
          have hW : (s1.pc t).holdsW = true := by rw [hp]; rfl
          have hg : ∀ {v : Nat} {w : Work}, (s1.giveUp v w).1.conn = s1.conn := by
            intro v w; cases w <;> rfl
          cases hs with
          | take u w h4 =>
            have := hi.uW t u hW (by rw [h4]; rfl)
            subst this; rw [h4] at hp; simp at hp
          | closeTake u h4 =>
            have := hi.uW t u hW (by rw [h4]; rfl)
            subst this; rw [h4] at hp; simp at hp
          | noRead => rw [hg] at h3; exact hne h3
          | noSpawn => rw [hg] at h3; exact hne h3
          | store => exact hne (hg ▸ h3)
          | rSet u c h4 => cases h3
          | _ => exact hne h3
        · rw [h2]; simp
      | _ => simp at ht

/-- Facts about the handle of the reconnection task, while the client is not closed. -/
structure Handles (s : St) : Prop where
  dead : ∀ r, s.aborted r = true → s.pc r = .done
  kept : ∀ r, s.handle = some r → s.pc r = .done ∨ Reconnecting (s.pc r)
  new : ∀ t w r, s.pc t = .spawned w r → s.pc r = .rWait ∧ s.handle ≠ some r
  one : ∀ t w r t' w' r', s.pc t = .spawned w r → s.pc t' = .spawned w' r' → t = t'

theorem move_done {u : Nat} {q : PC} (h : Move s es s' u .done q) : q = .done := by
  cases h <;> rfl

theorem move_new {u : Nat} {q : PC} (h : Move s es s' u (.new .ensure) q) : q = .ready .ensure ∨ q = .done := by
  cases h <;> simp

theorem move_ready {u : Nat} {q : PC} (h : Move s es s' u (.ready .ensure) q) : q = .reading .ensure ∨
    (q = .ensureWait ∧ ∃ v, (s.pc v).holdsW = true ∨ (s.pc v).waitsW = true) ∨ q = .done := by
  cases h with
  | noReadEnsure v hb => exact Or.inr (Or.inl ⟨rfl, v, hb⟩)
  | _ => simp

theorem move_reading {u : Nat} {q : PC} (h : Move s es s' u (.reading .ensure) q) : (∃ r, q = .spawned .ensure r) ∨
    (q = .ensureWait ∧ (s.closed = true ∨ ∃ v, (s.pc v).holdsP = true)) ∨ q = .done := by
  cases h with
  | noSpawnEnsure _ hb => exact Or.inr (Or.inl ⟨rfl, hb⟩)
  | spawn => exact Or.inl ⟨_, rfl⟩
  | found _ _ _ he => exact absurd rfl he
  | _ => simp

theorem move_spawned {u r : Nat} {q : PC} (h : Move s es s' u (.spawned .ensure r) q) :
    q = .ensureWait ∨ q = .done := by
  cases h <;> simp

theorem move_ensureWait {u : Nat} {q : PC} (h : Move s es s' u .ensureWait q) :
    (∀ v, (s.pc v).holdsP = false) ∨ q = .done := by
  cases h with
  | ensureAcq _ hp => exact Or.inl hp
  | _ => simp

theorem done_step (hi : s.Inv) (hs : Step s es s') {t : Nat} (h : s.pc t = .done) : s'.pc t = .done := by
  rcases pc_step hi hs t with h1 | h1
  · rw [h1, h]
  · rw [h] at h1; exact move_done h1

theorem move_reconnecting {u : Nat} {p q : PC} (h : Move s es s' u p q) (hp : Reconnecting p) :
    q = .done ∨ Reconnecting q := by
  cases h <;> simp [Reconnecting] at hp ⊢

theorem handles_run (init : List Topic) (h : Run (St.new init) es s) (ho : s.closed = false) : Handles s := by
  induction h with
  | nil => exact ⟨by simp [St.new], by simp [St.new], by simp [St.new], by simp [St.new]⟩
  | snoc e1 s1 e2 s2 h1 hs ih =>
    have ho1 : s1.closed = false := by
      cases hc : s1.closed with
      | false => rfl
      | true =>
        rcases closed_step hs with h | h
        · rw [h, hc] at ho; cases ho
        · rw [h.1] at ho; cases ho
    have H := ih ho1
    have hi := reach_inv h1
    have hi2 := inv_step hi hs
    have hclose : ∀ t, s1.pc t ≠ .close1 := by
      intro t ht
      have := closing_closed init h1 t (Or.inl ht)
      rw [ho1] at this; cases this
    have hg : ∀ {v : Nat} {w : Work}, (s1.giveUp v w).1.aborted = s1.aborted ∧ (s1.giveUp v w).1.handle = s1.handle := by
      intro v w; cases w <;> exact ⟨rfl, rfl⟩
    -- how handle and aborted change
    have hch : (s2.aborted = s1.aborted ∧ s2.handle = s1.handle) ∨
        ∃ t w r, s1.pc t = .spawned w r ∧ s2.handle = some r ∧
          (∀ x, s2.aborted x = true → s1.aborted x = true ∨ s1.handle = some x) ∧ ∀ w' r', s2.pc t ≠ .spawned w' r' := by
      cases hs with
      | store t w r h =>
        refine Or.inr ⟨t, w, r, h, rfl, fun x hx => ?_, ?_⟩
        · cases hh : s1.handle with
          | none => simp only [hh] at hx; exact Or.inl hx
          | some r0 =>
            simp only [hh] at hx
            by_cases e : x = r0
            · subst e; exact Or.inr rfl
            · rw [upd_ne _ _ e] at hx; exact Or.inl hx
        · intro w' r'
          show (s1.giveUp t w).1.pc t ≠ _
          rcases giveUp_pc s1 t w with h2 | h2 <;> rw [h2] <;> simp [St.goto, upd_self]
      | closeAbort t h => exact absurd h (hclose t)
      | noRead => exact Or.inl hg
      | noSpawn => exact Or.inl hg
      | _ => exact Or.inl ⟨rfl, rfl⟩
    -- a spawned task stays put while its parent has not stored the handle
    have hwait : ∀ t w r, s1.pc t = .spawned w r → s2.pc r = .rWait := by
      intro t w r h
      have hr := (H.new t w r h).1
      have hna : s1.aborted r = false := by
        cases ha : s1.aborted r with
        | false => rfl
        | true => rw [H.dead r ha] at hr; cases hr
      rcases pc_step hi hs r with h2 | h2
      · rw [h2, hr]
      · rw [hr] at h2
        generalize s2.pc r = q at h2
        generalize hp : PC.rWait = p at h2
        cases h2 with
        | rLock hw hrd => have := hrd t; rw [h] at this; cases this
        | rAbort _ _ ha => rw [hna] at ha; cases ha
        | cancel _ _ ha => subst hp; cases ha
        | _ => cases hp
    have hnewspawn : ∀ t w r, s2.pc t = .spawned w r → (s1.pc t = .spawned w r) ∨
        (r = s1.n ∧ s2.pc r = .rWait ∧ (∀ x, (s1.pc x).holdsP = false) ∧ s1.pc t = .reading w ∧
          ∀ x, x ≠ t → x ≠ s1.n → s2.pc x = s1.pc x) := by
      intro t w r h
      rcases pc_step hi hs t with h2 | h2
      · left; rw [← h2, h]
      · right
        rw [h] at h2
        generalize s1.pc t = p at h2
        generalize hq : PC.spawned w r = q at h2
        cases h2 with
        | spawn w' hn hcl hpp hr hx =>
          obtain ⟨rfl, rfl⟩ := PC.spawned.inj hq
          exact ⟨rfl, hr, hpp, rfl, hx⟩
        | _ => cases hq
    have hP : ∀ t w r, s1.pc t = .spawned w r → ¬ ∀ x, (s1.pc x).holdsP = false := by
      intro t w r h hx
      have := hx r
      rw [(H.new t w r h).1] at this; cases this
    refine ⟨fun r ha => ?_, fun r hr => ?_, fun t w r h => ?_, fun t w r t' w' r' h h' => ?_⟩
    · rcases hch with ⟨ha', -⟩ | ⟨t, w, r2, h2, h3, h4, -⟩
      · rw [ha'] at ha; exact done_step hi hs (H.dead r ha)
      · rcases h4 r ha with h5 | h5
        · exact done_step hi hs (H.dead r h5)
        · rcases H.kept r h5 with h6 | h6
          · exact done_step hi hs h6
          · have hw := H.new t w r2 h2
            have := C47_one_reconnection init h1 r r2 h6 (by rw [hw.1]; simp [Reconnecting])
            rw [this] at h5
            exact absurd h5 hw.2
    · rcases hch with ⟨-, hh⟩ | ⟨t, w, r2, h2, h3, -, -⟩
      · rw [hh] at hr
        rcases H.kept r hr with h6 | h6
        · exact Or.inl (done_step hi hs h6)
        · rcases pc_step hi hs r with h7 | h7
          · rw [h7]; exact Or.inr h6
          · exact move_reconnecting h7 h6
      · rw [h3] at hr
        obtain rfl := Option.some.inj hr
        right; rw [hwait t w _ h2]; simp [Reconnecting]
    · rcases hnewspawn t w r h with h2 | ⟨rfl, h2, h3, h4, -⟩
      · refine ⟨hwait t w r h2, ?_⟩
        rcases hch with ⟨-, hh⟩ | ⟨t2, w2, r2, h5, h6, -, h7⟩
        · rw [hh]; exact (H.new t w r h2).2
        · have := H.one t w r t2 w2 r2 h2 h5
          subst this
          exact absurd h (h7 w r)
      · refine ⟨h2, ?_⟩
        rcases hch with ⟨-, hh⟩ | ⟨t2, w2, r2, h5, -⟩
        · rw [hh]
          intro h6
          have := H.kept _ h6
          rw [hi.idle _ (Nat.le_refl _)] at this
          simp [Reconnecting] at this
        · exact absurd h3 (hP t2 w2 r2 h5)
    · rcases hnewspawn t w r h with h2 | ⟨-, -, h3, h4, h5⟩
      · rcases hnewspawn t' w' r' h' with h2' | ⟨-, -, h3', -, -⟩
        · exact H.one t w r t' w' r' h2 h2'
        · exact absurd h3' (hP t w r h2)
      · rcases hnewspawn t' w' r' h' with h2' | ⟨-, -, -, h4', -⟩
        · exact absurd h3 (hP t' w' r' h2')
        · refine Classical.byContradiction fun hne => ?_
          by_cases e : t' = s1.n
          · rw [e, hi.idle _ (Nat.le_refl _)] at h4'; cases h4'
          · rw [h5 t' (fun h => hne h.symm) e, h4'] at h'; cases h'

/-- What does hold of C54: if from the call of `ensure_initialized` to its return no other method is in
progress or called (a reconnection task may be under way) and the client is not closed, then `Ok` means that a
connection was stored at some moment during the call. -/
theorem C54_alone_partial (init : List Topic) {es1 es2 : List Ev} {s1 s2 : St} (h1 : Run (St.new init) es1 s1)
    (t : Nat) (ht : s1.pc t = .new .ensure) (ho : s1.closed = false)
    (hq : ∀ u, u ≠ t → s1.pc u = .idle ∨ s1.pc u = .done ∨ Reconnecting (s1.pc u))
    (h2 : Run s1 es2 s2) (hc : ∀ u op, Ev.called u op ∉ es2) (hr : Ev.returned t .ensure true ∈ es2) :
    ∃ ea s3 eb, es2 = ea ++ eb ∧ Run s1 ea s3 ∧ Run s3 eb s2 ∧ s3.conn ≠ none := by
  have key : (∃ ea s3 eb, es2 = ea ++ eb ∧ Run s1 ea s3 ∧ Run s3 eb s2 ∧ s3.conn ≠ none) ∨
      (s2.conn = none ∧ s2.closed = false ∧ (∀ u, u ≠ t → s2.pc u = .idle ∨ s2.pc u = .done ∨ Reconnecting (s2.pc u)) ∧
        (s2.pc t = .new .ensure ∨ s2.pc t = .ready .ensure ∨ s2.pc t = .reading .ensure ∨ (∃ r, s2.pc t = .spawned .ensure r) ∨
          (s2.pc t = .ensureWait ∧ ∃ r, (s2.pc r).preSet = true) ∨ s2.pc t = .done) ∧
        Ev.returned t .ensure true ∉ es2) := by
    clear hr
    induction h2 with
    | nil =>
      by_cases hn : s1.conn = none
      · exact Or.inr ⟨hn, ho, hq, Or.inl ht, by simp⟩
      · exact Or.inl ⟨[], s1, [], rfl, .nil, .nil, hn⟩
    | snoc e1 s3 e2 s4 h3 hs ih =>
      rcases ih fun u op hm => hc u op (List.mem_append_left _ hm) with ⟨ea, s5, eb, rfl, h4, h5, h6⟩ | ⟨i1, i2, i3, i4, i5⟩
      · exact Or.inl ⟨ea, s5, eb ++ e2, by simp, h4, h5.then hs, h6⟩
      · by_cases hn : s4.conn = none
        · right
          have hrun := h1.trans h3
          have hi := reach_inv hrun
          have hHd := handles_run init hrun i2
          have hpre : ∀ v, v ≠ t → ((s3.pc v).holdsW = true ∨ (s3.pc v).waitsW = true ∨ (s3.pc v).holdsP = true) →
              (s3.pc v).preSet = true := by
            intro v hv hh
            rcases i3 v hv with h | h | h
            · rw [h] at hh; simp [PC.holdsW, PC.waitsW, PC.holdsP] at hh
            · rw [h] at hh; simp [PC.holdsW, PC.waitsW, PC.holdsP] at hh
            · have hsc := set_conn init hrun v
              rcases h with h | h | h | h | h | h | ⟨c, h⟩ | h | h <;> rw [h] at hsc ⊢ <;>
                first | rfl | exact absurd i1 (hsc (by simp))
          have hmt := pc_step hi hs t
          refine ⟨hn, ?_, fun u hu => ?_, ?_, fun hm => ?_⟩
          · rcases closed_step hs with h | ⟨-, v, hv⟩
            · rw [h, i2]
            · exfalso
              by_cases e : v = t
              · subst e
                rcases i4 with h | h | h | ⟨r, h⟩ | ⟨h, -⟩ | h <;> rw [h] at hv <;> cases hv
              · rcases i3 v e with h | h | h
                · rw [h] at hv; cases hv
                · rw [h] at hv; cases hv
                · rw [hv] at h; simp [Reconnecting] at h
          · rcases pc_step hi hs u with h | h
            · rw [h]; exact i3 u hu
            · have i := i3 u hu
              have hcu : ∀ op, Ev.called u op ∉ e2 := fun op hm => hc u op (List.mem_append_right _ hm)
              rcases i with i | i | i
              · rw [i] at h
                generalize s4.pc u = q at h ⊢
                generalize hp : PC.idle = p at h
                cases h with
                | call op _ he => exact absurd he (hcu op)
                | spawned => simp [Reconnecting]
                | rAbort => simp
                | cancel => simp
                | _ => cases hp
              · exact Or.inr (Or.inl (done_step hi hs i))
              · exact Or.inr (move_reconnecting h i)
          · have hkeep : ∀ r, (s3.pc r).preSet = true → (s4.pc r).preSet = true := by
              intro r hr
              have hna : s3.aborted r = false := by
                cases ha : s3.aborted r with
                | false => rfl
                | true => rw [hHd.dead r ha] at hr; cases hr
              rcases pc_step hi hs r with h | h
              · rw [h]; exact hr
              · generalize s3.pc r = p at h hr
                generalize s4.pc r = q at h ⊢
                cases h with
                | rSet c hcc => rw [hcc] at hn; cases hn
                | rAbort _ _ ha => rw [hna] at ha; cases ha
                | cancel _ _ ha => cases p <;> simp [PC.preSet, PC.awaits] at hr ha
                | _ => first | rfl | (simp [PC.preSet] at hr; done)
            rcases hmt with h | h
            · rw [h]
              rcases i4 with i | i | i | i | ⟨i, r, hr⟩ | i
              · exact Or.inl i
              · exact Or.inr (Or.inl i)
              · exact Or.inr (Or.inr (Or.inl i))
              · exact Or.inr (Or.inr (Or.inr (Or.inl i)))
              · exact Or.inr (Or.inr (Or.inr (Or.inr (Or.inl ⟨i, r, hkeep r hr⟩))))
              · exact Or.inr (Or.inr (Or.inr (Or.inr (Or.inr i))))
            · have fin : s4.pc t = .ensureWait → (∃ r, (s3.pc r).preSet = true) →
                  (s4.pc t = .new .ensure ∨ s4.pc t = .ready .ensure ∨ s4.pc t = .reading .ensure ∨
                    (∃ r, s4.pc t = .spawned .ensure r) ∨ (s4.pc t = .ensureWait ∧ ∃ r, (s4.pc r).preSet = true) ∨
                    s4.pc t = .done) := by
                rintro h ⟨r, hr⟩
                exact Or.inr (Or.inr (Or.inr (Or.inr (Or.inl ⟨h, r, hkeep r hr⟩))))
              rcases i4 with i | i | i | ⟨r0, i⟩ | ⟨i, r, hr⟩ | i
              · rw [i] at h
                rcases move_new h with h | h <;> simp [h]
              · rw [i] at h
                rcases move_ready h with h | ⟨h, v, hb⟩ | h
                · simp [h]
                · refine fin h ⟨v, hpre v ?_ (hb.imp id Or.inl)⟩
                  rintro rfl
                  rw [i] at hb; simp [PC.holdsW, PC.waitsW] at hb
                · simp [h]
              · rw [i] at h
                rcases move_reading h with ⟨r, h⟩ | ⟨h, hb⟩ | h
                · simp [h]
                · rcases hb with hb | ⟨v, hb⟩
                  · rw [i2] at hb; cases hb
                  · refine fin h ⟨v, hpre v ?_ (Or.inr (Or.inr hb))⟩
                    rintro rfl
                    rw [i] at hb; simp [PC.holdsP] at hb
                · simp [h]
              · rw [i] at h
                rcases move_spawned h with h | h
                · refine fin h ⟨r0, ?_⟩
                  rw [(hHd.new t _ r0 i).1]; rfl
                · simp [h]
              · rw [i] at h
                rcases move_ensureWait h with h | h
                · have := PC.preSet_holdsP hr
                  rw [h r] at this; cases this
                · simp [h]
              · rw [i] at h
                simp [move_done h]
          · rcases List.mem_append.1 hm with hm | hm
            · exact i5 hm
            · rcases ok_step hs hm with ⟨w, c, h, -⟩ | ⟨-, h⟩ | ⟨h, -⟩
              · rcases i4 with i | i | i | ⟨r, i⟩ | ⟨i, -⟩ | i <;> rw [i] at h <;> cases h
              · rcases h with h | ⟨-, h⟩ | ⟨-, h⟩
                · rcases i4 with i | i | i | ⟨r, i⟩ | ⟨i, -⟩ | i <;> rw [i] at h <;> cases h
                · rw [i2] at h; cases h
                · exact h i1
              · cases h
        · exact Or.inl ⟨e1 ++ e2, s4, [], by simp, h3.then hs, .nil, hn⟩
  rcases key with h | ⟨-, -, -, -, h⟩
  · exact h
  · exact absurd hr h

/-- The hypotheses of `C54_alone_partial` are met, and `Ok` is returned. -/
example : ∃ es2 s2, Run (one []) es2 s2 ∧ Ev.called 2 .ensure ∈ es2 ∧ Ev.returned 2 .ensure true ∈ es2 := by
  have r := ((((Run.nil (s := one [])).then (.call .ensure)).then (.ensureNew 2 rfl rfl)).then
    (.read 2 .ensure rfl (by decide))).then (.foundEnsure 2 rfl 0 rfl)
  exact ⟨_, _, r, by simp [one], by simp⟩

/-! ## C59 -/

/-- Task `a` waits for a lock or permit that task `b` holds. -/
inductive WaitsFor (s : St) (a b : Nat) : Prop
  /-- for the connection, exclusively -/
  | connWrite (ha : (s.pc a).waitsW = true) (hb : (s.pc b).holdsW = true ∨ (s.pc b).holdsR = true)
  /-- for the connection, shared -/
  | connRead (ha : s.pc a = .ready .recv) (hb : (s.pc b).holdsW = true)
  /-- for the subscriptions, exclusively -/
  | subsWrite (add : Bool) (ts : List Topic) (ha : s.pc a = .new (.topics add ts))
      (hb : (s.pc b).holdsS = true ∨ (s.pc b).readsS = true)
  /-- for the subscriptions, shared -/
  | subsRead (ha : s.pc a = .rWantSubs) (hb : (s.pc b).holdsS = true)
  /-- for the permit to reconnect -/
  | permit (ha : s.pc a = .ensureWait) (hb : (s.pc b).holdsP = true)

/-- Deadlock: `a`, a failed subscription call, waits for the connection; `r`, a reconnection, holds it. -/
structure Dead (s : St) (a r : Nat) (add : Bool) (ts todo : List Topic) : Prop where
  waits : s.pc a = .wantW (.topics add ts todo)
  loops : s.pc r = .rWantSubs ∨ s.pc r = .rSleep ∨ s.pc r = .rLoop ∨ s.pc r = .rConnecting
  live : s.aborted r = false
  noClose : ∀ t, s.pc t ≠ .new .close ∧ s.pc t ≠ .close1

theorem dead_step {a r : Nat} {add : Bool} {ts todo : List Topic} (hi : s.Inv) (hs : Step s es s')
    (hq : Dead s a r add ts todo) (hc : ∀ t, Ev.called t .close ∉ es) :
    (∀ op ok, Ev.returned a op ok ∉ es) ∧
    (s'.pc a = .done ∨ (Dead s' a r add ts todo ∧ ∀ t c, Ev.connected t c ∉ es)) := by
  have hW : (s.pc r).holdsW = true := by rcases hq.loops with h | h | h | h <;> rw [h] <;> rfl
  have hS : (s.pc a).holdsS = true := by rw [hq.waits]; rfl
  refine ⟨fun op ok h => ?_, ?_⟩
  · have := (ret_step hs h).1
    rw [hq.waits] at this; cases this
  by_cases hd : s'.pc a = .done
  · exact Or.inl hd
  right
  refine ⟨⟨?_, ?_, ?_, ?_⟩, fun t c hm => ?_⟩
  · rcases pc_step hi hs a with h | h
    · rw [h]; exact hq.waits
    · rw [hq.waits] at h
      generalize s'.pc a = q at h hd ⊢
      cases h with
      | lockW _ hw => have := hw r; rw [hW] at this; cases this
      | _ => exact absurd rfl hd
  · rcases pc_step hi hs r with h | h
    · rw [h]; exact hq.loops
    · have hl := hq.live
      have hsub : ¬ ∀ t, (s.pc t).holdsS = false := fun hw => by have := hw a; rw [hS] at this; cases this
      rcases hq.loops with h0 | h0 | h0 | h0 <;> rw [h0] at h <;> generalize s'.pc r = q at h ⊢ <;> cases h <;> first
        | (simp; done)
        | (exact absurd ‹_› hsub)
        | (simp_all [PC.awaits]; done)
  · have hg : ∀ {v : Nat} {w : Work}, (s.giveUp v w).1.aborted = s.aborted := by
      intro v w; cases w <;> rfl
    cases hs with
    | store t w r' h =>
      have := hi.wr r t hW
      rw [h] at this; cases this
    | closeAbort t h => exact absurd h (hq.noClose t).2
    | noRead t w => rw [hg]; exact hq.live
    | noSpawn t w => rw [hg]; exact hq.live
    | _ => exact hq.live
  · intro t
    have h0 := hq.noClose t
    rcases pc_step hi hs t with h | h
    · rw [h]; exact h0
    · generalize s.pc t = p at h h0
      generalize s'.pc t = q at h ⊢
      cases h with
      | call op _ he => exact ⟨by rintro ⟨⟩; exact hc _ he, by simp⟩
      | closeGuard => simp at h0
      | _ => simp
  · have h1 := ((attempt_step hs (t := t)).2.2 c hm).1
    have := hi.uW t r (by rw [h1]; rfl) hW
    subst this
    rcases hq.loops with h | h | h | h <;> rw [h] at h1 <;> cases h1

theorem dead_run {a r : Nat} {add : Bool} {ts todo : List Topic} {s0 : St} (hi : s0.Inv) (h : Run s0 es s)
    (hq : Dead s0 a r add ts todo) (hc : ∀ t, Ev.called t .close ∉ es) :
    (∀ op ok, Ev.returned a op ok ∉ es) ∧
    (s.pc a = .done ∨ (Dead s a r add ts todo ∧ ∀ t c, Ev.connected t c ∉ es)) := by
  induction h with
  | nil => exact ⟨by simp, Or.inr ⟨hq, by simp⟩⟩
  | snoc e1 s1 e2 s2 h1 hs ih =>
    have hi1 := inv_run hi h1
    have hc2 : ∀ t, Ev.called t .close ∉ e2 := fun t hm => hc t (List.mem_append_right _ hm)
    obtain ⟨i1, i2⟩ := ih fun t hm => hc t (List.mem_append_left _ hm)
    rcases i2 with i2 | ⟨i2, i3⟩
    · refine ⟨fun op ok hm => ?_, Or.inl (done_step hi1 hs i2)⟩
      rcases List.mem_append.1 hm with hm | hm
      · exact i1 op ok hm
      · have := (ret_step hs hm).1
        rw [i2] at this; cases this
    · obtain ⟨j1, j2⟩ := dead_step hi1 hs i2 hc2
      refine ⟨fun op ok hm => ?_, ?_⟩
      · rcases List.mem_append.1 hm with hm | hm
        · exact i1 op ok hm
        · exact j1 op ok hm
      · rcases j2 with j2 | ⟨j2, j3⟩
        · exact Or.inl j2
        · refine Or.inr ⟨j2, fun t c hm => ?_⟩
          rcases List.mem_append.1 hm with hm | hm
          · exact i3 t c hm
          · exact j3 t c hm

theorem deadlock_of {a r : Nat} {add : Bool} {ts todo : List Topic} (h : Run (St.new []) es s)
    (h1 : s.pc a = .wantW (.topics add ts todo)) (h2 : s.pc r = .rWantSubs) (h3 : s.aborted r = false)
    (hn : ∀ t < s.n, s.pc t ≠ .new .close ∧ s.pc t ≠ .close1) :
    WaitsFor s a r ∧ WaitsFor s r a ∧ ∀ es' s', Run s es' s' → (∀ t, Ev.called t .close ∉ es') →
      (∀ op ok, Ev.returned a op ok ∉ es') ∧
      (s'.pc a = s.pc a → WaitsFor s' a r ∧ (s'.pc r).holdsW = true ∧ ∀ t c, Ev.connected t c ∉ es') := by
  refine ⟨.connWrite (by rw [h1]; rfl) (Or.inl (by rw [h2]; rfl)), .subsRead h2 (by rw [h1]; rfl), ?_⟩
  intro es' s' h4 hc
  have hi := reach_inv h
  have hq : Dead s a r add ts todo := ⟨h1, Or.inl h2, h3, fun t => (by
    rcases Nat.lt_or_ge t s.n with ht | ht
    · exact hn t ht
    · rw [hi.idle t ht]; exact ⟨PC.noConfusion, PC.noConfusion⟩)⟩
  obtain ⟨h5, h6⟩ := dead_run hi h4 hq hc
  refine ⟨h5, fun he => ?_⟩
  rcases h6 with h6 | ⟨h6, h7⟩
  · rw [h6, h1] at he; cases he
  · have hW : (s'.pc r).holdsW = true := by rcases h6.loops with h | h | h | h <;> rw [h] <;> rfl
    exact ⟨.connWrite (by rw [h6.waits]; rfl) (Or.inl hW), hW, h7⟩

/-- C59 is false: the client can deadlock. In some reachable state a call of `subscribe` and a reconnection task
wait for each other, and whatever happens afterwards (short of `close`), that call never returns and, unless
its caller gives up on it, no connection is ever established again and the connection stays locked. -/
theorem C59_false : ∃ es s a r, Run (St.new []) es s ∧ a ≠ r ∧ WaitsFor s a r ∧ WaitsFor s r a ∧
    ∀ es' s', Run s es' s' → (∀ t, Ev.called t .close ∉ es') → (∀ op ok, Ev.returned a op ok ∉ es') ∧
      (s'.pc a = s.pc a → WaitsFor s' a r ∧ (s'.pc r).holdsW = true ∧ ∀ t c, Ev.connected t c ∉ es') := by
  have r1 := ((((run_one []).then (.call (.topics true [1]))).then (.lockSubs 2 true [1] rfl (by decide) (by decide))).then
    (.read 2 (.topics true [1] [1]) rfl (by decide))).then (.found 2 (.topics true [1] [1]) rfl 0 rfl (by decide))
  have r2 := ((((((r1.then (.call .recv)).then (.recvNew 3 rfl)).then (.read 3 .recv rfl (by decide))).then
    (.found 3 .recv rfl 0 rfl (by decide))).then (.useErr 2 (.topics true [1] [1]) 0 rfl)).then
    (.failFree 2 (.topics true [1] [1]) rfl (by decide)))
  have r3 := (((r2.then (.useErr 3 .recv 0 rfl)).then (.failFree 3 .recv rfl (by decide))).then
    (.lockW 3 .recv rfl (by decide) (by decide))).then (.take 3 .recv rfl)
  have r4 := (((((r3.then (.call .recv)).then (.recvNew 4 rfl)).then (.read 4 .recv rfl (by decide))).then
    (.spawn 4 .recv rfl rfl rfl (by decide))).then (.store 4 .recv 5 rfl)).then (.rLock 5 rfl (by decide) (by decide))
  have r5 := (r4.then (.rConnect 5 rfl rfl)).then (.rMarshal 5 rfl)
  obtain ⟨h1, h2, h3⟩ := deadlock_of (a := 2) (r := 5) (add := true) (ts := [1]) (todo := [1]) r5 rfl rfl rfl (by decide)
  exact ⟨_, _, 2, 5, r5, by decide, h1, h2, h3⟩

/-- What does hold: as long as no failed call of `subscribe` or `unsubscribe` is waiting for the connection, a
task that is waited for by a waiting task waits, if at all, for one that does not wait. -/
theorem C59_chains_partial (init : List Topic) (h : Run (St.new init) es s)
    (hno : ∀ t w, s.pc t = .wantW w → w.subs = false) (a b c d : Nat) (h1 : WaitsFor s a b) (h2 : WaitsFor s b c)
    (h3 : WaitsFor s c d) : False := by
  have hi := reach_inv h
  -- who holds something and waits is a reconnection task
  have hold : ∀ {x y}, WaitsFor s x y → (s.pc x).holdsW = false ∨ s.pc x = .rWantSubs := by
    intro x y h
    cases h with
    | connWrite ha => left; generalize s.pc x = p at ha; cases p <;> simp [PC.waitsW] at ha <;> rfl
    | connRead ha => left; rw [ha]; rfl
    | subsWrite _ _ ha => left; rw [ha]; rfl
    | subsRead ha => exact Or.inr ha
    | permit ha => left; rw [ha]; rfl
  have holdR : ∀ {x y}, WaitsFor s x y → (s.pc x).holdsR = false := by
    intro x y h
    cases h with
    | connWrite ha => generalize s.pc x = p at ha; cases p <;> simp [PC.waitsW] at ha <;> rfl
    | connRead ha => rw [ha]; rfl
    | subsWrite _ _ ha => rw [ha]; rfl
    | subsRead ha => rw [ha]; rfl
    | permit ha => rw [ha]; rfl
  have holdS : ∀ {x y}, WaitsFor s x y → (s.pc x).holdsS = false := by
    intro x y h
    cases h with
    | connWrite ha =>
      generalize hp : s.pc x = p at ha
      cases p <;> simp [PC.waitsW] at ha <;> simp only [PC.holdsS]
      exact hno x _ hp
    | connRead ha => rw [ha]; rfl
    | subsWrite _ _ ha => rw [ha]; rfl
    | subsRead ha => rw [ha]; rfl
    | permit ha => rw [ha]; rfl
  have readS : ∀ {x y}, WaitsFor s x y → (s.pc x).readsS = false := by
    intro x y h
    cases h with
    | connWrite ha => generalize s.pc x = p at ha; cases p <;> simp [PC.waitsW] at ha <;> rfl
    | connRead ha => rw [ha]; rfl
    | subsWrite _ _ ha => rw [ha]; rfl
    | subsRead ha => rw [ha]; rfl
    | permit ha => rw [ha]; rfl
  have holdP : ∀ {x y}, WaitsFor s x y → (s.pc x).holdsP = true → s.pc x = .rWait ∨ s.pc x = .rWantSubs := by
    intro x y h hp
    cases h with
    | connWrite ha => left; generalize s.pc x = p at ha hp; cases p <;> simp [PC.waitsW, PC.holdsP] at ha hp ⊢
    | connRead ha => rw [ha] at hp; cases hp
    | subsWrite _ _ ha => rw [ha] at hp; cases hp
    | subsRead ha => exact Or.inr ha
    | permit ha => rw [ha] at hp; cases hp
  -- a task reading the subscriptions' lock waits for a holder of it, which does not wait
  have stop : ∀ {x y z}, s.pc x = .rWantSubs → WaitsFor s x y → WaitsFor s y z → False := by
    intro x y z hx hxy hyz
    cases hxy with
    | connWrite ha => rw [hx] at ha; cases ha
    | connRead ha => rw [hx] at ha; cases ha
    | subsWrite _ _ ha => rw [hx] at ha; cases ha
    | subsRead ha hb => rw [holdS hyz] at hb; cases hb
    | permit ha => rw [hx] at ha; cases ha
  -- `b` holds something and waits
  have hb : s.pc b = .rWait ∨ s.pc b = .rWantSubs := by
    cases h1 with
    | connWrite ha hb =>
      rcases hb with hb | hb
      · rcases hold h2 with h | h
        · rw [h] at hb; cases hb
        · exact Or.inr h
      · rw [holdR h2] at hb; cases hb
    | connRead ha hb =>
      rcases hold h2 with h | h
      · rw [h] at hb; cases hb
      · exact Or.inr h
    | subsWrite _ _ ha hb =>
      rcases hb with hb | hb
      · rw [holdS h2] at hb; cases hb
      · rw [readS h2] at hb; cases hb
    | subsRead ha hb => rw [holdS h2] at hb; cases hb
    | permit ha hb => exact holdP h2 hb
  rcases hb with hb | hb
  · -- it waits for the connection, held by `c`; the only waiting holder is a reconnection task, and there is one
    cases h2 with
    | connWrite ha hc =>
      rcases hc with hc | hc
      · rcases hold h3 with h | h
        · rw [h] at hc; cases hc
        · have := hi.uP b c (by rw [hb]; rfl) (by rw [h]; rfl)
          subst this; rw [hb] at h; cases h
      · rw [holdR h3] at hc; cases hc
    | connRead ha => rw [hb] at ha; cases ha
    | subsWrite _ _ ha => rw [hb] at ha; cases ha
    | subsRead ha => rw [hb] at ha; cases ha
    | permit ha => rw [hb] at ha; cases ha
  · exact stop hb h2 h3

/-- So then no tasks wait for each other in a circle. -/
theorem C59_no_cycle_partial (init : List Topic) (h : Run (St.new init) es s)
    (hno : ∀ t w, s.pc t = .wantW w → w.subs = false) (a : Nat) : ¬ Relation.TransGen (WaitsFor s) a a := by
  have turn : ∀ a, Relation.TransGen (WaitsFor s) a a → ∃ b, WaitsFor s a b ∧ Relation.TransGen (WaitsFor s) b b := by
    intro a ha
    rcases Relation.TransGen.head'_iff.1 ha with ⟨b, hb, hba⟩
    exact ⟨b, hb, Relation.TransGen.tail' hba hb⟩
  intro ha
  obtain ⟨b, h1, hb⟩ := turn a ha
  obtain ⟨c, h2, hc⟩ := turn b hb
  obtain ⟨d, h3, -⟩ := turn c hc
  exact C59_chains_partial init h hno a b c d h1 h2 h3

end Verif.Props.ClientLocks

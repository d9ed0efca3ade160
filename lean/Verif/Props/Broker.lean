import Verif.Lemmas.Broker
import Verif.Props.Connections

/-!
# Properties C12, C13, C15, C17: message handling in one broker
-/

set_option linter.unusedSectionVars false

namespace Verif.Props.Broker
open Verif Verif.Conns Verif.Broker

variable {B H : Type} [DecidableEq B] [DecidableEq H] [LT B] [DecidableLT B]

/-! ## What a user has asked for, by history -/

/-- Topics user `u` asked for: those of their last registration, plus later subscriptions, minus later
unsubscriptions. -/
def wanted (u : Bytes) : List (TOp B H) → (Topic → Prop) → (Topic → Prop)
  | [], acc => acc
  | .addUser u' _ ts :: ops, acc => wanted u ops (if u' = u then (· ∈ ts) else acc)
  | .subscribeUser u' ts :: ops, acc =>
    wanted u ops (if u' = u then (fun t => acc t ∨ t ∈ ts) else acc)
  | .unsubscribeUser u' ts :: ops, acc =>
    wanted u ops (if u' = u then (fun t => acc t ∧ t ∉ ts) else acc)
  | _ :: ops, acc => wanted u ops acc

theorem removeUser_keeps_sub {s : Table B H} (hi : s.IndexInv) {u u' : Bytes} (h : u ≠ u') (t : Topic) :
    (s.removeUser u').bcUsers.Bwd u t ↔ s.bcUsers.Bwd u t := by
  rw [removeUser_bcUsers, RMap.bwd_removeKey hi.1]
  simp [h]

theorem foldl_removeUser_sub {A : Type} (f : A → Bytes) (l : List A) (s : Table B H) (hi : s.IndexInv)
    (u : Bytes) (h : u ∉ l.map f) (t : Topic) :
    (l.foldl (fun s c => s.removeUser (f c)) s).bcUsers.Bwd u t ↔ s.bcUsers.Bwd u t := by
  induction l generalizing s with
  | nil => exact Iff.rfl
  | cons a l ih =>
    simp only [List.map_cons, List.mem_cons, not_or] at h
    rw [List.foldl_cons, ih (s.removeUser (f a)) (indexInv_step s (.removeUser (f a)) hi) h.2]
    exact removeUser_keeps_sub hi h.1 t

theorem wanted_run (u : Bytes) (ops : List (TOp B H)) (s : Table B H) (hi : s.IndexInv)
    (acc : Topic → Prop)
    (hs : (s.users.get u).isSome → ∀ t, s.bcUsers.Bwd u t ↔ acc t)
    (hc : ((s.run ops).users.get u).isSome) (t : Topic) :
    (s.run ops).bcUsers.Bwd u t ↔ wanted u ops acc t := by
  induction ops generalizing s acc with
  | nil => exact hs hc t
  | cons op ops ih =>
    rw [run_cons] at hc ⊢
    have hi' := indexInv_step s op hi
    cases op with
    | addUser u' h ts =>
      refine ih _ hi' _ ?_ hc
      intro hc' t'
      by_cases e : u' = u
      · subst e
        rw [if_pos rfl]
        simp only [step, addUser, removeUser_bcUsers, RMap.bwd_associate]
        rw [RMap.bwd_removeKey hi.1]
        simp
      · rw [if_neg e]
        have : (s.users.get u).isSome := by
          simpa [step, addUser, AMap.get_insert, e, removeUser_users_get] using hc'
        rw [← hs this]
        simp only [step, addUser, removeUser_bcUsers, RMap.bwd_associate]
        rw [RMap.bwd_removeKey hi.1]
        have e' : ¬ u = u' := fun h => e h.symm
        simp [e']
    | removeUser u' =>
      refine ih _ hi' acc ?_ hc
      intro hc' t'
      simp only [step, removeUser_users_get] at hc'
      by_cases e : u' = u
      · subst e; simp at hc'
      · rw [if_neg e] at hc'
        rw [← hs hc']
        exact removeUser_keeps_sub hi (fun h => e h.symm) t'
    | addBroker b h =>
      refine ih _ hi' acc ?_ hc
      simp only [step, addBroker, removeBroker_users, removeBroker_bcUsers]
      exact hs
    | removeBroker b =>
      refine ih _ hi' acc ?_ hc
      simp only [step, removeBroker_users, removeBroker_bcUsers]
      exact hs
    | subscribeUser u' ts =>
      refine ih _ hi' _ ?_ hc
      intro hc' t'
      have hc'' : (s.users.get u).isSome := hc'
      simp only [step, subscribeUser, RMap.bwd_associate]
      by_cases e : u' = u
      · subst e; rw [if_pos rfl, hs hc'']; simp [or_comm]
      · have e' : ¬ u = u' := fun h => e h.symm
        rw [if_neg e, hs hc'']; simp [e']
    | unsubscribeUser u' ts =>
      refine ih _ hi' _ ?_ hc
      intro hc' t'
      have hc'' : (s.users.get u).isSome := hc'
      simp only [step, unsubscribeUser, RMap.bwd_dissociate]
      by_cases e : u' = u
      · subst e; rw [if_pos rfl, hs hc'']; simp [and_comm]
      · have e' : ¬ u = u' := fun h => e h.symm
        rw [if_neg e, hs hc'']; simp [e']
    | subscribeBroker b ts => exact ih _ hi' acc hs hc
    | unsubscribeBroker b ts => exact ih _ hi' acc hs hc
    | applyUserSync m =>
      refine ih _ hi' acc ?_ hc
      intro hc' t'
      simp only [step, applyUserSync] at hc' ⊢
      rw [foldl_removeUser_users_get] at hc'
      by_cases hm : u ∈ List.map Prod.fst (s.direct.merge m).2
      · rw [if_pos hm] at hc'; simp at hc'
      · rw [if_neg hm] at hc'
        rw [← hs hc']
        exact foldl_removeUser_sub (B := B) (H := H) Prod.fst _
          { s with direct := (s.direct.merge m).1 } hi u hm t'
    | applyTopicSync b m =>
      refine ih _ hi' acc ?_ hc
      simp only [step, applyTopicSync]
      cases hb : s.brokers.get b with
      | none => simp only [removeBroker_users, removeBroker_bcUsers]; exact hs
      | some e =>
        obtain ⟨_, h2, _, _, h5, _⟩ := foldl_applyTopicChange_frame
          ({ s with brokers := s.brokers.insert b { e with topicSync := (e.topicSync.merge m).1 } } :
            Table B H) b (e.topicSync.merge m).2
        simp only [h2, h5]; exact hs
    | partialUserSync => exact ih _ hi' acc hs hc
    | partialTopicSync =>
      refine ih _ hi' acc ?_ hc
      simp only [step, getPartialTopicSync]
      split <;> exact hs

/-! ## C12 -/

/-- State-level interest: what the index of the broker says. `C12_user_subscription_history` relates
it to what the user asked for. -/
def UserInterested (s : Table B H) (u : Bytes) (topics : List Topic) : Prop :=
  ∃ t ∈ topics, u ∈ s.bcUsers.getKeysByValue t

/-- A peer broker's recorded interest. -/
def BrokerInterested (s : Table B H) (b : B) (topics : List Topic) : Prop :=
  ∃ t ∈ topics, b ∈ s.bcBrokers.getKeysByValue t

/-- No other task runs in between (sends may still fail). -/
def Quiet (sch : Sched B H) : Prop := ∀ n, (sch n).before = [] ∧ (sch n).between = []

/-- **C12.** Handling a broadcast, with any pattern of failing sends: a user gets exactly one copy, on
their registered connection, if they are connected and subscribed to one of the topics, and none
otherwise; a broker gets exactly one copy if it is connected, interested in one of the topics and the
message came from a user (`toUsersOnly = false`), and none otherwise. There are no other copies
because every destination is a user or a broker. -/
theorem C12_broadcast_exact (s : Table B H) (topics : List Topic) (raw : Bytes) (toUsersOnly : Bool)
    (sch : Sched B H) (hq : Quiet sch) :
    let sent := (handleBroadcast s topics raw toUsersOnly sch).2
    (∀ u c, s.getUserConnection u = some c → UserInterested s u topics →
      ∃ ok, copies sent (.user u) = [⟨.user u, c, raw, ok⟩]) ∧
    (∀ u, s.getUserConnection u = none ∨ ¬ UserInterested s u topics → copies sent (.user u) = []) ∧
    (∀ b c, s.getBrokerConnection b = some c → BrokerInterested s b topics → toUsersOnly = false →
      ∃ ok, copies sent (.broker b) = [⟨.broker b, c, raw, ok⟩]) ∧
    (∀ b, s.getBrokerConnection b = none ∨ ¬ BrokerInterested s b topics ∨ toUsersOnly = true →
      copies sent (.broker b) = []) := by
  intro sent
  have hnd := nodup_broadcastDests s topics toUsersOnly
  have hk : ∀ d n, Keeps d (sch n).before ∧ Keeps d (sch n).between := by
    intro d n; rw [(hq n).1, (hq n).2]; exact ⟨keeps_nil d, keeps_nil d⟩
  have key := fun d => copies_trySends s raw sch (broadcastDests s topics toUsersOnly) hnd d (hk d)
  refine ⟨?_, ?_, ?_, ?_⟩
  · intro u c hc hi
    exact (key (.user u)).1 c ((user_mem_broadcastDests s topics toUsersOnly u).2 hi) hc
  · intro u h
    refine (key (.user u)).2 ?_
    rcases h with h | h
    · exact Or.inr h
    · exact Or.inl (fun h' => h ((user_mem_broadcastDests s topics toUsersOnly u).1 h'))
  · intro b c hc hi ho
    exact (key (.broker b)).1 c ((broker_mem_broadcastDests s topics toUsersOnly b).2 ⟨ho, hi⟩) hc
  · intro b h
    refine (key (.broker b)).2 ?_
    rcases h with h | h | h
    · exact Or.inr h
    · exact Or.inl (fun h' => h ((broker_mem_broadcastDests s topics toUsersOnly b).1 h').2)
    · refine Or.inl (fun h' => ?_)
      have := ((broker_mem_broadcastDests s topics toUsersOnly b).1 h').1
      rw [h] at this; simp at this

/-- **C12**, concurrency: whatever other tasks do to the table between the sends, nobody gets two
copies, and only users and brokers interested when handling began get one; a recipient whose
registration the other tasks leave alone still gets exactly its copy. -/
theorem C12_broadcast_concurrent (s : Table B H) (topics : List Topic) (raw : Bytes)
    (toUsersOnly : Bool) (sch : Sched B H) :
    let sent := (handleBroadcast s topics raw toUsersOnly sch).2
    (∀ d, (copies sent d).length ≤ 1) ∧
    (∀ x ∈ sent, (∃ u, x.dest = .user u ∧ UserInterested s u topics) ∨
      (∃ b, x.dest = .broker b ∧ BrokerInterested s b topics ∧ toUsersOnly = false)) ∧
    (∀ u c, s.getUserConnection u = some c → UserInterested s u topics →
      (∀ n, Keeps (.user u) (sch n).before ∧ Keeps (.user u) (sch n).between) →
      ∃ ok, copies sent (.user u) = [⟨.user u, c, raw, ok⟩]) ∧
    (∀ b c, s.getBrokerConnection b = some c → BrokerInterested s b topics → toUsersOnly = false →
      (∀ n, Keeps (.broker b) (sch n).before ∧ Keeps (.broker b) (sch n).between) →
      ∃ ok, copies sent (.broker b) = [⟨.broker b, c, raw, ok⟩]) := by
  intro sent
  have hnd := nodup_broadcastDests s topics toUsersOnly
  refine ⟨fun d => copies_le_one s raw sch _ hnd d, ?_, ?_, ?_⟩
  · intro x hx
    have hm := (mem_trySends hx).1
    cases hd : x.dest with
    | user u =>
      rw [hd] at hm
      exact Or.inl ⟨u, rfl, (user_mem_broadcastDests s topics toUsersOnly u).1 hm⟩
    | broker b =>
      rw [hd] at hm
      have := (broker_mem_broadcastDests s topics toUsersOnly b).1 hm
      exact Or.inr ⟨b, rfl, this.2, this.1⟩
  · intro u c hc hi hk
    exact (copies_trySends s raw sch _ hnd (.user u) hk).1 c
      ((user_mem_broadcastDests s topics toUsersOnly u).2 hi) hc
  · intro b c hc hi ho hk
    exact (copies_trySends s raw sch _ hnd (.broker b) hk).1 c
      ((broker_mem_broadcastDests s topics toUsersOnly b).2 ⟨ho, hi⟩) hc

/-- **C21**, sending: a sync message handed to `try_send_to_brokers` goes once to every broker connected, on its connection,
and to nobody else, whichever sends fail and whatever other tasks do to the table in between, as long as they leave that
broker's registration alone. -/
theorem C21_sync_sent_to_all (s : Table B H) (raw : Bytes) (sch : Sched B H) :
    let sent := (sendToBrokers s raw sch).2
    (∀ d, (copies sent d).length ≤ 1) ∧
    (∀ x ∈ sent, x.bytes = raw ∧ ∃ b c, x.dest = .broker b ∧ s.getBrokerConnection b = some c) ∧
    (∀ b c, s.getBrokerConnection b = some c →
      (∀ n, Keeps (.broker b) (sch n).before ∧ Keeps (.broker b) (sch n).between) →
      ∃ ok, copies sent (.broker b) = [⟨.broker b, c, raw, ok⟩]) := by
  intro sent
  have hmem : ∀ b, b ∈ s.allBrokers ↔ (s.getBrokerConnection b).isSome := fun b => by
    rw [allBrokers, AMap.mem_keys]; simp [getBrokerConnection]
  have hnd : (s.allBrokers.map (Dest.broker (B := B))).Nodup :=
    List.Pairwise.map _ (fun a b h e => h (by cases e; rfl)) s.brokers.nodup
  refine ⟨fun d => copies_le_one s raw sch _ hnd d, ?_, ?_⟩
  · intro x hx
    have hm := mem_trySends hx
    obtain ⟨b, hb, e⟩ := List.mem_map.1 hm.1
    obtain ⟨c, hc⟩ := Option.isSome_iff_exists.1 ((hmem b).1 hb)
    exact ⟨hm.2, b, c, e.symm, hc⟩
  · intro b c hc hk
    exact (copies_trySends s raw sch _ hnd (.broker b) hk).1 c (List.mem_map.2 ⟨b, (hmem b).2 (by rw [hc]; rfl), rfl⟩) hc

/-- Three brokers are connected; the send to the second fails; each gets its copy. -/
example :
    let s : Table Nat Nat := (Conns.new 0).run [.addUser [1] 100 [5], .addBroker 7 101, .addBroker 8 102, .addBroker 9 103]
    let sent := (sendToBrokers s [42] (fun n => ⟨[], n ≠ 1, []⟩)).2
    sent.length = 3 ∧ (sent.filter (·.ok)).length = 2 ∧ [101, 102, 103].all (fun c => sent.any (·.conn = c)) := by
  decide

/-- **C12**, meaning of "subscribed": after any history, a connected user is recorded as interested in
exactly the topics of their last registration plus later subscriptions minus later unsubscriptions. -/
theorem C12_user_subscription_history (id : B) (ops : List (TOp B H)) (u : Bytes)
    (hc : (((Conns.new id).run ops).getUserConnection u).isSome) (topics : List Topic) :
    UserInterested ((Conns.new id).run ops) u topics ↔
      ∃ t ∈ topics, wanted u ops (fun _ => False) t := by
  have hi : (Conns.new id : Table B H).IndexInv := ⟨RMap.inv_new, RMap.inv_new⟩
  have := fun t => wanted_run u ops (Conns.new id : Table B H) hi (fun _ => False)
    (by simp [Conns.new]) hc t
  unfold UserInterested
  simp only [RMap.mem_getKeysByValue, this]

/-- Non-trivial instance of C12: overlapping, repeated topics; user 2 is interested twice; the send to
broker 8 fails; user 3 not interested. -/
example :
    let tm : TopicSync Topic := ⟨AMap.ofList [(5, ⟨1, some .subscribed⟩)], FSet.empty, 0⟩
    let s : Table Nat Nat := (Conns.new 0).run
      [.addUser [1] 100 [5], .addUser [2] 101 [5, 6], .addUser [3] 103 [9], .addBroker 8 102,
       .applyTopicSync 8 tm]
    let sch : Sched Nat Nat := fun n => ⟨[], n ≠ 0, []⟩
    let sent := (handleBroadcast s [5, 6, 5] [42] false sch).2
    (sent.map (fun x => (x.conn, x.ok)) = [(102, false), (101, true), (100, true)] ∨
     sent.map (fun x => (x.conn, x.ok)) = [(102, false), (100, true), (101, true)]) ∧
    ((handleBroadcast s [5, 6, 5] [42] true sch).2.map (·.conn)).contains 102 = false := by
  decide

/-! ## C13 -/

/-- **C13.** Handling a direct message in any reachable state makes at most one send: to the recipient
if they are connected here; otherwise, for messages from users only, to the broker recorded for them;
otherwise nothing. -/
theorem C13_direct_exact (id : B) (ops : List (TOp B H)) (recipient raw : Bytes) (toUserOnly : Bool)
    (sch : Sched B H) (hq : Quiet sch) :
    let s := (Conns.new id).run ops
    (handleDirect s recipient raw toUserOnly sch).2 =
      match s.getUserConnection recipient with
      | some c => [⟨.user recipient, c, raw, (sch 0).ok⟩]
      | none =>
        if toUserOnly then []
        else match s.getBrokerOfUser recipient with
          | none => []
          | some b =>
            match s.getBrokerConnection b with
            | none => []
            | some c => [⟨.broker b, c, raw, (sch 0).ok⟩] := by
  intro s
  have h8 := Props.Connections.C08_routed_iff_connected id ops recipient
  have hid : s.identity = id := identity_run _ ops
  change s.getBrokerOfUser recipient = some id ↔ (s.getUserConnection recipient).isSome at h8
  have hone : ∀ d, (trySends s raw sch [d]).2 =
      match connOf s d with | none => [] | some c => [⟨d, c, raw, (sch 0).ok⟩] := by
    intro d
    simp only [trySends, trySend_sent, (hq 0).1, List.append_nil]
    rfl
  unfold handleDirect directDests
  rw [hid]
  cases hc : s.getUserConnection recipient with
  | some c =>
    rw [hc] at h8
    rw [h8.2 rfl]
    simp only [if_true]
    rw [hone]
    simp only [connOf, hc]
  | none =>
    rw [hc] at h8
    cases hb : s.getBrokerOfUser recipient with
    | none => cases toUserOnly <;> rfl
    | some b =>
      have hne : b ≠ id := by
        intro e; subst e; have := h8.1 hb; simp at this
      simp only [hne, if_false]
      cases toUserOnly with
      | true => rfl
      | false => simp only [Bool.false_eq_true, if_false]; rw [hone]; rfl

/-- **C13**, concurrency: with arbitrary interference between the routing decision and the send there
is still at most one send, and its destination was right when the decision was made. -/
theorem C13_direct_concurrent (id : B) (ops : List (TOp B H)) (recipient raw : Bytes)
    (toUserOnly : Bool) (sch : Sched B H) :
    let s := (Conns.new id).run ops
    let sent := (handleDirect s recipient raw toUserOnly sch).2
    sent.length ≤ 1 ∧
    ∀ x ∈ sent,
      (x.dest = .user recipient ∧ (s.getUserConnection recipient).isSome) ∨
      (∃ b, x.dest = .broker b ∧ b ≠ id ∧ toUserOnly = false ∧
        s.getBrokerOfUser recipient = some b ∧ s.getUserConnection recipient = none) := by
  intro s sent
  have h8 := Props.Connections.C08_routed_iff_connected id ops recipient
  have hid : s.identity = id := identity_run _ ops
  change s.getBrokerOfUser recipient = some id ↔ (s.getUserConnection recipient).isSome at h8
  have hdest : (directDests s recipient toUserOnly = []) ∨
      (directDests s recipient toUserOnly = [.user recipient] ∧
        s.getBrokerOfUser recipient = some id) ∨
      (∃ b, directDests s recipient toUserOnly = [.broker b] ∧ b ≠ id ∧ toUserOnly = false ∧
        s.getBrokerOfUser recipient = some b) := by
    unfold directDests
    rw [hid]
    cases hb : s.getBrokerOfUser recipient with
    | none => exact Or.inl rfl
    | some b =>
      by_cases hbi : b = id
      · subst hbi; right; left; simp
      · cases toUserOnly with
        | true => left; simp [hbi]
        | false => right; right; exact ⟨b, by simp [hbi], hbi, rfl, rfl⟩
  constructor
  · have hle : ∀ d, ((trySends s raw sch [d]).2).length ≤ 1 := by
      intro d
      simp only [trySends, trySend_sent, List.append_nil]
      cases connOf (Conns.run s (sch 0).before) d <;> simp
    show ((trySends s raw sch (directDests s recipient toUserOnly)).2).length ≤ 1
    rcases hdest with h | ⟨h, _⟩ | ⟨b, h, _⟩
    · rw [h]; simp [trySends]
    · rw [h]; exact hle _
    · rw [h]; exact hle _
  · intro x hx
    have hm := (mem_trySends hx).1
    rcases hdest with h | ⟨h, hb⟩ | ⟨b, h, hbi, ho, hb⟩
    · rw [h] at hm; simp at hm
    · rw [h, List.mem_singleton] at hm
      exact Or.inl ⟨hm, h8.1 hb⟩
    · rw [h, List.mem_singleton] at hm
      refine Or.inr ⟨b, hm, hbi, ho, hb, ?_⟩
      cases hc : s.getUserConnection recipient with
      | none => rfl
      | some c =>
        rw [hc] at h8
        have := h8.2 rfl
        rw [hb] at this
        exact absurd (Option.some.inj this) hbi

/-- Non-trivial instance of C13: a local recipient, a remote one (via broker 8), both origins. -/
example :
    let dm : DirectMap Bytes Nat := ⟨AMap.ofList [([2], ⟨1, some 8⟩)], FSet.empty, 8⟩
    let ops : List (TOp Nat Nat) := [.addUser [1] 100 [], .addBroker 8 102, .applyUserSync dm]
    let s : Table Nat Nat := (Conns.new 0).run ops
    let sch : Sched Nat Nat := fun _ => ⟨[], true, []⟩
    [([1], false), ([1], true), ([2], false), ([2], true), ([3], false)].map
      (fun q => (handleDirect s q.1 [42] q.2 sch).2.map (·.conn)) = [[100], [100], [102], [], []] := by
  decide

/-! ## C15 -/

variable {σ : Type}

/-- **C15.** Whatever the hooks do, every send a user's or a broker's receive loop causes carries
exactly the bytes of the frame being handled, and the frames are handled in the order received. -/
theorem C15_forwarded_verbatim (cfg : Cfg B σ) (s : Table B H) (h : σ) (u : Bytes) (b : B)
    (rs : List (Recv B H)) :
    (∀ p ∈ (userLoop cfg s h u rs).sent, ∀ x ∈ p.2, x.bytes = p.1) ∧
    ((userLoop cfg s h u rs).sent.map Prod.fst) <+: rs.filterMap (·.raw) ∧
    (∀ p ∈ (brokerLoop cfg s h b rs).sent, ∀ x ∈ p.2, x.bytes = p.1) ∧
    ((brokerLoop cfg s h b rs).sent.map Prod.fst) <+: rs.filterMap (·.raw) := by
  have hu : ∀ (s : Table B H) h raw sch, ∀ x ∈ (userFrame cfg s h u raw sch).sent, x.bytes = raw := by
    intro s h raw sch x hx
    unfold userFrame at hx
    cases hd : cfg.decode raw with
    | none => simp [hd] at hx
    | some m =>
      simp only [hd] at hx
      generalize cfg.userHook h m = r at hx
      obtain ⟨h', m', res⟩ := r
      cases res with
      | skip => simp at hx
      | error => simp at hx
      | process =>
        cases m' with
        | direct r d => exact (mem_trySends hx).2
        | broadcast ts d =>
          simp only at hx
          split at hx
          · exact (mem_trySends hx).2
          · simp at hx
        | subscribe ts => simp only at hx; split at hx <;> simp at hx
        | unsubscribe ts => simp only at hx; split at hx <;> simp at hx
        | _ => simp at hx
  have hb : ∀ (s : Table B H) h raw sch, ∀ x ∈ (brokerFrame cfg s h b raw sch).sent,
      x.bytes = raw := by
    intro s h raw sch x hx
    unfold brokerFrame at hx
    cases hd : cfg.decode raw with
    | none => simp [hd] at hx
    | some m =>
      simp only [hd] at hx
      generalize cfg.brokerHook h m = r at hx
      obtain ⟨h', m', res⟩ := r
      cases res with
      | skip => simp at hx
      | error => simp at hx
      | process =>
        cases m' with
        | direct r d => exact (mem_trySends hx).2
        | broadcast ts d => exact (mem_trySends hx).2
        | userSync d => simp only at hx; split at hx <;> simp at hx
        | topicSync d => simp only at hx; split at hx <;> simp at hx
        | _ => simp at hx
  refine ⟨?_, ?_, ?_, ?_⟩
  · intro p hp
    induction rs generalizing s h with
    | nil => simp [userLoop] at hp
    | cons r rs ih =>
      simp only [userLoop] at hp
      cases hr : r.raw with
      | none => simp [hr] at hp
      | some raw =>
        simp only [hr] at hp
        split at hp
        · simp only [List.mem_cons] at hp
          rcases hp with rfl | hp
          · exact hu _ _ _ _
          · exact ih _ _ hp
        · simp only [List.mem_singleton] at hp
          subst hp; exact hu _ _ _ _
  · induction rs generalizing s h with
    | nil => simp [userLoop]
    | cons r rs ih =>
      simp only [userLoop]
      cases hr : r.raw with
      | none => simp
      | some raw =>
        rw [List.filterMap_cons_some hr]
        simp only
        split
        · simp only [List.map_cons]
          exact List.prefix_cons_inj _ |>.2 (ih _ _)
        · simp only [List.map_cons, List.map_nil]
          exact List.prefix_cons_inj _ |>.2 List.nil_prefix
  · intro p hp
    induction rs generalizing s h with
    | nil => simp [brokerLoop] at hp
    | cons r rs ih =>
      simp only [brokerLoop] at hp
      cases hr : r.raw with
      | none => simp [hr] at hp
      | some raw =>
        simp only [hr] at hp
        split at hp
        · simp only [List.mem_cons] at hp
          rcases hp with rfl | hp
          · exact hb _ _ _ _
          · exact ih _ _ hp
        · simp only [List.mem_singleton] at hp
          subst hp; exact hb _ _ _ _
  · induction rs generalizing s h with
    | nil => simp [brokerLoop]
    | cons r rs ih =>
      simp only [brokerLoop]
      cases hr : r.raw with
      | none => simp
      | some raw =>
        rw [List.filterMap_cons_some hr]
        simp only
        split
        · simp only [List.map_cons]
          exact List.prefix_cons_inj _ |>.2 (ih _ _)
        · simp only [List.map_cons, List.map_nil]
          exact List.prefix_cons_inj _ |>.2 List.nil_prefix

/-! ## C17 -/

/-- A message a user may send: a direct message, or a topic message with at least one valid topic. -/
def Acceptable (valid : Topic → Bool) : Msg → Prop
  | .direct _ _ => True
  | .broadcast ts _ => ∃ t ∈ ts, valid t = true
  | .subscribe ts => ∃ t ∈ ts, valid t = true
  | .unsubscribe ts => ∃ t ∈ ts, valid t = true
  | _ => False

/-- The reasons to disconnect a user, given the state of their hook and what was received. -/
def Offence (cfg : Cfg B σ) (h : σ) : Option Bytes → Prop
  | none => True
  | some raw =>
    match cfg.decode raw with
    | none => True
    | some m =>
      (cfg.userHook h m).2.2 = .error ∨
      ((cfg.userHook h m).2.2 = .process ∧ ¬ Acceptable cfg.valid (cfg.userHook h m).2.1)

/-- The hook state after a sequence of received frames. -/
def hookAfter (cfg : Cfg B σ) (h : σ) : List (Option Bytes) → σ
  | [] => h
  | none :: rs => hookAfter cfg h rs
  | some raw :: rs =>
    match cfg.decode raw with
    | none => hookAfter cfg h rs
    | some m => hookAfter cfg (cfg.userHook h m).1 rs

theorem prune_ok (valid : Topic → Bool) (ts : List Topic) :
    (prune valid ts).2 = true ↔ ∃ t ∈ ts, valid t = true := by
  have hm : ∀ (l : List Topic) t, t ∈ dedup l ↔ t ∈ l := by
    intro l t
    fun_induction dedup l with
    | case1 => exact Iff.rfl
    | case2 a => exact Iff.rfl
    | case3 b l ih => rw [ih]; simp
    | case4 a b l hab ih => rw [List.mem_cons, ih, List.mem_cons (a := t) (b := a)]
  simp only [prune, Bool.not_eq_true', List.isEmpty_eq_false_iff_exists_mem, List.mem_filter, hm]

theorem userFrame_ok (cfg : Cfg B σ) (s : Table B H) (h : σ) (u raw : Bytes) (sch : Sched B H) :
    ((userFrame cfg s h u raw sch).ok = false ↔ Offence cfg h (some raw)) ∧
    ((userFrame cfg s h u raw sch).hook = hookAfter cfg h [some raw]) := by
  simp only [userFrame, Offence, hookAfter]
  cases cfg.decode raw with
  | none => simp
  | some m =>
    simp only
    generalize cfg.userHook h m = r
    obtain ⟨h', m', res⟩ := r
    cases res with
    | skip => simp
    | error => simp
    | process =>
      cases m' with
      | direct r d => simp [Acceptable]
      | broadcast ts d =>
        simp only [Acceptable, ← prune_ok]
        split <;> simp_all
      | subscribe ts =>
        simp only [Acceptable, ← prune_ok]
        split <;> simp_all
      | unsubscribe ts =>
        simp only [Acceptable, ← prune_ok]
        split <;> simp_all
      | _ => simp [Acceptable]

theorem hookAfter_cons (cfg : Cfg B σ) (h : σ) (r : Option Bytes) (rs : List (Option Bytes)) :
    hookAfter cfg h (r :: rs) = hookAfter cfg (hookAfter cfg h [r]) rs := by
  cases r with
  | none => rfl
  | some raw => simp only [hookAfter]; cases cfg.decode raw <;> rfl

/-- **C17.** The receive loop of a user ends - and the user is then disconnected, with nothing
subscribed - exactly when some received item is an offence and everything before it was not; what
follows the offence has no effect. -/
theorem C17_disconnected_iff_offence (cfg : Cfg B σ) (s : Table B H) (h : σ) (u : Bytes)
    (rs : List (Recv B H)) :
    ((userLoop cfg s h u rs).running = false ↔
      ∃ pre r post, rs = pre ++ r :: post ∧
        (∀ p q x, pre = p ++ x :: q → ¬ Offence cfg (hookAfter cfg h (p.map (·.raw))) x.raw) ∧
        Offence cfg (hookAfter cfg h (pre.map (·.raw))) r.raw) ∧
    (∀ pre r post, rs = pre ++ r :: post →
      Offence cfg (hookAfter cfg h (pre.map (·.raw))) r.raw →
      userLoop cfg s h u rs = userLoop cfg s h u (pre ++ [r])) := by
  constructor
  · induction rs generalizing s h with
    | nil =>
      constructor
      · intro e; simp [userLoop] at e
      · rintro ⟨pre, r, post, e, _⟩; simp at e
    | cons r rs ih =>
      have hcons : ∀ (P : Prop), (P ↔ Offence cfg h r.raw ∨
          (¬ Offence cfg h r.raw ∧ ∃ pre r' post, rs = pre ++ r' :: post ∧
            (∀ p q x, pre = p ++ x :: q →
              ¬ Offence cfg (hookAfter cfg (hookAfter cfg h [r.raw]) (p.map (·.raw))) x.raw) ∧
            Offence cfg (hookAfter cfg (hookAfter cfg h [r.raw]) (pre.map (·.raw))) r'.raw)) →
          (P ↔ ∃ pre r' post, r :: rs = pre ++ r' :: post ∧
            (∀ p q x, pre = p ++ x :: q →
              ¬ Offence cfg (hookAfter cfg h (p.map (·.raw))) x.raw) ∧
            Offence cfg (hookAfter cfg h (pre.map (·.raw))) r'.raw) := by
        intro P hP
        rw [hP]
        constructor
        · rintro (ho | ⟨hn, pre, r', post, rfl, h1, h2⟩)
          · refine ⟨[], r, rs, rfl, ?_, ho⟩
            intro p q x e; simp at e
          · refine ⟨r :: pre, r', post, rfl, ?_, ?_⟩
            · intro p q x e
              cases p with
              | nil =>
                simp only [List.nil_append, List.cons.injEq] at e
                rw [← e.1]; exact hn
              | cons y p =>
                simp only [List.cons_append, List.cons.injEq] at e
                rw [List.map_cons, hookAfter_cons, ← e.1]
                exact h1 p q x e.2
            · rw [List.map_cons, hookAfter_cons]; exact h2
        · rintro ⟨pre, r', post, e, h1, h2⟩
          cases pre with
          | nil =>
            simp only [List.nil_append, List.cons.injEq] at e
            rw [← e.1] at h2; exact Or.inl h2
          | cons y pre =>
            simp only [List.cons_append, List.cons.injEq] at e
            obtain ⟨rfl, rfl⟩ := e
            refine Or.inr ⟨h1 [] pre r rfl, pre, r', post, rfl, ?_, ?_⟩
            · intro p q x e
              have := h1 (r :: p) q x (by rw [e]; rfl)
              rwa [List.map_cons, hookAfter_cons] at this
            · rwa [List.map_cons, hookAfter_cons] at h2
      apply hcons
      simp only [userLoop]
      cases hr : r.raw with
      | none => simp [Offence]
      | some raw =>
        obtain ⟨h1, h2⟩ := userFrame_ok cfg (s.run r.idle) h u raw r.sch
        simp only
        cases hok : (userFrame cfg (s.run r.idle) h u raw r.sch).ok with
        | false =>
          have := h1.1 hok
          simp [this]
        | true =>
          have hno : ¬ Offence cfg h (some raw) := fun ho => by
            have := h1.2 ho; rw [hok] at this; simp at this
          simp only [if_true, hno, false_or, not_false_eq_true, true_and]
          rw [ih, h2]
  · intro pre r post e ho
    subst e
    induction pre generalizing s h with
    | nil =>
      simp only [List.nil_append, List.map_nil, hookAfter] at ho ⊢
      simp only [userLoop]
      cases hr : r.raw with
      | none => rfl
      | some raw =>
        rw [hr] at ho
        have := (userFrame_ok cfg (s.run r.idle) h u raw r.sch).1.2 ho
        simp [this]
    | cons x pre ih =>
      simp only [List.cons_append, userLoop]
      cases hr : x.raw with
      | none => rfl
      | some raw =>
        rw [List.map_cons, hookAfter_cons, hr,
          ← (userFrame_ok cfg (s.run x.idle) h u raw x.sch).2] at ho
        simp only
        split
        · rw [ih _ _ ho]
        · rfl

/-- **C17**, effect of the end of the loop: afterwards the user has no connection and is interested in
nothing. -/
theorem C17_offender_removed (cfg : Cfg B σ) (id : B) (ops : List (TOp B H)) (h : σ) (u : Bytes)
    (rs : List (Recv B H))
    (hend : (userLoop cfg ((Conns.new id).run ops) h u rs).running = false) :
    let s' := (userLoop cfg ((Conns.new id).run ops) h u rs).table
    s'.getUserConnection u = none ∧ ∀ topics, ¬ UserInterested s' u topics := by
  have hi : ((Conns.new id).run ops : Table B H).IndexInv :=
    indexInv_run _ ⟨RMap.inv_new, RMap.inv_new⟩ ops
  generalize ((Conns.new id).run ops : Table B H) = s at *
  have hdrop : ∀ (s : Table B H) d, s.IndexInv → (drop s d).IndexInv := by
    intro s d hs
    cases d with
    | user u => exact indexInv_step s (.removeUser u) hs
    | broker b => exact indexInv_step s (.removeBroker b) hs
  have hsends : ∀ ds (s : Table B H) raw sch, s.IndexInv → (trySends s raw sch ds).1.IndexInv := by
    intro ds
    induction ds with
    | nil => intro s raw sch hs; exact hs
    | cons d ds ih =>
      intro s raw sch hs
      simp only [trySends]
      apply ih
      rw [trySend_eq]
      have h1 := indexInv_run s hs (sch 0).before
      cases connOf (Conns.run s (sch 0).before) d with
      | none => exact h1
      | some c =>
        simp only
        split
        · exact h1
        · exact hdrop _ _ (indexInv_run _ h1 _)
  have hframe : ∀ (s : Table B H) h raw sch, s.IndexInv →
      (userFrame cfg s h u raw sch).table.IndexInv := by
    intro s h raw sch hs
    unfold userFrame
    cases hd : cfg.decode raw with
    | none => exact hs
    | some m =>
      simp only
      generalize cfg.userHook h m = r
      obtain ⟨h', m', res⟩ := r
      cases res with
      | skip => exact hs
      | error => exact hs
      | process =>
        cases m' with
        | direct r d => exact hsends _ _ _ _ hs
        | broadcast ts d =>
          simp only
          split
          · exact hsends _ _ _ _ hs
          · exact hs
        | subscribe ts =>
          simp only
          split
          · exact indexInv_step s (.subscribeUser u _) hs
          · exact hs
        | unsubscribe ts =>
          simp only
          split
          · exact indexInv_step s (.unsubscribeUser u _) hs
          · exact hs
        | _ => exact hs
  have hrem : ∀ (s : Table B H), s.IndexInv → (s.removeUser u).getUserConnection u = none ∧
      ∀ topics, ¬ UserInterested (s.removeUser u) u topics := by
    intro s hs
    refine ⟨by simp [getUserConnection, removeUser_users_get], ?_⟩
    rintro topics ⟨t, _, ht⟩
    rw [RMap.mem_getKeysByValue, removeUser_bcUsers, RMap.bwd_removeKey hs.1] at ht
    exact ht.1 rfl
  intro s'
  have : ∀ (rs : List (Recv B H)) (s : Table B H) (h : σ), s.IndexInv →
      (userLoop cfg s h u rs).running = false →
      (userLoop cfg s h u rs).table.getUserConnection u = none ∧
      ∀ topics, ¬ UserInterested (userLoop cfg s h u rs).table u topics := by
    intro rs
    induction rs with
    | nil => intro s h _ e; simp [userLoop] at e
    | cons r rs ih =>
      intro s h hs e
      simp only [userLoop] at e ⊢
      have h1 := indexInv_run s hs r.idle
      cases hr : r.raw with
      | none => exact hrem _ h1
      | some raw =>
        simp only [hr] at e ⊢
        have h2 := hframe _ h raw r.sch h1
        split
        · rename_i hok
          rw [if_pos hok] at e
          exact ih _ _ h2 e
        · exact hrem _ h2
  exact this rs s h hi hend

/-- **C17**, skipped messages: a message the hook skips changes nothing and sends nothing. -/
theorem C17_skipped_no_effect (cfg : Cfg B σ) (s : Table B H) (h : σ) (u raw : Bytes) (sch : Sched B H)
    (m : Msg) (hd : cfg.decode raw = some m) (hs : (cfg.userHook h m).2.2 = .skip) :
    (userFrame cfg s h u raw sch).table = s ∧ (userFrame cfg s h u raw sch).sent = [] ∧
    (userFrame cfg s h u raw sch).ok = true := by
  unfold userFrame
  rw [hd]
  simp only [hs]
  exact ⟨trivial, trivial, trivial⟩

/-- A toy configuration for the examples: first byte selects the kind of message. -/
def demoCfg : Cfg Nat Nat where
  decode
    | 3 :: r => some (.direct r [])
    | 4 :: r => some (.broadcast r [])
    | 5 :: r => some (.subscribe r)
    | 6 :: r => some (.unsubscribe r)
    | 7 :: r => some (.userSync r)
    | _ => none
  decUserSync _ := none
  decTopicSync _ := none
  valid := testTopic
  userHook n m := (n + 1, m, if n = 2 then .skip else .process)
  brokerHook n m := (n, m, .process)

/-- Non-trivial instance of C15 and C17: subscribe, broadcast to self, a skipped subscribe to nothing
valid, then a broadcast without a valid topic, which ends the loop; the last frame is ignored. -/
example :
    let s : Table Nat Nat := (Conns.new 0).run [.addUser [1] 100 []]
    let frames : List Bytes := [[5, 1, 9], [4, 1], [5, 9], [4, 9], [4, 1]]
    let rs : List (Recv Nat Nat) := frames.map (fun f => ⟨[], some f, fun _ => ⟨[], true, []⟩⟩)
    let o := userLoop demoCfg s 0 [1] rs
    o.running = false ∧ o.sent.map (fun p => (p.1, p.2.map (·.bytes))) =
      [([5, 1, 9], []), ([4, 1], [[4, 1]]), ([5, 9], []), ([4, 9], [])] := by
  decide

end Verif.Props.Broker

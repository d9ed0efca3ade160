import Verif.Props.Broker
import Verif.Props.Prune

/-!
# C12–C16 at the level of received frames

`Verif.Props.Broker` speaks of handling a broadcast or a direct message; here the same is stated for one
frame received from a user or from a broker, decoding, hook, pruning and origin included.
-/

set_option linter.unusedSectionVars false

namespace Verif.Props.BrokerFrames
open Verif Verif.Conns Verif.Broker Verif.Props.Broker Verif.Props.Prune

variable {B H σ : Type} [DecidableEq B] [DecidableEq H] [LT B] [DecidableLT B]

/-- User `u'` is recorded as subscribed to one of the topics that the deployment knows. -/
def WantsKnown (cfg : Cfg B σ) (s : Table B H) (u' : Bytes) (topics : List Topic) : Prop :=
  ∃ t ∈ topics, cfg.valid t = true ∧ u' ∈ s.bcUsers.getKeysByValue t

/-- Broker `b` is recorded as interested in one of the topics that the deployment knows. -/
def BrokerWantsKnown (cfg : Cfg B σ) (s : Table B H) (b : B) (topics : List Topic) : Prop :=
  ∃ t ∈ topics, cfg.valid t = true ∧ b ∈ s.bcBrokers.getKeysByValue t

theorem interested_prune (cfg : Cfg B σ) (s : Table B H) (u' : Bytes) (topics : List Topic) :
    UserInterested s u' (prune cfg.valid topics).1 ↔ WantsKnown cfg s u' topics := by
  unfold UserInterested WantsKnown
  simp only [(C16_prune cfg.valid topics).2.2.1, and_assoc]

theorem brokerInterested_prune (cfg : Cfg B σ) (s : Table B H) (b : B) (topics : List Topic) :
    BrokerInterested s b (prune cfg.valid topics).1 ↔ BrokerWantsKnown cfg s b topics := by
  unfold BrokerInterested BrokerWantsKnown
  simp only [(C16_prune cfg.valid topics).2.2.1, and_assoc]

/-- A broadcast frame from a user: the connection is kept exactly if some topic is known; every connected
user subscribed to a known topic of the message gets one copy and nobody else does; every connected broker
interested in a known topic of the message gets one copy and no other does. -/
theorem C12_user_frame (cfg : Cfg B σ) (s : Table B H) (h : σ) (u raw : Bytes) (sch : Sched B H)
    (hq : Quiet sch) (m : Msg) (h' : σ) (topics : List Topic) (body : Bytes)
    (hd : cfg.decode raw = some m) (hh : cfg.userHook h m = (h', .broadcast topics body, .process)) :
    let o := userFrame cfg s h u raw sch
    (o.ok = true ↔ ∃ t ∈ topics, cfg.valid t = true) ∧
    (∀ u' c, s.getUserConnection u' = some c → WantsKnown cfg s u' topics →
      ∃ ok, copies o.sent (.user u') = [⟨.user u', c, raw, ok⟩]) ∧
    (∀ u', s.getUserConnection u' = none ∨ ¬ WantsKnown cfg s u' topics → copies o.sent (.user u') = []) ∧
    (∀ b c, s.getBrokerConnection b = some c → BrokerWantsKnown cfg s b topics →
      ∃ ok, copies o.sent (.broker b) = [⟨.broker b, c, raw, ok⟩]) ∧
    (∀ b, s.getBrokerConnection b = none ∨ ¬ BrokerWantsKnown cfg s b topics →
      copies o.sent (.broker b) = []) := by
  intro o
  have hp := (C16_prune cfg.valid topics).1
  by_cases hv : (prune cfg.valid topics).2 = true
  · have ho : o.sent = (handleBroadcast s (prune cfg.valid topics).1 raw false sch).2 ∧ o.ok = true := by
      simp only [o, userFrame, hd, hh, hv, if_true, and_self]
    obtain ⟨h1, h2, h3, h4⟩ := C12_broadcast_exact s (prune cfg.valid topics).1 raw false sch hq
    simp only [interested_prune, brokerInterested_prune] at h1 h2 h3 h4
    rw [ho.1, ho.2]
    refine ⟨?_, h1, h2, fun b c hb hi => h3 b c hb hi trivial, fun b hb => h4 b ?_⟩
    · simp only [true_iff]
      refine Classical.byContradiction fun hn => ?_
      have : (prune cfg.valid topics).2 = false := hp.2 fun t ht => by
        cases hvt : cfg.valid t with
        | false => rfl
        | true => exact absurd ⟨t, ht, hvt⟩ hn
      rw [this] at hv; cases hv
    · rcases hb with hb | hb
      · exact Or.inl hb
      · exact Or.inr (Or.inl hb)
  · have hv' : (prune cfg.valid topics).2 = false := by simpa using hv
    have hnone := hp.1 hv'
    have ho : o.sent = [] ∧ o.ok = false := by
      simp only [o, userFrame, hd, hh, hv', Bool.false_eq_true, if_false, and_self]
    rw [ho.1, ho.2]
    refine ⟨?_, ?_, fun _ _ => rfl, ?_, fun _ _ => rfl⟩
    · simp only [Bool.false_eq_true, false_iff]
      rintro ⟨t, ht, hvt⟩
      rw [hnone t ht] at hvt; cases hvt
    · rintro u' c - ⟨t, ht, hvt, -⟩
      rw [hnone t ht] at hvt; cases hvt
    · rintro b c - ⟨t, ht, hvt, -⟩
      rw [hnone t ht] at hvt; cases hvt

/-- A broadcast frame from a broker: the connection is kept; every connected user subscribed to a topic of
the message gets one copy, nobody else does, and no broker gets one. -/
theorem C12_broker_frame (cfg : Cfg B σ) (s : Table B H) (h : σ) (from' : B) (raw : Bytes) (sch : Sched B H)
    (hq : Quiet sch) (m : Msg) (h' : σ) (topics : List Topic) (body : Bytes)
    (hd : cfg.decode raw = some m) (hh : cfg.brokerHook h m = (h', .broadcast topics body, .process)) :
    let o := brokerFrame cfg s h from' raw sch
    o.ok = true ∧
    (∀ u' c, s.getUserConnection u' = some c → UserInterested s u' topics →
      ∃ ok, copies o.sent (.user u') = [⟨.user u', c, raw, ok⟩]) ∧
    (∀ u', s.getUserConnection u' = none ∨ ¬ UserInterested s u' topics → copies o.sent (.user u') = []) ∧
    (∀ b, copies o.sent (.broker b) = []) := by
  intro o
  have ho : o.sent = (handleBroadcast s topics raw true sch).2 ∧ o.ok = true := by
    simp only [o, brokerFrame, hd, hh, and_self]
  obtain ⟨h1, h2, -, h4⟩ := C12_broadcast_exact s topics raw true sch hq
  rw [ho.1, ho.2]
  exact ⟨rfl, h1, h2, fun b => h4 b (Or.inr (Or.inr rfl))⟩

/-- A direct frame from a user, in any reachable state: one send to the recipient if connected here,
otherwise one to the broker recorded for them if connected, otherwise none; the connection is kept. -/
theorem C13_user_frame (cfg : Cfg B σ) (id : B) (ops : List (TOp B H)) (h : σ) (u raw : Bytes)
    (sch : Sched B H) (hq : Quiet sch) (m : Msg) (h' : σ) (recipient body : Bytes)
    (hd : cfg.decode raw = some m) (hh : cfg.userHook h m = (h', .direct recipient body, .process)) :
    let s := (Conns.new id).run ops
    let o := userFrame cfg s h u raw sch
    o.ok = true ∧ o.sent =
      match s.getUserConnection recipient with
      | some c => [⟨.user recipient, c, raw, (sch 0).ok⟩]
      | none =>
        match s.getBrokerOfUser recipient with
        | none => []
        | some b =>
          match s.getBrokerConnection b with
          | none => []
          | some c => [⟨.broker b, c, raw, (sch 0).ok⟩] := by
  intro s o
  have ho : o.sent = (handleDirect s recipient raw false sch).2 ∧ o.ok = true := by
    simp only [o, userFrame, hd, hh, and_self]
  rw [ho.1, ho.2, C13_direct_exact id ops recipient raw false sch hq]
  exact ⟨rfl, rfl⟩

/-- A direct frame from a broker: one send to the recipient if connected here, otherwise none. -/
theorem C13_broker_frame (cfg : Cfg B σ) (id : B) (ops : List (TOp B H)) (h : σ) (from' : B) (raw : Bytes)
    (sch : Sched B H) (hq : Quiet sch) (m : Msg) (h' : σ) (recipient body : Bytes)
    (hd : cfg.decode raw = some m) (hh : cfg.brokerHook h m = (h', .direct recipient body, .process)) :
    let s := (Conns.new id).run ops
    let o := brokerFrame cfg s h from' raw sch
    o.ok = true ∧ o.sent =
      match s.getUserConnection recipient with
      | some c => [⟨.user recipient, c, raw, (sch 0).ok⟩]
      | none => [] := by
  intro s o
  have ho : o.sent = (handleDirect s recipient raw true sch).2 ∧ o.ok = true := by
    simp only [o, brokerFrame, hd, hh, and_self]
  rw [ho.1, ho.2, C13_direct_exact id ops recipient raw true sch hq]
  exact ⟨rfl, rfl⟩

/-- Nothing a broker sends us is forwarded to a broker, whatever the hook makes of it and whatever happens
in between. -/
theorem C14_never_forwarded_again (cfg : Cfg B σ) (s : Table B H) (h : σ) (from' : B) (raw : Bytes)
    (sch : Sched B H) : ∀ x ∈ (brokerFrame cfg s h from' raw sch).sent, ∃ u, x.dest = .user u := by
  intro x hx
  unfold brokerFrame at hx
  split at hx
  · cases hx
  · simp only at hx
    split at hx
    · cases hx
    · cases hx
    · split at hx
      · rename_i recipient _ _
        have hm := (mem_trySends hx).1
        unfold directDests at hm
        split at hm
        · cases hm
        · split at hm
          · exact ⟨_, List.mem_singleton.1 hm⟩
          · cases hm
      · rename_i topics _ _
        have hm := (mem_trySends hx).1
        cases hd : x.dest with
        | user u => exact ⟨u, rfl⟩
        | broker b =>
          rw [hd] at hm
          have := ((broker_mem_broadcastDests s topics true b).1 hm).1
          cases this
      · split at hx <;> cases hx
      · split at hx <;> cases hx
      · cases hx

/-- The routing used by the network model (C14, C18–C20) is that of the receive loops. -/
theorem C14_routing_is_the_loops (cfg : Cfg B σ) (s : Table B H) (h : σ) (u raw : Bytes) (b : B)
    (sch : Sched B H) :
    ((userFrame cfg s h u raw sch).sent = (trySends s raw sch (userRoute cfg s h raw).2.1).2 ∧
     (userFrame cfg s h u raw sch).hook = (userRoute cfg s h raw).1 ∧
     (userFrame cfg s h u raw sch).ok = (userRoute cfg s h raw).2.2) ∧
    ((brokerFrame cfg s h b raw sch).sent = (trySends s raw sch (brokerRoute cfg s h raw).2.1).2 ∧
     (brokerFrame cfg s h b raw sch).hook = (brokerRoute cfg s h raw).1 ∧
     (brokerFrame cfg s h b raw sch).ok = (brokerRoute cfg s h raw).2.2) :=
  ⟨userFrame_route cfg s h u raw sch, brokerFrame_route cfg s h b raw sch⟩

/-- A subscribe frame adds exactly the known topics it lists; without a known topic the connection ends and
nothing changes. -/
theorem C16_subscribe_frame (cfg : Cfg B σ) (s : Table B H) (h : σ) (u raw : Bytes) (sch : Sched B H)
    (m : Msg) (h' : σ) (topics : List Topic) (hd : cfg.decode raw = some m)
    (hh : cfg.userHook h m = (h', .subscribe topics, .process)) :
    let o := userFrame cfg s h u raw sch
    (o.ok = true ↔ ∃ t ∈ topics, cfg.valid t = true) ∧ (o.ok = false → o.table = s) ∧ o.sent = [] ∧
    ∀ u' t, u' ∈ o.table.bcUsers.getKeysByValue t ↔
      u' ∈ s.bcUsers.getKeysByValue t ∨ u' = u ∧ t ∈ topics ∧ cfg.valid t = true := by
  intro o
  have hp := C16_prune cfg.valid topics
  by_cases hv : (prune cfg.valid topics).2 = true
  · have ho : o.table = s.subscribeUser u (prune cfg.valid topics).1 ∧ o.ok = true ∧ o.sent = [] := by
      simp only [o, userFrame, hd, hh, hv, if_true, and_self]
    rw [ho.1, ho.2.1, ho.2.2]
    refine ⟨?_, (by simp), rfl, ?_⟩
    · simp only [true_iff]
      refine Classical.byContradiction fun hn => ?_
      have : (prune cfg.valid topics).2 = false := hp.1.2 fun t ht => by
        cases hvt : cfg.valid t with
        | false => rfl
        | true => exact absurd ⟨t, ht, hvt⟩ hn
      rw [this] at hv; cases hv
    · intro u' t
      simp only [subscribeUser, RMap.mem_getKeysByValue, RMap.bwd_associate, hp.2.2.1]
      exact or_comm
  · have hv' : (prune cfg.valid topics).2 = false := by simpa using hv
    have hnone := hp.1.1 hv'
    have ho : o.table = s ∧ o.ok = false ∧ o.sent = [] := by
      simp only [o, userFrame, hd, hh, hv', Bool.false_eq_true, if_false, and_self]
    rw [ho.1, ho.2.1, ho.2.2]
    refine ⟨?_, fun _ => rfl, rfl, ?_⟩
    · simp only [Bool.false_eq_true, false_iff]
      rintro ⟨t, ht, hvt⟩
      rw [hnone t ht] at hvt; cases hvt
    · intro u' t
      constructor
      · exact Or.inl
      · rintro (h | ⟨-, ht, hvt⟩)
        · exact h
        · rw [hnone t ht] at hvt; cases hvt

/-- An unsubscribe frame removes exactly the known topics it lists. -/
theorem C16_unsubscribe_frame (cfg : Cfg B σ) (s : Table B H) (h : σ) (u raw : Bytes) (sch : Sched B H)
    (m : Msg) (h' : σ) (topics : List Topic) (hd : cfg.decode raw = some m)
    (hh : cfg.userHook h m = (h', .unsubscribe topics, .process)) :
    let o := userFrame cfg s h u raw sch
    (o.ok = true ↔ ∃ t ∈ topics, cfg.valid t = true) ∧ (o.ok = false → o.table = s) ∧ o.sent = [] ∧
    ∀ u' t, u' ∈ o.table.bcUsers.getKeysByValue t ↔
      u' ∈ s.bcUsers.getKeysByValue t ∧ ¬ (u' = u ∧ t ∈ topics ∧ cfg.valid t = true) := by
  intro o
  have hp := C16_prune cfg.valid topics
  by_cases hv : (prune cfg.valid topics).2 = true
  · have ho : o.table = s.unsubscribeUser u (prune cfg.valid topics).1 ∧ o.ok = true ∧ o.sent = [] := by
      simp only [o, userFrame, hd, hh, hv, if_true, and_self]
    rw [ho.1, ho.2.1, ho.2.2]
    refine ⟨?_, (by simp), rfl, ?_⟩
    · simp only [true_iff]
      refine Classical.byContradiction fun hn => ?_
      have : (prune cfg.valid topics).2 = false := hp.1.2 fun t ht => by
        cases hvt : cfg.valid t with
        | false => rfl
        | true => exact absurd ⟨t, ht, hvt⟩ hn
      rw [this] at hv; cases hv
    · intro u' t
      simp only [unsubscribeUser, RMap.mem_getKeysByValue, RMap.bwd_dissociate, hp.2.2.1]
      constructor
      · rintro ⟨h1, h2⟩
        exact ⟨by first | exact h1 | exact h2, by first | exact h2 | exact h1⟩
      · rintro ⟨h1, h2⟩
        exact ⟨by first | exact h1 | exact h2, by first | exact h2 | exact h1⟩
  · have hv' : (prune cfg.valid topics).2 = false := by simpa using hv
    have hnone := hp.1.1 hv'
    have ho : o.table = s ∧ o.ok = false ∧ o.sent = [] := by
      simp only [o, userFrame, hd, hh, hv', Bool.false_eq_true, if_false, and_self]
    rw [ho.1, ho.2.1, ho.2.2]
    refine ⟨?_, fun _ => rfl, rfl, ?_⟩
    · simp only [Bool.false_eq_true, false_iff]
      rintro ⟨t, ht, hvt⟩
      rw [hnone t ht] at hvt; cases hvt
    · intro u' t
      constructor
      · intro h
        refine ⟨h, ?_⟩
        rintro ⟨-, ht, hvt⟩
        rw [hnone t ht] at hvt; cases hvt
      · exact fun h => h.1

/-- A configuration for examples: `[b, t]` is a broadcast with topic `t` (and topic 200), 200 unknown. -/
def demoCfg : Cfg Nat Unit where
  decode raw := match raw with
    | [0, t] => some (.broadcast [200, t] [])
    | [1, u] => some (.direct [u] [])
    | [2, t] => some (.subscribe [t, 200])
    | _ => none
  valid t := t < 100
  userHook h m := (h, m, .process)
  brokerHook h m := (h, m, .process)
  decUserSync _ := none
  decTopicSync _ := none

/-- The hypotheses are met and the outcome is not trivial: user 1 subscribes to 5 and (in vain) 200. -/
example :
    let s : Table Nat Nat := (Conns.new 0).run [.addUser [1] 100 [], .addUser [2] 101 [5]]
    let sch : Sched Nat Nat := fun _ => ⟨[], true, []⟩
    let s1 := (userFrame demoCfg s () [1] [2, 5] sch).table
    (∀ c ∈ (userFrame demoCfg s1 () [2] [0, 5] sch).sent.map (·.conn), c ∈ [100, 101]) ∧
    (userFrame demoCfg s1 () [2] [0, 5] sch).sent.length = 2 ∧
    (userFrame demoCfg s1 () [2] [0, 150] sch).ok = false ∧
    ((brokerFrame demoCfg s1 () 9 [1, 2] sch).sent.map (·.conn)) = [101] := by
  decide +kernel

end Verif.Props.BrokerFrames

import Verif.Model.Broker
import Verif.Lemmas.Connections

/-!
# Lemmas about message handling
-/

set_option linter.unusedSectionVars false

namespace Verif.Broker
open Verif Verif.Conns

variable {B H : Type} [DecidableEq B] [DecidableEq H] [LT B] [DecidableLT B]

/-- The connection currently registered for a destination. -/
def connOf (s : Table B H) : Dest B → Option H
  | .user u => s.getUserConnection u
  | .broker b => s.getBrokerConnection b

/-- The removal a failed send causes. -/
def drop (s : Table B H) : Dest B → Table B H
  | .user u => s.removeUser u
  | .broker b => s.removeBroker b

theorem trySend_eq (s : Table B H) (d : Dest B) (bytes : Bytes) (tn : Turn B H) :
    trySend s d bytes tn =
      match connOf (s.run tn.before) d with
      | none => (s.run tn.before, [])
      | some c =>
        if tn.ok then (s.run tn.before, [⟨d, c, bytes, true⟩])
        else (drop ((s.run tn.before).run tn.between) d, [⟨d, c, bytes, false⟩]) := by
  cases d <;> rfl

theorem connOf_drop (s : Table B H) (d d' : Dest B) (h : d ≠ d') :
    connOf (drop s d) d' = connOf s d' := by
  cases d with
  | user u =>
    cases d' with
    | user u' =>
      have : u ≠ u' := fun e => h (by rw [e])
      simp [connOf, drop, getUserConnection, removeUser_users_get, this]
    | broker b => simp [connOf, drop, getBrokerConnection]
  | broker b =>
    cases d' with
    | user u' => simp [connOf, drop, getUserConnection]
    | broker b' =>
      have : b ≠ b' := fun e => h (by rw [e])
      simp [connOf, drop, getBrokerConnection, removeBroker_brokers_get, this]

theorem connOf_drop_self (s : Table B H) (d : Dest B) : connOf (drop s d) d = none := by
  cases d with
  | user u => simp [connOf, drop, getUserConnection, removeUser_users_get]
  | broker b => simp [connOf, drop, getBrokerConnection, removeBroker_brokers_get]

/-- A list of calls by other tasks never changes the registered connection of `d`. -/
def Keeps (d : Dest B) (ops : List (TOp B H)) : Prop :=
  ∀ op ∈ ops, ∀ s : Table B H, connOf (s.step op) d = connOf s d

theorem Keeps.run {d : Dest B} {ops : List (TOp B H)} (h : Keeps d ops) (s : Table B H) :
    connOf (s.run ops) d = connOf s d := by
  induction ops generalizing s with
  | nil => rfl
  | cons op ops ih =>
    rw [run_cons, ih (fun o ho => h o (by simp [ho])), h op (by simp)]

theorem keeps_nil (d : Dest B) : Keeps d ([] : List (TOp B H)) := by
  intro op h; simp at h

theorem trySend_conn_other (s : Table B H) (d d' : Dest B) (bytes : Bytes) (tn : Turn B H)
    (h : d ≠ d') (h1 : Keeps d' tn.before) (h2 : Keeps d' tn.between) :
    connOf (trySend s d bytes tn).1 d' = connOf s d' := by
  rw [trySend_eq]
  cases connOf (s.run tn.before) d with
  | none => exact h1.run s
  | some c =>
    simp only
    split
    · exact h1.run s
    · show connOf (drop _ d) d' = _
      rw [connOf_drop _ _ _ h, h2.run, h1.run]

/-- The copies addressed to `d`. -/
def copies (sent : List (Sent B H)) (d : Dest B) : List (Sent B H) :=
  sent.filter (fun x => decide (x.dest = d))

theorem copies_append (a b : List (Sent B H)) (d : Dest B) :
    copies (a ++ b) d = copies a d ++ copies b d := List.filter_append ..

theorem trySend_sent (s : Table B H) (d : Dest B) (bytes : Bytes) (tn : Turn B H) :
    (trySend s d bytes tn).2 =
      match connOf (s.run tn.before) d with
      | none => []
      | some c => [⟨d, c, bytes, tn.ok⟩] := by
  rw [trySend_eq]
  cases connOf (s.run tn.before) d with
  | none => rfl
  | some c => simp only; cases tn.ok <;> rfl

theorem mem_trySends {s : Table B H} {bytes : Bytes} {sch : Sched B H} {ds : List (Dest B)}
    {x : Sent B H} (h : x ∈ (trySends s bytes sch ds).2) : x.dest ∈ ds ∧ x.bytes = bytes := by
  induction ds generalizing s sch with
  | nil => simp [trySends] at h
  | cons d ds ih =>
    simp only [trySends, List.mem_append] at h
    rcases h with h | h
    · rw [trySend_sent] at h
      cases hc : connOf (s.run (sch 0).before) d with
      | none => rw [hc] at h; simp at h
      | some c =>
        rw [hc] at h
        simp only [List.mem_singleton] at h
        subst h; simp
    · have := ih h
      exact ⟨List.mem_cons_of_mem _ this.1, this.2⟩

theorem copies_nil_of_not_mem (s : Table B H) (bytes : Bytes) (sch : Sched B H) (ds : List (Dest B))
    (d : Dest B) (h : d ∉ ds) : copies (trySends s bytes sch ds).2 d = [] := by
  unfold copies
  rw [List.filter_eq_nil_iff]
  intro x hx he
  simp only [decide_eq_true_eq] at he
  exact h (he ▸ (mem_trySends hx).1)

theorem copies_le_one (s : Table B H) (bytes : Bytes) (sch : Sched B H) (ds : List (Dest B))
    (hnd : ds.Nodup) (d : Dest B) : (copies (trySends s bytes sch ds).2 d).length ≤ 1 := by
  induction ds generalizing s sch with
  | nil => simp [trySends, copies]
  | cons d' ds ih =>
    rw [List.nodup_cons] at hnd
    simp only [trySends]
    rw [copies_append, List.length_append]
    by_cases hd : d' = d
    · subst hd
      rw [copies_nil_of_not_mem _ _ _ _ _ hnd.1, trySend_sent]
      cases connOf (s.run (sch 0).before) d' with
      | none => simp [copies]
      | some c => simp [copies]
    · have : copies (trySend s d' bytes (sch 0)).2 d = [] := by
        rw [trySend_sent]
        cases connOf (s.run (sch 0).before) d' with
        | none => simp [copies]
        | some c => simp [copies, hd]
      rw [this]
      simpa using ih _ _ hnd.2

/-- If other tasks leave the registration of `d` alone, `d` gets exactly one copy when it is among the
destinations and connected, none otherwise - no matter which sends fail. -/
theorem copies_trySends (s : Table B H) (bytes : Bytes) (sch : Sched B H) (ds : List (Dest B))
    (hnd : ds.Nodup) (d : Dest B)
    (hk : ∀ n, Keeps d (sch n).before ∧ Keeps d (sch n).between) :
    (∀ c, d ∈ ds → connOf s d = some c →
      ∃ ok, copies (trySends s bytes sch ds).2 d = [⟨d, c, bytes, ok⟩]) ∧
    (d ∉ ds ∨ connOf s d = none → copies (trySends s bytes sch ds).2 d = []) := by
  induction ds generalizing s sch with
  | nil => simp [trySends, copies]
  | cons d' ds ih =>
    rw [List.nodup_cons] at hnd
    simp only [trySends]
    rw [copies_append]
    by_cases hd : d' = d
    · subst hd
      rw [copies_nil_of_not_mem _ _ _ _ _ hnd.1, trySend_sent, (hk 0).1.run]
      constructor
      · intro c _ hc
        rw [hc]; exact ⟨(sch 0).ok, by simp [copies]⟩
      · intro h
        rcases h with h | h
        · simp at h
        · rw [h]; simp [copies]
    · have hnil : copies (trySend s d' bytes (sch 0)).2 d = [] := by
        rw [trySend_sent]
        cases connOf (s.run (sch 0).before) d' with
        | none => simp [copies]
        | some c => simp [copies, hd]
      have hrec := ih (trySend s d' bytes (sch 0)).1 (fun n => sch (n + 1)) hnd.2
        (fun n => hk (n + 1))
      rw [trySend_conn_other _ _ _ _ _ hd (hk 0).1 (hk 0).2] at hrec
      rw [hnil, List.nil_append]
      have hm : d ∈ d' :: ds ↔ d ∈ ds := by
        rw [List.mem_cons]; exact ⟨fun h => h.resolve_left (fun e => hd e.symm), Or.inr⟩
      rw [hm]
      exact hrec

theorem nodup_broadcastDests (s : Table B H) (topics : List Topic) (o : Bool) :
    (broadcastDests s topics o).Nodup := by
  obtain ⟨_, _, h1, h2⟩ := mem_interested s topics o
  unfold broadcastDests
  simp only
  rw [List.nodup_append]
  refine ⟨?_, ?_, ?_⟩
  · exact List.Pairwise.map _ (fun a b h e => h (by cases e; rfl)) h1
  · exact List.Pairwise.map _ (fun a b h e => h (by cases e; rfl)) h2
  · intro a ha b hb e
    subst e
    rw [List.mem_map] at ha hb
    obtain ⟨x, _, rfl⟩ := ha
    obtain ⟨y, _, h⟩ := hb
    simp at h

theorem user_mem_broadcastDests (s : Table B H) (topics : List Topic) (o : Bool) (u : Bytes) :
    Dest.user u ∈ broadcastDests s topics o ↔ ∃ t ∈ topics, u ∈ s.bcUsers.getKeysByValue t := by
  unfold broadcastDests
  simp only [List.mem_append, List.mem_map, Dest.user.injEq, exists_eq_right, reduceCtorEq, and_false,
    exists_false, false_or]
  rw [(mem_interested s topics o).1]
  simp only [RMap.mem_getKeysByValue]

theorem broker_mem_broadcastDests (s : Table B H) (topics : List Topic) (o : Bool) (b : B) :
    Dest.broker b ∈ broadcastDests s topics o ↔
      o = false ∧ ∃ t ∈ topics, b ∈ s.bcBrokers.getKeysByValue t := by
  unfold broadcastDests
  simp only [List.mem_append, List.mem_map, Dest.broker.injEq, exists_eq_right, reduceCtorEq,
    and_false, exists_false, or_false]
  rw [(mem_interested s topics o).2.1]
  simp only [RMap.mem_getKeysByValue]

variable {σ : Type}

/-- `userFrame` forwards exactly to the destinations given by `userRoute`, one after the other. -/
theorem userFrame_route (cfg : Cfg B σ) (s : Table B H) (h : σ) (u raw : Bytes) (sch : Sched B H) :
    (userFrame cfg s h u raw sch).sent = (trySends s raw sch (userRoute cfg s h raw).2.1).2 ∧
    (userFrame cfg s h u raw sch).hook = (userRoute cfg s h raw).1 ∧
    (userFrame cfg s h u raw sch).ok = (userRoute cfg s h raw).2.2 := by
  unfold userFrame userRoute
  cases cfg.decode raw with
  | none => exact ⟨rfl, rfl, rfl⟩
  | some m =>
    simp only
    generalize cfg.userHook h m = r
    obtain ⟨h', m', res⟩ := r
    cases res with
    | skip => exact ⟨rfl, rfl, rfl⟩
    | error => exact ⟨rfl, rfl, rfl⟩
    | process =>
      cases m' with
      | direct r d => exact ⟨rfl, rfl, rfl⟩
      | broadcast ts d =>
        simp only
        split <;> exact ⟨rfl, rfl, rfl⟩
      | subscribe ts =>
        simp only
        split
        · rename_i h; exact ⟨rfl, rfl, h.symm⟩
        · rename_i h; exact ⟨rfl, rfl, by simpa using h⟩
      | unsubscribe ts =>
        simp only
        split
        · rename_i h; exact ⟨rfl, rfl, h.symm⟩
        · rename_i h; exact ⟨rfl, rfl, by simpa using h⟩
      | _ => exact ⟨rfl, rfl, rfl⟩

/-- `brokerFrame` forwards exactly to the destinations given by `brokerRoute`, one after the other. -/
theorem brokerFrame_route (cfg : Cfg B σ) (s : Table B H) (h : σ) (b : B) (raw : Bytes)
    (sch : Sched B H) :
    (brokerFrame cfg s h b raw sch).sent = (trySends s raw sch (brokerRoute cfg s h raw).2.1).2 ∧
    (brokerFrame cfg s h b raw sch).hook = (brokerRoute cfg s h raw).1 ∧
    (brokerFrame cfg s h b raw sch).ok = (brokerRoute cfg s h raw).2.2 := by
  unfold brokerFrame brokerRoute
  cases cfg.decode raw with
  | none => exact ⟨rfl, rfl, rfl⟩
  | some m =>
    simp only
    generalize cfg.brokerHook h m = r
    obtain ⟨h', m', res⟩ := r
    cases res with
    | skip => exact ⟨rfl, rfl, rfl⟩
    | error => exact ⟨rfl, rfl, rfl⟩
    | process =>
      cases m' with
      | direct r d => exact ⟨rfl, rfl, rfl⟩
      | broadcast ts d => exact ⟨rfl, rfl, rfl⟩
      | userSync d => simp only; cases cfg.decUserSync d <;> exact ⟨rfl, rfl, rfl⟩
      | topicSync d => simp only; cases cfg.decTopicSync d <;> exact ⟨rfl, rfl, rfl⟩
      | _ => exact ⟨rfl, rfl, rfl⟩

/-- A frame from a broker is never forwarded to a broker. -/
theorem brokerRoute_users_only (cfg : Cfg B σ) (s : Table B H) (h : σ) (raw : Bytes) (b : B) :
    Dest.broker b ∉ (brokerRoute cfg s h raw).2.1 := by
  unfold brokerRoute
  cases cfg.decode raw with
  | none => simp
  | some m =>
    simp only
    generalize cfg.brokerHook h m = r
    obtain ⟨h', m', res⟩ := r
    cases res with
    | skip => simp
    | error => simp
    | process =>
      cases m' with
      | direct r d =>
        simp only [directDests]
        cases s.getBrokerOfUser r with
        | none => simp
        | some b' => simp only; split <;> simp
      | broadcast ts d =>
        simp only
        rw [broker_mem_broadcastDests]; simp
      | _ => simp

end Verif.Broker

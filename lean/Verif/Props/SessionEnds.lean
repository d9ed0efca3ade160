import Verif.Props.Sessions
import Verif.Props.Broker

/-!
# Property C70: peers that misbehave or cannot be reached are disconnected, and only they
-/

set_option linter.unusedSectionVars false

namespace Verif.Props.SessionEnds
open Verif Verif.Broker Verif.Conns Verif.Sessions Verif.Props.Broker

variable {B σ : Type} [DecidableEq B] [LT B] [DecidableLT B]

/-- The reasons to end the connection of a broker that sent this. -/
def BrokerOffence (cfg : Cfg B σ) (h : σ) (raw : Bytes) : Prop :=
  match cfg.decode raw with
  | none => True
  | some m =>
    (cfg.brokerHook h m).2.2 = .error ∨
    ((cfg.brokerHook h m).2.2 = .process ∧
      ((∃ d, (cfg.brokerHook h m).2.1 = .userSync d ∧ cfg.decUserSync d = none) ∨
       (∃ d, (cfg.brokerHook h m).2.1 = .topicSync d ∧ cfg.decTopicSync d = none)))

/-- The reasons to end a connection, for both kinds of peers. -/
def Refused (cfg : Cfg B σ) (h : σ) (raw : Bytes) : Who B → Prop
  | .user _ _ => Offence cfg h (some raw)
  | .broker _ => BrokerOffence cfg h raw

theorem act_fail_iff (cfg : Cfg B σ) (h : σ) (raw : Bytes) (w : Who B) :
    (act cfg h raw w).2 = .fail ↔ Refused cfg h raw w := by
  cases w with
  | user key topics =>
    simp only [act, userAct, Refused, Offence]
    cases cfg.decode raw with
    | none => simp
    | some m =>
      dsimp only
      cases (cfg.userHook h m).2.2 with
      | skip => simp
      | error => simp
      | process =>
        dsimp only
        cases hm : (cfg.userHook h m).2.1 with
        | broadcast ts p =>
          simp only [Acceptable, ← prune_ok]
          by_cases hp : (prune cfg.valid ts).2 = true <;> simp [hp]
        | subscribe ts =>
          simp only [Acceptable, ← prune_ok]
          by_cases hp : (prune cfg.valid ts).2 = true <;> simp [hp]
        | unsubscribe ts =>
          simp only [Acceptable, ← prune_ok]
          by_cases hp : (prune cfg.valid ts).2 = true <;> simp [hp]
        | _ => simp [Acceptable]
  | broker id =>
    simp only [act, brokerAct, Refused, BrokerOffence]
    cases cfg.decode raw with
    | none => simp
    | some m =>
      dsimp only
      cases (cfg.brokerHook h m).2.2 with
      | skip => simp
      | error => simp
      | process =>
        dsimp only
        cases hm : (cfg.brokerHook h m).2.1 with
        | userSync d => cases hd : cfg.decUserSync d <;> simp [hd]
        | topicSync d => cases hd : cfg.decTopicSync d <;> simp [hd]
        | _ => simp

/-- **C70**: a frame ends the receive loop of a running session exactly if it is a reason to (for a user: it does not
decode, the hook returns an error, or it is not acceptable; for a broker: it does not decode, the hook returns an error,
or it is a sync that does not decode); and then the frame has changed nothing else. -/
theorem C70_loop_ends_iff (cfg : Cfg B σ) (s s' : St B σ) (i : Nat) (raw : Bytes) (os : List (TOp B Nat)) (x : Sess B σ)
    (hx : s.sess[i]? = some x) (h : Step cfg s (.frame i raw) os s') :
    ∃ x', s'.sess[i]? = some x' ∧ (x'.l = .failed ↔ Refused cfg x.hook raw x.who) ∧
      (x'.l = .failed → s'.table = s.table ∧ os = [] ∧ ∀ j, j ≠ i → s'.sess[j]? = s.sess[j]?) := by
  have hi : i < s.sess.length := (List.getElem?_eq_some_iff.1 hx).1
  rw [← act_fail_iff]
  cases h with
  | frameOp _ y hy hl _ hk o ha =>
    rw [hx] at hy
    cases hy
    refine ⟨{ x with hook := hk }, by simp [hi], ?_, ?_⟩
    · rw [ha]; simp [hl]
    · simp [hl]
  | frameIdle _ y hy hl _ hk ha =>
    rw [hx] at hy
    cases hy
    refine ⟨{ x with hook := hk }, by simp [hi], ?_, ?_⟩
    · rw [ha]; simp [hl]
    · simp [hl]
  | frameFail _ y hy hl _ hk ha =>
    rw [hx] at hy
    cases hy
    refine ⟨{ x with hook := hk, l := .failed }, by simp [hi], ?_, ?_⟩
    · rw [ha]; simp
    · intro _
      refine ⟨rfl, rfl, fun j hj => ?_⟩
      simp [List.getElem?_set_ne (fun e => hj e.symm)]

/-- A step that disconnects a peer: its receive loop has failed, a send to it has failed, or it is kicked. -/
def Disconnects (s : St B σ) : Lab B → Dest B → Prop
  | .remove i, d => ∃ x, s.sess[i]? = some x ∧ d = match x.who with | .user key _ => .user key | .broker b => .broker b
  | .sendRemove d', d => d = d'
  | .kick u, d => d = .user u
  | _, _ => False

theorem delDest_spec (t : Table B Nat) (d : Dest B) :
    lookup (t.step (delDest d)) d = none ∧ (∀ i, lookup t d = some i → i ∈ (t.step (delDest d)).aborted) ∧
    ∀ d', d' ≠ d → lookup (t.step (delDest d)) d' = lookup t d' := by
  cases d with
  | user u =>
    refine ⟨?_, ?_, ?_⟩
    · show (t.removeUser u).users.get u = none
      rw [removeUser_users_get, if_pos rfl]
    · intro i hi
      have hi : t.users.get u = some i := hi
      show i ∈ (t.removeUser u).aborted
      rw [removeUser_aborted, hi]
      simp
    · intro d' hd
      cases d' with
      | user u' =>
        show (t.removeUser u).users.get u' = t.users.get u'
        have hne : u ≠ u' := by rintro rfl; exact hd rfl
        rw [removeUser_users_get, if_neg hne]
      | broker b' =>
        show ((t.removeUser u).brokers.get b').map _ = (t.brokers.get b').map _
        rw [removeUser_brokers]
  | broker b =>
    refine ⟨?_, ?_, ?_⟩
    · show ((t.removeBroker b).brokers.get b).map _ = none
      rw [removeBroker_brokers_get, if_pos rfl]
      rfl
    · intro i hi
      have hi : (t.brokers.get b).map (fun e => e.handle) = some i := hi
      show i ∈ (t.removeBroker b).aborted
      rw [removeBroker_aborted]
      cases hb : t.brokers.get b with
      | none => rw [hb] at hi; simp at hi
      | some e => rw [hb] at hi; simp at hi; simp [hi]
    · intro d' hd
      cases d' with
      | user u' =>
        show (t.removeBroker b).users.get u' = t.users.get u'
        rw [removeBroker_users]
      | broker b' =>
        show ((t.removeBroker b).brokers.get b').map _ = (t.brokers.get b').map _
        have hne : b ≠ b' := by rintro rfl; exact hd rfl
        rw [removeBroker_brokers_get, if_neg hne]

/-- **C70**: once a peer is disconnected for one of these reasons, no connection is listed for it, the receive loop of
the connection that was listed is cancelled, and every other peer keeps its connection. -/
theorem C70_only_the_offender (cfg : Cfg B σ) (s s' : St B σ) (l : Lab B) (os : List (TOp B Nat)) (d : Dest B)
    (h : Step cfg s l os s') (hd : Disconnects s l d) :
    lookup s'.table d = none ∧ (∀ i, lookup s.table d = some i → i ∈ s'.table.aborted) ∧
    ∀ d', d' ≠ d → lookup s'.table d' = lookup s.table d' := by
  cases h <;> simp only [Disconnects] at hd
  case remove i x hx _ =>
    obtain ⟨y, hy, rfl⟩ := hd
    rw [hx] at hy
    cases hy
    cases hw : x.who with
    | user key ts => exact delDest_spec s.table (.user key)
    | broker b => exact delDest_spec s.table (.broker b)
  case sendRemove d' a b hp =>
    subst hd
    exact delDest_spec s.table d
  case kick u =>
    subst hd
    exact delDest_spec s.table (.user u)

/-- **C70**: a failed loop, or a failed send, can always go on to disconnect the peer. -/
theorem C70_can_disconnect (cfg : Cfg B σ) (s : St B σ) :
    (∀ i x, s.sess[i]? = some x → x.l = .failed → ∃ os s', Step cfg s (.remove i) os s') ∧
    (∀ d ∈ s.pend, ∃ os s', Step cfg s (.sendRemove d) os s') := by
  refine ⟨fun i x hx hl => ⟨_, _, .remove i x hx hl⟩, fun d hd => ?_⟩
  obtain ⟨a, b, hab⟩ := List.append_of_mem hd
  exact ⟨_, _, .sendRemove d a b hab⟩

/-- Bytes that do not decode are refused from both kinds of peers, a subscription to a valid topic is not. -/
example : Refused Sessions.toy () [3, 3, 3] (.user [9] []) ∧ Refused Sessions.toy () [3, 3, 3] (.broker 2) ∧
    ¬ Refused Sessions.toy () [0, 7] (.user [9] []) ∧ Refused Sessions.toy () [0, 200] (.user [9] []) := by
  refine ⟨trivial, trivial, ?_, ?_⟩
  · rintro (h | ⟨_, h⟩)
    · cases h
    · exact h ⟨7, by decide, by decide⟩
  · refine Or.inr ⟨rfl, ?_⟩
    rintro ⟨t, ht, hv⟩
    have : t = 200 := by simpa using ht
    subst this
    revert hv
    decide

/-- A broker that is connected, to which a send fails: it is removed, and a user stays connected. -/
example : ∃ (s s' : St Nat Unit), Step Sessions.toy s (.sendRemove (.broker 2)) [.removeBroker 2] s' ∧
    lookup s.table (.broker 2) = some 0 ∧ lookup s'.table (.broker 2) = none ∧ 0 ∈ s'.table.aborted ∧
    lookup s'.table (.user [9]) = some 1 := by
  refine ⟨⟨((Conns.new 1).step (.addBroker 2 0)).step (.addUser [9] 1 []), [], [.broker 2]⟩, _,
    .sendRemove (.broker 2) [] [] rfl, by decide, ?_⟩
  decide

/-! ### The receive loops, run by themselves -/

variable {H : Type} [DecidableEq H]

theorem userLoop_snoc (cfg : Cfg B σ) (s : Table B H) (h : σ) (u : Bytes) (pre : List (Recv B H)) (r : Recv B H)
    (hrun : (userLoop cfg s h u pre).running = true) :
    (userLoop cfg s h u (pre ++ [r])).table =
        (userLoop cfg (userLoop cfg s h u pre).table (userLoop cfg s h u pre).hook u [r]).table ∧
    (userLoop cfg s h u (pre ++ [r])).running =
        (userLoop cfg (userLoop cfg s h u pre).table (userLoop cfg s h u pre).hook u [r]).running := by
  induction pre generalizing s h with
  | nil => exact ⟨rfl, rfl⟩
  | cons x pre ih =>
    simp only [List.cons_append, userLoop] at hrun ⊢
    cases hx : x.raw with
    | none => rw [hx] at hrun; cases hrun
    | some raw =>
      rw [hx] at hrun
      dsimp only at hrun ⊢
      by_cases ho : (userFrame cfg (s.run x.idle) h u raw x.sch).ok = true
      · simp only [ho, if_true] at hrun ⊢
        exact ih _ _ hrun
      · simp only [ho] at hrun; cases hrun

theorem brokerLoop_snoc (cfg : Cfg B σ) (s : Table B H) (h : σ) (b : B) (pre : List (Recv B H)) (r : Recv B H)
    (hrun : (brokerLoop cfg s h b pre).running = true) :
    (brokerLoop cfg s h b (pre ++ [r])).table =
        (brokerLoop cfg (brokerLoop cfg s h b pre).table (brokerLoop cfg s h b pre).hook b [r]).table ∧
    (brokerLoop cfg s h b (pre ++ [r])).running =
        (brokerLoop cfg (brokerLoop cfg s h b pre).table (brokerLoop cfg s h b pre).hook b [r]).running := by
  induction pre generalizing s h with
  | nil => exact ⟨rfl, rfl⟩
  | cons x pre ih =>
    simp only [List.cons_append, brokerLoop] at hrun ⊢
    cases hx : x.raw with
    | none => rw [hx] at hrun; cases hrun
    | some raw =>
      rw [hx] at hrun
      dsimp only at hrun ⊢
      by_cases ho : (brokerFrame cfg (s.run x.idle) h b raw x.sch).ok = true
      · simp only [ho, if_true] at hrun ⊢
        exact ih _ _ hrun
      · simp only [ho] at hrun; cases hrun

theorem userFrame_refused (cfg : Cfg B σ) (s : Table B H) (h : σ) (u raw : Bytes) (sch : Sched B H)
    (ho : (userFrame cfg s h u raw sch).ok = false) : (userFrame cfg s h u raw sch).table = s := by
  unfold userFrame at ho ⊢
  cases hd : cfg.decode raw with
  | none => rfl
  | some m =>
    rw [hd] at ho
    dsimp only at ho ⊢
    cases hr : (cfg.userHook h m).2.2 with
    | skip => rfl
    | error => rfl
    | process =>
      rw [hr] at ho
      dsimp only at ho ⊢
      cases hm : (cfg.userHook h m).2.1 with
      | direct r d => rw [hm] at ho; cases ho
      | broadcast ts d =>
        rw [hm] at ho
        dsimp only at ho ⊢
        by_cases hp : (prune cfg.valid ts).2 = true
        · rw [if_pos hp] at ho; cases ho
        · rw [if_neg hp]
      | subscribe ts =>
        rw [hm] at ho
        dsimp only at ho ⊢
        by_cases hp : (prune cfg.valid ts).2 = true
        · rw [if_pos hp] at ho; cases ho
        · rw [if_neg hp]
      | unsubscribe ts =>
        rw [hm] at ho
        dsimp only at ho ⊢
        by_cases hp : (prune cfg.valid ts).2 = true
        · rw [if_pos hp] at ho; cases ho
        · rw [if_neg hp]
      | _ => rfl

theorem brokerFrame_refused (cfg : Cfg B σ) (s : Table B H) (h : σ) (b : B) (raw : Bytes) (sch : Sched B H) :
    ((brokerFrame cfg s h b raw sch).ok = false ↔ BrokerOffence cfg h raw) ∧
    ((brokerFrame cfg s h b raw sch).ok = false → (brokerFrame cfg s h b raw sch).table = s) := by
  unfold brokerFrame BrokerOffence
  cases hd : cfg.decode raw with
  | none => simp
  | some m =>
    dsimp only
    cases hr : (cfg.brokerHook h m).2.2 with
    | skip => simp
    | error => simp
    | process =>
      dsimp only
      cases hm : (cfg.brokerHook h m).2.1 with
      | userSync d => cases he : cfg.decUserSync d <;> simp [he]
      | topicSync d => cases he : cfg.decTopicSync d <;> simp [he]
      | _ => simp

/-- **C70, a user's receive loop.** A loop that has not ended ends with the next thing received exactly if that is the
end of the connection or an offence. Then the user has no connection, and all others have the connections they had
when it was received (after whatever other tasks did in the meantime). -/
theorem C70_user_loop (cfg : Cfg B σ) (s : Table B H) (h : σ) (u : Bytes) (pre : List (Recv B H)) (r : Recv B H)
    (hrun : (userLoop cfg s h u pre).running = true) :
    ((userLoop cfg s h u (pre ++ [r])).running = false ↔ Offence cfg (userLoop cfg s h u pre).hook r.raw) ∧
    ((userLoop cfg s h u (pre ++ [r])).running = false →
      (userLoop cfg s h u (pre ++ [r])).table.getUserConnection u = none ∧
      (∀ u', u' ≠ u → (userLoop cfg s h u (pre ++ [r])).table.getUserConnection u' =
        ((userLoop cfg s h u pre).table.run r.idle).getUserConnection u') ∧
      (∀ b, (userLoop cfg s h u (pre ++ [r])).table.getBrokerConnection b =
        ((userLoop cfg s h u pre).table.run r.idle).getBrokerConnection b)) := by
  obtain ⟨e1, e2⟩ := userLoop_snoc cfg s h u pre r hrun
  rw [e1, e2]
  generalize (userLoop cfg s h u pre).table = t, (userLoop cfg s h u pre).hook = k
  have key : ∀ t' : Table B H, t' = t.run r.idle → (t'.removeUser u).getUserConnection u = none ∧
      (∀ u', u' ≠ u → (t'.removeUser u).getUserConnection u' = (t.run r.idle).getUserConnection u') ∧
      (∀ b, (t'.removeUser u).getBrokerConnection b = (t.run r.idle).getBrokerConnection b) := by
    rintro t' rfl
    refine ⟨connOf_drop_self (t.run r.idle) (.user u), fun u' hu => ?_, fun b => ?_⟩
    · exact connOf_drop (t.run r.idle) (.user u) (.user u') (by intro e; cases e; exact hu rfl)
    · exact connOf_drop (t.run r.idle) (.user u) (.broker b) (by intro e; cases e)
  simp only [userLoop]
  cases hr : r.raw with
  | none => exact ⟨by simp [Offence], fun _ => key _ rfl⟩
  | some raw =>
    have h1 := (userFrame_ok cfg (t.run r.idle) k u raw r.sch).1
    dsimp only
    by_cases ho : (userFrame cfg (t.run r.idle) k u raw r.sch).ok = true
    · rw [if_pos ho]
      refine ⟨⟨fun e => by simp at e, fun e => ?_⟩, fun e => by simp at e⟩
      have := h1.2 e
      rw [ho] at this; cases this
    · rw [if_neg ho]
      have ho := Bool.eq_false_iff.2 ho
      exact ⟨⟨fun _ => h1.1 ho, fun _ => rfl⟩, fun _ => key _ (userFrame_refused cfg _ k u raw r.sch ho)⟩

/-- **C70, a broker's receive loop.** The same for the loop that receives from another broker. -/
theorem C70_broker_loop (cfg : Cfg B σ) (s : Table B H) (h : σ) (b : B) (pre : List (Recv B H)) (r : Recv B H)
    (hrun : (brokerLoop cfg s h b pre).running = true) :
    ((brokerLoop cfg s h b (pre ++ [r])).running = false ↔
      r.raw = none ∨ ∃ raw, r.raw = some raw ∧ BrokerOffence cfg (brokerLoop cfg s h b pre).hook raw) ∧
    ((brokerLoop cfg s h b (pre ++ [r])).running = false →
      (brokerLoop cfg s h b (pre ++ [r])).table.getBrokerConnection b = none ∧
      (∀ b', b' ≠ b → (brokerLoop cfg s h b (pre ++ [r])).table.getBrokerConnection b' =
        ((brokerLoop cfg s h b pre).table.run r.idle).getBrokerConnection b') ∧
      (∀ u, (brokerLoop cfg s h b (pre ++ [r])).table.getUserConnection u =
        ((brokerLoop cfg s h b pre).table.run r.idle).getUserConnection u)) := by
  obtain ⟨e1, e2⟩ := brokerLoop_snoc cfg s h b pre r hrun
  rw [e1, e2]
  generalize (brokerLoop cfg s h b pre).table = t, (brokerLoop cfg s h b pre).hook = k
  have key : ∀ t' : Table B H, t' = t.run r.idle → (t'.removeBroker b).getBrokerConnection b = none ∧
      (∀ b', b' ≠ b → (t'.removeBroker b).getBrokerConnection b' = (t.run r.idle).getBrokerConnection b') ∧
      (∀ u, (t'.removeBroker b).getUserConnection u = (t.run r.idle).getUserConnection u) := by
    rintro t' rfl
    refine ⟨connOf_drop_self (t.run r.idle) (.broker b), fun b' hu => ?_, fun u => ?_⟩
    · exact connOf_drop (t.run r.idle) (.broker b) (.broker b') (by intro e; cases e; exact hu rfl)
    · exact connOf_drop (t.run r.idle) (.broker b) (.user u) (by intro e; cases e)
  simp only [brokerLoop]
  cases hr : r.raw with
  | none => exact ⟨by simp, fun _ => key _ rfl⟩
  | some raw =>
    obtain ⟨h1, h2⟩ := brokerFrame_refused cfg (t.run r.idle) k b raw r.sch
    dsimp only
    by_cases ho : (brokerFrame cfg (t.run r.idle) k b raw r.sch).ok = true
    · rw [if_pos ho]
      refine ⟨⟨fun e => by simp at e, ?_⟩, fun e => by simp at e⟩
      rintro (e | ⟨raw', e, h3⟩)
      · cases e
      · cases e
        have := h1.2 h3
        rw [ho] at this; cases this
    · rw [if_neg ho]
      have ho := Bool.eq_false_iff.2 ho
      exact ⟨⟨fun _ => .inr ⟨raw, rfl, h1.1 ho⟩, fun _ => rfl⟩, fun _ => key _ (h2 ho)⟩

/-- A broker's connection ends while another task has just registered a user: the broker is gone, the user is there. -/
example : (brokerLoop Sessions.toy ((Conns.new 1).step (.addBroker 2 0)) () 2 []).running = true ∧
    (brokerLoop Sessions.toy ((Conns.new 1).step (.addBroker 2 0)) () 2 ([] ++ [⟨[.addUser [9] 1 []], none, fun _ => ⟨[], true, []⟩⟩])).running = false ∧
    (brokerLoop Sessions.toy ((Conns.new 1).step (.addBroker 2 0)) () 2 ([] ++ [⟨[.addUser [9] 1 []], none, fun _ => ⟨[], true, []⟩⟩])).table.getBrokerConnection 2 = none ∧
    (brokerLoop Sessions.toy ((Conns.new 1).step (.addBroker 2 0)) () 2 ([] ++ [⟨[.addUser [9] 1 []], none, fun _ => ⟨[], true, []⟩⟩])).table.getUserConnection [9] = some 1 := by
  decide

end Verif.Props.SessionEnds

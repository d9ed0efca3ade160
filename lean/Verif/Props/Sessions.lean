import Verif.Lemmas.Sessions
import Verif.Props.TopicSync
import Verif.Props.Prune

/-!
# Properties C49, C52, C53, C64-C66: connections and their tasks

Steps and runs are those of `Model/Sessions.lean`: the connection handlers, receive tasks, failed sends and
the whitelist task of one broker in any interleaving, any number of connections.
-/

set_option linter.unusedSectionVars false

namespace Verif.Props.Sessions
open Verif Verif.Broker Verif.Conns Verif.Sessions Verif.Props.Connections Verif.Props.TopicSync

variable {B σ : Type} [DecidableEq B] [LT B] [DecidableLT B]

/-- User `u` receives what is broadcast to topic `t`. -/
def SubscribedTo (s : St B σ) (u : Bytes) (t : Topic) : Prop := u ∈ (s.table.getInterestedByTopic [t] true).2

theorem subscribedTo_iff (s : St B σ) (u : Bytes) (t : Topic) :
    SubscribedTo s u t ↔ s.table.bcUsers.Bwd u t := by
  unfold SubscribedTo
  rw [(mem_interested s.table [t] true).1 u]
  simp

/-- With these bytes a client asks to subscribe to `t`, and the broker's hook lets it pass. -/
def AsksFor (cfg : Cfg B σ) (hook : σ) (raw : Bytes) (t : Topic) : Prop :=
  cfg.decode raw = some (.subscribe [t]) ∧ cfg.valid t = true ∧
  (cfg.userHook hook (.subscribe [t])).2 = (.subscribe [t], .process)

theorem asksFor_act {cfg : Cfg B σ} {hook : σ} {raw : Bytes} {t : Topic} (h : AsksFor cfg hook raw t)
    (u : Bytes) (ts : List Topic) :
    ∃ hk, act cfg hook raw (.user u ts) = (hk, .op (.subscribeUser u [t])) := by
  obtain ⟨h1, h2, h3⟩ := h
  refine ⟨(cfg.userHook hook (.subscribe [t])).1, ?_⟩
  have : dedup [t] = [t] := rfl
  simp [act, userAct, h1, h3, prune, h2, this]

/-! ## C49 -/

/-- A session of user `u`. -/
def us (u : Bytes) (ts : List Topic) (hook : σ) (h : HPt) (l : LPt) : Sess B σ := ⟨.user u ts, hook, h, l⟩

/-- One connection of `u`, up to registration. -/
theorem run_first (cfg : Cfg B σ) (id : B) (hook : σ) (u : Bytes) (ts : List Topic) :
    Run cfg (St.new id) [.connect (.user u ts), .spawn 0, .register 0] [.addUser u 0 ts]
      ⟨(Conns.new id).step (.addUser u 0 ts), [us u ts hook .registered .asleep], []⟩ := by
  have h1 : Run cfg (St.new id) [.connect (.user u ts)] [] ⟨Conns.new id, [us u ts hook .fresh .none], []⟩ :=
    (Run.nil (s := St.new id)).then (.connect (.user u ts) hook)
  have h2 : Run cfg (St.new id) [.connect (.user u ts), .spawn 0] []
      ⟨Conns.new id, [us u ts hook .spawned .asleep], []⟩ := h1.then (.spawn 0 (us u ts hook .fresh .none) rfl rfl)
  exact h2.then (.register 0 (us u ts hook .spawned .asleep) rfl rfl)

/-- A second connection of `u`, up to registration. -/
theorem run_second (cfg : Cfg B σ) (T : Table B Nat) (x : Sess B σ) (p : List (Dest B)) (hook : σ) (u : Bytes)
    (ts : List Topic) :
    Run cfg ⟨T, [x], p⟩ [.connect (.user u ts), .spawn 1, .register 1] [.addUser u 1 ts]
      ⟨T.step (.addUser u 1 ts), [x, us u ts hook .registered .asleep], p⟩ := by
  have h1 : Run cfg ⟨T, [x], p⟩ [.connect (.user u ts)] [] ⟨T, [x, us u ts hook .fresh .none], p⟩ :=
    (Run.nil (s := ⟨T, [x], p⟩)).then (.connect (.user u ts) hook)
  have h2 : Run cfg ⟨T, [x], p⟩ [.connect (.user u ts), .spawn 1] [] ⟨T, [x, us u ts hook .spawned .asleep], p⟩ :=
    h1.then (.spawn 1 (us u ts hook .fresh .none) rfl rfl)
  exact h2.then (.register 1 (us u ts hook .spawned .asleep) rfl rfl)

/-- **C49 is false.** Connection 0 of `u` fails; before its receive task gets to remove the user, the user
reconnects with connection 1, which subscribes to `ts`. The removal then hits connection 1: it is thrown out,
its receive task is aborted and its subscriptions are gone, although nothing ever went wrong with it. -/
theorem C49_false (cfg : Cfg B σ) (id : B) (hook : σ) (u : Bytes) (ts : List Topic) :
    ∃ os s1 s, Run cfg (St.new id)
      [.connect (.user u []), .spawn 0, .register 0, .wake 0, .recvErr 0,
       .connect (.user u ts), .spawn 1, .register 1] os s1 ∧
      s1.table.getUserConnection u = some 1 ∧ (∀ t ∈ ts, SubscribedTo s1 u t) ∧
      Run cfg s1 [.remove 0] [.removeUser u] s ∧
      s.table.getUserConnection u = none ∧ (∀ t, ¬ SubscribedTo s u t) ∧ 1 ∈ s.table.aborted := by
  have h1 := run_first cfg id hook u []
  have h2 : Run cfg (St.new id) [.connect (.user u []), .spawn 0, .register 0, .wake 0] [.addUser u 0 []]
      ⟨(Conns.new id).step (.addUser u 0 []), [us u [] hook .registered .awake], []⟩ :=
    h1.then (.wake 0 (us u [] hook .registered .asleep) rfl rfl (by simp [Conns.step, addUser, removeUser_aborted, Conns.new]))
  have h3 : Run cfg (St.new id) [.connect (.user u []), .spawn 0, .register 0, .wake 0, .recvErr 0] [.addUser u 0 []]
      ⟨(Conns.new id).step (.addUser u 0 []), [us u [] hook .registered .failed], []⟩ :=
    h2.then (.recvErr 0 (us u [] hook .registered .awake) rfl rfl)
  have h4 := h3.trans (run_second cfg _ _ _ hook u ts)
  have hi := (inv_run h4).index
  refine ⟨_, _, _, h4, ?_, fun t ht => ?_, Run.nil.then (.remove 0 (us u [] hook .registered .failed) rfl rfl), ?_,
    fun t => ?_, ?_⟩
  · simp [Conns.step, addUser, getUserConnection]
  · rw [subscribedTo_iff]
    simp [Conns.step, addUser, RMap.bwd_associate, ht]
  · simp [Conns.step, us, Who.del, getUserConnection, removeUser_users_get]
  · rw [subscribedTo_iff]
    simp only [Conns.step, us, Who.del, removeUser_bcUsers] at hi ⊢
    rw [RMap.bwd_removeKey hi.1]
    simp
  · simp [Conns.step, us, Who.del, addUser, removeUser_aborted]

/-- **C49 is false** also for sends: a send to `u` fails on connection 0; before the sender removes `u`,
connection 1 replaces it; the removal hits connection 1. -/
theorem C49_false_send (cfg : Cfg B σ) (id : B) (hook : σ) (u : Bytes) (ts : List Topic) :
    ∃ os s1 s, Run cfg (St.new id)
      [.connect (.user u []), .spawn 0, .register 0, .sendErr (.user u) 0,
       .connect (.user u ts), .spawn 1, .register 1] os s1 ∧
      s1.table.getUserConnection u = some 1 ∧ (∀ t ∈ ts, SubscribedTo s1 u t) ∧
      Run cfg s1 [.sendRemove (.user u)] [.removeUser u] s ∧
      s.table.getUserConnection u = none ∧ (∀ t, ¬ SubscribedTo s u t) ∧ 1 ∈ s.table.aborted := by
  have h1 := run_first cfg id hook u []
  have h2 : Run cfg (St.new id) [.connect (.user u []), .spawn 0, .register 0, .sendErr (.user u) 0] [.addUser u 0 []]
      ⟨(Conns.new id).step (.addUser u 0 []), [us u [] hook .registered .asleep], [.user u]⟩ :=
    h1.then (.sendErr (.user u) 0 (by simp [lookup, Conns.step, addUser, getUserConnection]))
  have h4 := h2.trans (run_second cfg _ _ _ hook u ts)
  have hi := (inv_run h4).index
  refine ⟨_, _, _, h4, ?_, fun t ht => ?_, Run.nil.then (.sendRemove (.user u) [] [] rfl), ?_, fun t => ?_, ?_⟩
  · simp [Conns.step, addUser, getUserConnection]
  · rw [subscribedTo_iff]
    simp [Conns.step, addUser, RMap.bwd_associate, ht]
  · simp [Conns.step, delDest, getUserConnection, removeUser_users_get]
  · rw [subscribedTo_iff]
    simp only [Conns.step, delDest, removeUser_bcUsers] at hi ⊢
    rw [RMap.bwd_removeKey hi.1]
    simp
  · simp [Conns.step, delDest, addUser, removeUser_aborted]

/-- Nothing of `u`'s connections other than `j` is left that could still act: their receive tasks have ended,
or are suspended and aborted; none is about to be registered; no failed send to `u` is about to remove it. -/
structure OldGone (s : St B σ) (u : Bytes) (j : Nat) : Prop where
  sess : ∀ i x ts, s.sess[i]? = some x → x.who = .user u ts → i ≠ j →
    x.h = .registered ∧ (x.l = .done ∨ (x.l = .asleep ∧ i ∈ s.table.aborted))
  pend : Dest.user u ∉ s.pend

theorem set_get {α : Type} {l : List α} {j i : Nat} {y x' : α} (h : (l.set j y)[i]? = some x') :
    (i ≠ j ∧ l[i]? = some x') ∨ (i = j ∧ x' = y) := by
  by_cases hj : j = i
  · subst hj
    right
    have := (List.getElem?_eq_some_iff.1 h).1
    rw [List.length_set] at this
    rw [List.getElem?_set_self this] at h
    cases h
    exact ⟨rfl, rfl⟩
  · rw [List.getElem?_set_ne hj] at h
    exact Or.inl ⟨fun e => hj e.symm, h⟩

theorem append_get {α : Type} {l : List α} {i : Nat} {y x' : α} (h : (l ++ [y])[i]? = some x') :
    l[i]? = some x' ∨ (i = l.length ∧ x' = y) := by
  by_cases hi : i < l.length
  · rw [List.getElem?_append_left hi] at h
    exact Or.inl h
  · rw [List.getElem?_append_right (by omega)] at h
    have h0 : i - l.length = 0 := by
      have := (List.getElem?_eq_some_iff.1 h).1
      simp only [List.length_singleton] at this; omega
    rw [h0] at h
    simp only [List.getElem?_cons_zero, Option.some.injEq] at h
    exact Or.inr ⟨by omega, h.symm⟩

/-- Calls that are not about `u` leave its connection. -/
theorem keep_user (t : Table B Nat) (op : TOp B Nat) (u : Bytes) (j : Nat) (hj : t.getUserConnection u = some j)
    (h1 : ∀ x ts, op ≠ .addUser u x ts) (h2 : op ≠ .removeUser u)
    (h3 : ∀ m, op = .applyUserSync m → m.map.get u = none) : (t.step op).getUserConnection u = some j := by
  show (t.step op).users.get u = some j
  have hj : t.users.get u = some j := hj
  cases op with
  | addUser u' x ts =>
    have : u' ≠ u := fun e => h1 x ts (e ▸ rfl)
    simp only [Conns.step, addUser, AMap.get_insert, if_neg this, removeUser_users_get]
    exact hj
  | removeUser u' =>
    have : u' ≠ u := fun e => h2 (e ▸ rfl)
    simp only [Conns.step, removeUser_users_get, if_neg this]
    exact hj
  | applyUserSync m =>
    simp only [Conns.step, applyUserSync]
    rw [foldl_removeUser_users_get _ Prod.fst, if_neg]
    · exact hj
    · intro hc
      obtain ⟨c, hc, he⟩ := List.mem_map.1 hc
      obtain ⟨e, hm, -⟩ := (VMap.mem_changes_merge _ _ c.1 c.2).1 hc
      rw [he, h3 m rfl] at hm; cases hm
  | addBroker b x => simp [Conns.step, addBroker, hj]
  | removeBroker b => simp [Conns.step, hj]
  | subscribeUser u' ts => exact hj
  | unsubscribeUser u' ts => exact hj
  | subscribeBroker b ts => exact hj
  | unsubscribeBroker b ts => exact hj
  | applyTopicSync b m =>
    simp only [Conns.step, applyTopicSync]
    cases hb : t.brokers.get b with
    | none => simp [hj]
    | some e =>
      simp only
      rw [(foldl_applyTopicChange_frame _ b _).2.1]; exact hj
  | partialUserSync => exact hj
  | partialTopicSync =>
    simp only [Conns.step, getPartialTopicSync]
    split <;> exact hj

/-- **C49, what holds.** User `u` is on connection `j` and the old ones are gone for good (`OldGone`). In any run
from there without a newer connection of `u`, without a failure on `j` itself (of its receive loop, or of a
send), without the whitelist task removing `u`, and without a user sync that mentions `u`: the user stays on
`j`, and keeps every subscription it does not give up. -/
theorem C49_partial (cfg : Cfg B σ) (id : B) (l0 ls : List (Lab B)) (o0 os : List (TOp B Nat)) (s s' : St B σ)
    (h0 : Run cfg (St.new id) l0 o0 s) (u : Bytes) (j : Nat)
    (hj : s.table.getUserConnection u = some j) (hold : OldGone s u j) (h : Run cfg s ls os s')
    (hnew : ∀ ts, Lab.connect (.user u ts) ∉ ls) (hloop : Lab.remove j ∉ ls)
    (hsend : Lab.sendErr (.user u) j ∉ ls) (hkick : Lab.kick u ∉ ls)
    (hsync : ∀ m, Conns.Op.applyUserSync m ∈ os → m.map.get u = none) :
    s'.table.getUserConnection u = some j ∧
    (∀ t, SubscribedTo s u t → (∀ ts, Conns.Op.unsubscribeUser u ts ∈ os → t ∉ ts) → SubscribedTo s' u t) := by
  have key : s'.table.getUserConnection u = some j ∧ OldGone s' u j := by
    induction h with
    | nil => exact ⟨hj, hold⟩
    | snoc ls os s1 l o s2 h hs ih =>
      simp only [List.mem_append, List.mem_singleton, not_or] at hnew hloop hsend hkick hsync
      obtain ⟨hj1, hg⟩ := ih (fun ts => (hnew ts).1) hloop.1 hsend.1 hkick.1 (fun m hm => hsync m (Or.inl hm))
      have hinv := inv_run (h0.trans h)
      have hnotfailed : ∀ i x ts, s1.sess[i]? = some x → x.who = .user u ts → i ≠ j → x.l ≠ .failed ∧ x.l ≠ .awake := by
        intro i x ts hx hw hij
        rcases (hg.sess i x ts hx hw hij).2 with h1 | ⟨h1, _⟩ <;> rw [h1] <;> simp
      -- the table
      have keepTable : ∀ op : TOp B Nat, o = [op] → (∀ x ts, op ≠ .addUser u x ts) → op ≠ .removeUser u →
          (∀ m, op = .applyUserSync m → m.map.get u = none) → s2.table.getUserConnection u = some j := by
        intro op ho h1 h2 h3
        rw [step_table hs, ho]
        exact keep_user s1.table op u j hj1 h1 h2 h3
      have keep0 : o = [] → s2.table.getUserConnection u = some j := by
        intro ho
        rw [step_table hs, ho]
        exact hj1
      have hab : ∀ i, i ∈ s1.table.aborted → i ∈ s2.table.aborted := by
        intro i hi
        rw [step_table hs]; exact aborted_run _ _ hi
      -- a step of session `k` that keeps the conditions
      have keepSess : ∀ (k : Nat) (y y' : Sess B σ), s1.sess[k]? = some y →
          s2.sess = s1.sess.set k y' → y'.who = y.who →
          (∀ ts, y.who = .user u ts → k ≠ j → y'.h = .registered ∧ (y'.l = .done ∨ (y'.l = .asleep ∧ k ∈ s2.table.aborted))) →
          ∀ i x ts, s2.sess[i]? = some x → x.who = .user u ts → i ≠ j →
            x.h = .registered ∧ (x.l = .done ∨ (x.l = .asleep ∧ i ∈ s2.table.aborted)) := by
        intro k y y' hy he hw hk i x ts hx hwx hij
        rw [he] at hx
        rcases set_get hx with ⟨_, hx⟩ | ⟨rfl, rfl⟩
        · obtain ⟨h1, h2⟩ := hg.sess i x ts hx hwx hij
          exact ⟨h1, h2.imp (fun h => h) (fun h => ⟨h.1, hab i h.2⟩)⟩
        · exact hk ts (hw ▸ hwx) hij
      have keepAll : s2.sess = s1.sess → ∀ i x ts, s2.sess[i]? = some x → x.who = .user u ts → i ≠ j →
            x.h = .registered ∧ (x.l = .done ∨ (x.l = .asleep ∧ i ∈ s2.table.aborted)) := by
        intro he i x ts hx hwx hij
        rw [he] at hx
        obtain ⟨h1, h2⟩ := hg.sess i x ts hx hwx hij
        exact ⟨h1, h2.imp (fun h => h) (fun h => ⟨h.1, hab i h.2⟩)⟩
      cases hs with
      | connect who hook =>
        refine ⟨hj1, fun i x ts hx hwx hij => ?_, hg.pend⟩
        rcases append_get hx with hx | ⟨rfl, rfl⟩
        · exact hg.sess i x ts hx hwx hij
        · exact absurd (congrArg Lab.connect hwx).symm ((hnew ts).2)
      | spawn k y hy hf =>
        refine ⟨hj1, keepSess k y _ hy rfl rfl (fun ts hw hk => ?_), hg.pend⟩
        rw [(hg.sess k y ts hy hw hk).1] at hf; cases hf
      | register k y hy hf =>
        have hnu : ∀ ts, y.who = .user u ts → False := by
          intro ts hw
          by_cases hk : k = j
          · subst hk
            have h1 : WasRegistered s1 k := by
              rw [← hinv.reg]
              have := (C09_aborted_iff_replaced id _ hinv.nodup).2.1 k
              exact this (by rw [← hinv.table]; exact Or.inl ⟨u, hj1⟩)
            obtain ⟨z, hz, hr⟩ := h1
            rw [hy] at hz; cases hz
            rw [hf] at hr; cases hr
          · rw [(hg.sess k y ts hy hw hk).1] at hf; cases hf
        refine ⟨keepTable _ rfl ?_ ?_ ?_, keepSess k y _ hy rfl rfl (fun ts hw hk => (hnu ts hw).elim), hg.pend⟩
        · intro x ts e
          cases hw : y.who with
          | user key topics =>
            rw [hw] at e
            simp only [Who.add, Op.addUser.injEq] at e
            exact hnu topics (by rw [hw, e.1])
          | broker b => rw [hw] at e; simp [Who.add] at e
        · cases y.who <;> simp [Who.add]
        · cases y.who <;> simp [Who.add]
      | wake k y hy hf ha =>
        refine ⟨hj1, keepSess k y _ hy rfl rfl (fun ts hw hk => ?_), hg.pend⟩
        rcases (hg.sess k y ts hy hw hk).2 with h1 | ⟨_, h1⟩
        · rw [h1] at hf; cases hf
        · exact absurd h1 ha
      | sleep k y hy hf =>
        exact ⟨hj1, keepSess k y _ hy rfl rfl (fun ts hw hk => absurd hf (hnotfailed k y ts hy hw hk).2), hg.pend⟩
      | cancelled k y hy hf ha =>
        exact ⟨hj1, keepSess k y _ hy rfl rfl (fun ts hw hk => ⟨(hg.sess k y ts hy hw hk).1, Or.inl rfl⟩), hg.pend⟩
      | frameOp k y hy hf raw hk op ha =>
        refine ⟨keepTable _ rfl ?_ ?_ ?_, keepSess k y _ hy rfl rfl
          (fun ts hw hkj => absurd hf (hnotfailed k y ts hy hw hkj).2), hg.pend⟩
        · rcases act_op cfg _ _ _ _ _ ha with ⟨m, rfl⟩ | ⟨b, m, rfl, -⟩ | ⟨u, ts, topics, rfl | rfl, -⟩ <;> simp
        · rcases act_op cfg _ _ _ _ _ ha with ⟨m, rfl⟩ | ⟨b, m, rfl, -⟩ | ⟨u, ts, topics, rfl | rfl, -⟩ <;> simp
        · intro m e
          exact hsync m (Or.inr (by simp [e]))
      | frameIdle k y hy hf =>
        exact ⟨hj1, keepSess k y _ hy rfl rfl (fun ts hw hk => absurd hf (hnotfailed k y ts hy hw hk).2), hg.pend⟩
      | frameFail k y hy hf =>
        exact ⟨hj1, keepSess k y _ hy rfl rfl (fun ts hw hk => absurd hf (hnotfailed k y ts hy hw hk).2), hg.pend⟩
      | recvErr k y hy hf =>
        exact ⟨hj1, keepSess k y _ hy rfl rfl (fun ts hw hk => absurd hf (hnotfailed k y ts hy hw hk).2), hg.pend⟩
      | remove k y hy hf =>
        have hkj : k ≠ j := by rintro rfl; exact hloop.2 rfl
        refine ⟨keepTable _ rfl ?_ ?_ ?_, keepSess k y _ hy rfl rfl
          (fun ts hw hk => absurd hf (hnotfailed k y ts hy hw hk).1), hg.pend⟩
        · cases y.who <;> simp [Who.del]
        · cases hw : y.who with
          | user key topics =>
            simp only [Who.del, ne_eq, Op.removeUser.injEq]
            rintro rfl
            exact (hnotfailed k y topics hy hw hkj).1 hf
          | broker b => simp [Who.del]
        · cases y.who <;> simp [Who.del]
      | sendErr d i hd =>
        refine ⟨hj1, keepAll rfl, ?_⟩
        simp only [List.mem_cons, not_or]
        refine ⟨?_, hg.pend⟩
        rintro rfl
        have hd' : s1.table.getUserConnection u = some i := hd
        rw [hj1] at hd'
        cases hd'
        exact hsend.2 rfl
      | sendRemove d a b hp =>
        have hne : d ≠ .user u := by
          rintro rfl
          exact hg.pend (by rw [hp]; simp)
        refine ⟨keepTable _ rfl ?_ ?_ ?_, keepAll rfl, ?_⟩
        · cases d <;> simp [delDest]
        · cases d with
          | user u' =>
            simp only [delDest, ne_eq, Op.removeUser.injEq]
            rintro rfl
            exact hne rfl
          | broker b => simp [delDest]
        · cases d <;> simp [delDest]
        · have := hg.pend
          rw [hp] at this
          simp only [List.mem_append, List.mem_cons, not_or] at this ⊢
          exact ⟨this.1, this.2.2⟩
      | kick u' =>
        refine ⟨keepTable _ rfl (by simp) ?_ (by simp), keepAll rfl, hg.pend⟩
        simp only [ne_eq, Op.removeUser.injEq]
        rintro rfl
        exact hkick.2 rfl
      | userSync => exact ⟨keepTable _ rfl (by simp) (by simp) (by simp), keepAll rfl, hg.pend⟩
      | topicSync => exact ⟨keepTable _ rfl (by simp) (by simp) (by simp), keepAll rfl, hg.pend⟩
  refine ⟨key.1, fun t ht hno => ?_⟩
  rw [subscribedTo_iff] at ht ⊢
  exact on_run h0 h hj key.1 ht hno

/-- Non-trivial case of `C49_partial`: the old connection was suspended when the new one replaced it, and no send
had failed. The conditions hold, and a failing frame on the old connection is no longer handled; the new one
subscribes to more. -/
example (cfg : Cfg B σ) (id : B) (hook : σ) (u : Bytes) (raw : Bytes) (h : AsksFor cfg hook raw 7) :
    ∃ l0 o0 s, Run cfg (St.new id) l0 o0 s ∧ s.table.getUserConnection u = some 1 ∧ OldGone s u 1 ∧
      SubscribedTo s u 5 ∧ ∃ os s', Run cfg s [.wake 1, .frame 1 raw, .cancelled 0] os s' ∧ SubscribedTo s' u 7 := by
  have h1 := (run_first cfg id hook u []).trans (run_second cfg _ _ _ hook u [5])
  have ha : 0 ∈ (((Conns.new id : Table B Nat).step (.addUser u 0 [])).step (.addUser u 1 [5])).aborted := by
    simp [Conns.step, addUser, removeUser_aborted]
  have hb : 1 ∉ (((Conns.new id : Table B Nat).step (.addUser u 0 [])).step (.addUser u 1 [5])).aborted := by
    simp [Conns.step, addUser, removeUser_aborted, Conns.new]
  refine ⟨_, _, _, h1, by simp [Conns.step, addUser, getUserConnection], ⟨?_, by simp⟩, ?_, ?_⟩
  · intro i x ts hx hw hi
    match i, hi, hx with
    | 0, _, hx => cases hx; exact ⟨rfl, Or.inr ⟨rfl, ha⟩⟩
    | 1, hi, _ => exact absurd rfl hi
    | n + 2, _, hx => cases hx
  · rw [subscribedTo_iff]
    simp [Conns.step, addUser, RMap.bwd_associate]
  · obtain ⟨hk, hact⟩ := asksFor_act h u [5]
    generalize (Conns.step (Conns.step (Conns.new id : Table B Nat) (.addUser u 0 [])) (.addUser u 1 [5])) = T at ha hb
    have g1 : Run cfg ⟨T, [us u [] hook .registered .asleep, us u [5] hook .registered .asleep], []⟩ [.wake 1] []
        ⟨T, [us u [] hook .registered .asleep, us u [5] hook .registered .awake], []⟩ :=
      Run.nil.then (.wake 1 (us u [5] hook .registered .asleep) rfl rfl hb)
    have g2 : Run cfg ⟨T, [us u [] hook .registered .asleep, us u [5] hook .registered .asleep], []⟩
        [.wake 1, .frame 1 raw] [.subscribeUser u [7]]
        ⟨T.step (.subscribeUser u [7]), [us u [] hook .registered .asleep, us u [5] hk .registered .awake], []⟩ :=
      g1.then (.frameOp 1 (us u [5] hook .registered .awake) rfl rfl raw hk _ hact)
    refine ⟨_, _, g2.then (.cancelled 0 (us u [] hook .registered .asleep) rfl rfl ha), ?_⟩
    rw [subscribedTo_iff]
    simp [Conns.step, subscribeUser, RMap.bwd_associate]

/-! ## C52 -/

/-- **C52 is false.** The receive loop runs before the user is registered: a subscription handled in between is
erased by the registration (`add_user` first removes the user with everything it had). The user is connected,
never unsubscribed, and does not get the topic. -/
theorem C52_false (cfg : Cfg B σ) (id : B) (hook : σ) (u raw : Bytes) (t : Topic) (h : AsksFor cfg hook raw t) :
    ∃ s, Run cfg (St.new id)
      [.connect (.user u []), .spawn 0, .wake 0, .frame 0 raw, .register 0]
      [.subscribeUser u [t], .addUser u 0 []] s ∧
      s.table.getUserConnection u = some 0 ∧ ¬ SubscribedTo s u t := by
  obtain ⟨hk, hact⟩ := asksFor_act h u []
  have h1 : Run cfg (St.new id) [.connect (.user u [])] [] ⟨Conns.new id, [us u [] hook .fresh .none], []⟩ :=
    (Run.nil (s := St.new id)).then (.connect (.user u []) hook)
  have h2 : Run cfg (St.new id) [.connect (.user u []), .spawn 0] []
      ⟨Conns.new id, [us u [] hook .spawned .asleep], []⟩ := h1.then (.spawn 0 (us u [] hook .fresh .none) rfl rfl)
  have h3 : Run cfg (St.new id) [.connect (.user u []), .spawn 0, .wake 0] []
      ⟨Conns.new id, [us u [] hook .spawned .awake], []⟩ :=
    h2.then (.wake 0 (us u [] hook .spawned .asleep) rfl rfl (by simp [Conns.new]))
  have h4 : Run cfg (St.new id) [.connect (.user u []), .spawn 0, .wake 0, .frame 0 raw] [.subscribeUser u [t]]
      ⟨(Conns.new id).step (.subscribeUser u [t]), [us u [] hk .spawned .awake], []⟩ :=
    h3.then (.frameOp 0 (us u [] hook .spawned .awake) rfl rfl raw hk _ hact)
  have hi := (inv_run h4).index
  refine ⟨_, h4.then (.register 0 (us u [] hk .spawned .awake) rfl rfl), ?_, ?_⟩
  · simp [Conns.step, us, Who.add, addUser, getUserConnection]
  · rw [subscribedTo_iff]
    simp only [Conns.step, us, Who.add, addUser, removeUser_bcUsers, RMap.bwd_associate] at hi ⊢
    rw [RMap.bwd_removeKey hi.1]
    simp

/-- **C52, what holds.** A subscription handled by the receive loop of connection `i` while the user is on that
connection stays in force as long as the user is on it and does not unsubscribe; and so do the topics given at
authentication, from the registration on. -/
theorem C52_partial (cfg : Cfg B σ) (id : B) (l0 ls : List (Lab B)) (o0 os o1 : List (TOp B Nat))
    (s s1 s' : St B σ) (h0 : Run cfg (St.new id) l0 o0 s) (lab : Lab B) (hs : Step cfg s lab o1 s1)
    (h : Run cfg s1 ls os s') (u : Bytes) (i : Nat) (hi' : s'.table.getUserConnection u = some i) (t : Topic)
    (hno : ∀ ts, Conns.Op.unsubscribeUser u ts ∈ os → t ∉ ts)
    (hlab :
      -- a frame in which the user asks for `t`, handled while on connection `i`
      (s.table.getUserConnection u = some i ∧
        ∃ raw x ts0 topics, lab = .frame i raw ∧ s.sess[i]? = some x ∧ x.who = .user u ts0 ∧
          cfg.decode raw = some (.subscribe topics) ∧
          (cfg.userHook x.hook (.subscribe topics)).2 = (.subscribe topics, .process) ∧
          t ∈ topics ∧ cfg.valid t = true) ∨
      -- or the registration of `i`, with `t` among the topics of the authentication
      (lab = .register i ∧ ∃ x topics, s.sess[i]? = some x ∧ x.who = .user u topics ∧ t ∈ topics)) :
    SubscribedTo s' u t := by
  have hr := h0.then hs
  have hinv1 := inv_run hr
  have hinv := inv_run h0
  have done : s1.table.getUserConnection u = some i → s1.table.bcUsers.Bwd u t → SubscribedTo s' u t := by
    intro h1 h2
    rw [subscribedTo_iff]
    exact on_run hr h h1 hi' h2 hno
  rcases hlab with ⟨hi, raw, x, ts0, topics, rfl, hx, hw, hd, hh, ht, hv⟩ | ⟨rfl, x, topics, hx, hw, ht⟩
  · have hmem : t ∈ (prune cfg.valid topics).1 := ((Prune.C16_prune cfg.valid topics).2.2.1 t).2 ⟨ht, hv⟩
    have hok : (prune cfg.valid topics).2 = true := by
      refine Decidable.byContradiction fun hn => ?_
      have := (Prune.C16_prune cfg.valid topics).1.1 (by simpa using hn) t ht
      rw [hv] at this; cases this
    have hact : act cfg x.hook raw x.who =
        ((cfg.userHook x.hook (.subscribe topics)).1, .op (.subscribeUser u (prune cfg.valid topics).1)) := by
      simp [hw, act, userAct, hd, hh, hok]
    cases hs with
    | frameOp _ y hy _ _ hk o ha =>
      rw [hx] at hy; cases hy
      rw [hact] at ha
      cases ha
      refine done hi ?_
      simp [Conns.step, subscribeUser, RMap.bwd_associate, hmem]
    | frameIdle _ y hy _ _ hk ha =>
      rw [hx] at hy; cases hy
      rw [hact] at ha
      cases ha
    | frameFail _ y hy _ _ hk ha =>
      rw [hx] at hy; cases hy
      rw [hact] at ha
      cases ha
  · cases hs with
    | register _ y hy hf =>
      rw [hx] at hy; cases hy
      refine done ?_ ?_
      · simp [Conns.step, hw, Who.add, addUser, getUserConnection]
      · simp [Conns.step, hw, Who.add, addUser, RMap.bwd_associate, ht]

/-- Non-trivial case of `C52_partial`: connected with topic 5, then asking for 7. -/
example (cfg : Cfg B σ) (id : B) (hook : σ) (u raw : Bytes) (h : AsksFor cfg hook raw 7) :
    ∃ ls os s, Run cfg (St.new id) ls os s ∧ s.table.getUserConnection u = some 0 ∧
      SubscribedTo s u 5 ∧ SubscribedTo s u 7 := by
  obtain ⟨hk, hact⟩ := asksFor_act h u [5]
  have h1 := run_first cfg id hook u [5]
  have h2 : Run cfg (St.new id) [.connect (.user u [5]), .spawn 0, .register 0, .wake 0] [.addUser u 0 [5]]
      ⟨(Conns.new id).step (.addUser u 0 [5]), [us u [5] hook .registered .awake], []⟩ :=
    h1.then (.wake 0 (us u [5] hook .registered .asleep) rfl rfl
      (by simp [Conns.step, addUser, removeUser_aborted, Conns.new]))
  refine ⟨_, _, _, h2.then (.frameOp 0 (us u [5] hook .registered .awake) rfl rfl raw hk _ hact), ?_, ?_, ?_⟩
  · simp [Conns.step, subscribeUser, addUser, getUserConnection]
  · rw [subscribedTo_iff]; simp [Conns.step, subscribeUser, addUser, RMap.bwd_associate]
  · rw [subscribedTo_iff]; simp [Conns.step, subscribeUser, RMap.bwd_associate]

/-! ## C53 -/

/-- What is broadcast to `t` by a user is forwarded to broker `b`. -/
def Forwards (s : St B σ) (b : B) (t : Topic) : Prop := b ∈ (s.table.getInterestedByTopic [t] false).1

theorem forwards_iff (s : St B σ) (b : B) (t : Topic) : Forwards s b t ↔ s.table.bcBrokers.Bwd b t := by
  unfold Forwards
  rw [(mem_interested s.table [t] false).2.1 b]
  simp

/-- With these bytes a broker sends the topic sync `m`, and the hook lets it pass. -/
def Syncs (cfg : Cfg B σ) (hook : σ) (raw : Bytes) (m : TopicSync Topic) : Prop :=
  ∃ d, cfg.decode raw = some (.topicSync d) ∧ cfg.decTopicSync d = some m ∧
    (cfg.brokerHook hook (.topicSync d)).2 = (.topicSync d, .process)

theorem syncs_act {cfg : Cfg B σ} {hook : σ} {raw : Bytes} {m : TopicSync Topic} (h : Syncs cfg hook raw m)
    (b : B) : ∃ hk, act cfg hook raw (.broker b) = (hk, .op (.applyTopicSync b m)) := by
  obtain ⟨d, h1, h2, h3⟩ := h
  exact ⟨(cfg.brokerHook hook (.topicSync d)).1, by simp [act, brokerAct, h1, h2, h3]⟩

/-- A session of broker `b`. -/
def bs (b : B) (hook : σ) (h : HPt) (l : LPt) : Sess B σ := ⟨.broker b, hook, h, l⟩

/-- **C53 is false.** The initial topic sync is handled before the broker is registered: it is dropped, and
nothing is forwarded to the peer although it is connected. -/
theorem C53_false (cfg : Cfg B σ) (id b : B) (hook : σ) (raw : Bytes) (m : TopicSync Topic)
    (h : Syncs cfg hook raw m) :
    ∃ s, Run cfg (St.new id)
      [.connect (.broker b), .spawn 0, .wake 0, .frame 0 raw, .register 0]
      [.applyTopicSync b m, .addBroker b 0] s ∧
      s.table.getBrokerConnection b = some 0 ∧ ∀ t, ¬ Forwards s b t := by
  obtain ⟨hk, hact⟩ := syncs_act h b
  have h1 : Run cfg (St.new id) [.connect (.broker b)] [] ⟨Conns.new id, [bs b hook .fresh .none], []⟩ :=
    (Run.nil (s := St.new id)).then (.connect (.broker b) hook)
  have h2 : Run cfg (St.new id) [.connect (.broker b), .spawn 0] []
      ⟨Conns.new id, [bs b hook .spawned .asleep], []⟩ := h1.then (.spawn 0 (bs b hook .fresh .none) rfl rfl)
  have h3 : Run cfg (St.new id) [.connect (.broker b), .spawn 0, .wake 0] []
      ⟨Conns.new id, [bs b hook .spawned .awake], []⟩ :=
    h2.then (.wake 0 (bs b hook .spawned .asleep) rfl rfl (by simp [Conns.new]))
  have h4 : Run cfg (St.new id) [.connect (.broker b), .spawn 0, .wake 0, .frame 0 raw] [.applyTopicSync b m]
      ⟨(Conns.new id).step (.applyTopicSync b m), [bs b hk .spawned .awake], []⟩ :=
    h3.then (.frameOp 0 (bs b hook .spawned .awake) rfl rfl raw hk _ hact)
  have hi := (inv_run h4).index
  refine ⟨_, h4.then (.register 0 (bs b hk .spawned .awake) rfl rfl), ?_, fun t => ?_⟩
  · simp [bs, Conns.step, Who.add, addBroker, getBrokerConnection]
  · rw [forwards_iff]
    simp only [Conns.step, bs, Who.add, addBroker, removeBroker_bcBrokers] at hi ⊢
    rw [RMap.bwd_removeKey hi.2]
    simp

/-- **C53, what holds.** If the peer's first topic sync is handled after the registration (and nothing else about
the peer in between), then exactly the topics it says are subscribed are forwarded. -/
theorem C53_partial (cfg : Cfg B σ) (id b : B) (l0 ls : List (Lab B)) (o0 os : List (TOp B Nat))
    (o1 o2 : List (TOp B Nat)) (s0 s1 s2 s3 : St B σ) (i : Nat) (raw : Bytes) (m : TopicSync Topic)
    (h0 : Run cfg (St.new id) l0 o0 s0) (x : Sess B σ) (hx : s0.sess[i]? = some x) (hw : x.who = .broker b)
    (hreg : Step cfg s0 (.register i) o1 s1) (h : Run cfg s1 ls os s2)
    (hno : ∀ o ∈ os, NotAbout b o)
    (y : Sess B σ) (hy : s2.sess[i]? = some y) (hm : Syncs cfg y.hook raw m)
    (hval : ∀ t e, m.map.get t = some e → e.value ≠ none)
    (hfr : Step cfg s2 (.frame i raw) o2 s3) (t : Topic) :
    Forwards s3 b t ↔ m.get t = some .subscribed := by
  have hi0 := (inv_run h0).index
  have hrun1 := h0.then hreg
  have hyw : y.who = .broker b := by
    obtain ⟨x1, hx1, hw1, -⟩ := sess_step hreg hx
    have key : ∃ z, s2.sess[i]? = some z ∧ z.who = .broker b := by
      clear hno hfr hy hm
      induction h with
      | nil => exact ⟨x1, hx1, hw1.trans hw⟩
      | snoc ls os s1 l o s2 h hs ih =>
        obtain ⟨z, hz, hzw⟩ := ih
        obtain ⟨z', hz', hzw', -⟩ := sess_step hs hz
        exact ⟨z', hz', hzw'.trans hzw⟩
    obtain ⟨z, hz, hzw⟩ := key
    rw [hy] at hz; cases hz; exact hzw
  -- at registration
  have hr1 : RInv s1.table b m := by
    cases hreg with
    | register _ x' hx' hf =>
      rw [hx] at hx'; cases hx'
      refine ⟨(inv_run hrun1).index, ⟨⟨i, VMap.new 0⟩, ?_, ?_, ?_, ?_⟩⟩
      · simp [Conns.step, hw, Who.add, addBroker]
      · intro t x hx; simp [VMap.new] at hx
      · intro t x hx; simp [VMap.new] at hx
      · intro t
        simp only [Conns.step, hw, Who.add, addBroker, removeBroker_bcBrokers]
        rw [RMap.bwd_removeKey hi0.2]
        simp [VMap.get, VMap.new]
  have hr2 : RInv s2.table b m := by
    clear hfr hy hm
    induction h with
    | nil => exact hr1
    | snoc ls os s1' l o s2 h hs ih =>
      have ih := ih (fun o ho => hno o (List.mem_append_left _ ho))
      have hone : o = [] ∨ ∃ o1, o = [o1] := by cases hs <;> simp
      rw [step_table hs]
      rcases hone with rfl | ⟨op, rfl⟩
      · exact ih
      · obtain ⟨e1, e2⟩ := notAbout_step s1'.table b op ih.index (hno op (by simp))
        obtain ⟨hidx, e, he, hp, hv, hb⟩ := ih
        exact ⟨indexInv_step _ _ hidx, e, by rw [← he]; exact e1, hp, hv, fun t => (e2 t).trans (hb t)⟩
  obtain ⟨hr3, hr4⟩ := rinv_apply s2.table b m m hr2 (Past.refl m) hval
  obtain ⟨hk, hact⟩ := syncs_act hm b
  rw [← hyw] at hact
  have htab : s3.table = s2.table.applyTopicSync b m := by
    cases hfr with
    | frameOp _ z hz _ _ hk o ha =>
      rw [hy] at hz; cases hz
      rw [hact] at ha; cases ha; rfl
    | frameIdle _ z hz _ _ hk ha =>
      rw [hy] at hz; cases hz
      rw [hact] at ha; cases ha
    | frameFail _ z hz _ _ hk ha =>
      rw [hy] at hz; cases hz
      rw [hact] at ha; cases ha
  rw [forwards_iff, htab]
  obtain ⟨-, e, he, hpast, -, hb⟩ := hr3
  obtain ⟨e0, he0, -⟩ := hr2.view
  rw [hb t]
  have : e.topicSync.map.get t = m.map.get t := by
    cases hmt : m.map.get t with
    | some v => exact hr4 e0 e he0 he t v hmt (Or.inr hmt)
    | none =>
      cases het : e.topicSync.map.get t with
      | none => rfl
      | some v =>
        obtain ⟨w, hw, -⟩ := hpast t v het
        rw [hmt] at hw; cases hw
  simp only [VMap.get, this]

/-! ## C64 -/

/-- **C64 is false.** The receive loop ends before the connection is registered: the removal finds nothing, the
registration comes afterwards, and the user is connected, subscribed and routed to, with nobody reading from
the connection ever again. -/
theorem C64_false (cfg : Cfg B σ) (id : B) (hook : σ) (u : Bytes) (ts : List Topic) :
    ∃ s, Run cfg (St.new id)
      [.connect (.user u ts), .spawn 0, .wake 0, .recvErr 0, .remove 0, .register 0]
      [.removeUser u, .addUser u 0 ts] s ∧
      s.sess[0]?.map Sess.l = some .done ∧
      s.table.getUserConnection u = some 0 ∧ ∀ t ∈ ts, SubscribedTo s u t := by
  have h1 : Run cfg (St.new id) [.connect (.user u ts)] [] ⟨Conns.new id, [us u ts hook .fresh .none], []⟩ :=
    (Run.nil (s := St.new id)).then (.connect (.user u ts) hook)
  have h2 : Run cfg (St.new id) [.connect (.user u ts), .spawn 0] []
      ⟨Conns.new id, [us u ts hook .spawned .asleep], []⟩ := h1.then (.spawn 0 (us u ts hook .fresh .none) rfl rfl)
  have h3 : Run cfg (St.new id) [.connect (.user u ts), .spawn 0, .wake 0] []
      ⟨Conns.new id, [us u ts hook .spawned .awake], []⟩ :=
    h2.then (.wake 0 (us u ts hook .spawned .asleep) rfl rfl (by simp [Conns.new]))
  have h4 : Run cfg (St.new id) [.connect (.user u ts), .spawn 0, .wake 0, .recvErr 0] []
      ⟨Conns.new id, [us u ts hook .spawned .failed], []⟩ :=
    h3.then (.recvErr 0 (us u ts hook .spawned .awake) rfl rfl)
  have h5 : Run cfg (St.new id) [.connect (.user u ts), .spawn 0, .wake 0, .recvErr 0, .remove 0] [.removeUser u]
      ⟨(Conns.new id).step (.removeUser u), [us u ts hook .spawned .done], []⟩ :=
    h4.then (.remove 0 (us u ts hook .spawned .failed) rfl rfl)
  refine ⟨_, h5.then (.register 0 (us u ts hook .spawned .done) rfl rfl), rfl, ?_, fun t ht => ?_⟩
  · simp [us, Conns.step, Who.add, addUser, getUserConnection]
  · rw [subscribedTo_iff]
    simp [us, Conns.step, Who.add, addUser, RMap.bwd_associate, ht]

/-- Who a session belongs to does not change, and it stays registered. -/
theorem sess_run {cfg : Cfg B σ} {s s' : St B σ} {ls : List (Lab B)} {os : List (TOp B Nat)}
    (h : Run cfg s ls os s') {i : Nat} {x : Sess B σ} (hx : s.sess[i]? = some x) :
    ∃ x', s'.sess[i]? = some x' ∧ x'.who = x.who ∧ (x.h = .registered → x'.h = .registered) := by
  induction h with
  | nil => exact ⟨x, hx, rfl, fun h => h⟩
  | snoc ls os s1 l o s2 h hs ih =>
    obtain ⟨y, hy, h1, h2⟩ := ih
    obtain ⟨z, hz, h3, h4⟩ := sess_step hs hy
    exact ⟨z, hz, h3.trans h1, fun h => h4 (h2 h)⟩

/-- **C64, what holds.** A connection whose receive task was still there when it was registered is no longer listed
once that task has ended, for users and brokers. -/
theorem C64_partial (cfg : Cfg B σ) (id : B) (l0 ls : List (Lab B)) (o0 os : List (TOp B Nat)) (s s' : St B σ)
    (h0 : Run cfg (St.new id) l0 o0 s) (h : Run cfg s ls os s') (i : Nat) (x x' : Sess B σ)
    (hx : s.sess[i]? = some x) (hr : x.h = .registered) (hl : x.l ≠ .done)
    (hx' : s'.sess[i]? = some x') (hd : x'.l = .done) :
    (∀ u, s'.table.getUserConnection u ≠ some i) ∧ (∀ b, s'.table.getBrokerConnection b ≠ some i) := by
  have key : ∀ x', s'.sess[i]? = some x' → x'.l = .done → i ∈ s'.table.aborted := by
    clear hx' hd
    induction h with
    | nil =>
      intro x' hx' hd
      rw [hx] at hx'; cases hx'
      exact absurd hd hl
    | snoc ls os s1 l o s2 h hs ih =>
      intro x' hx' hd
      obtain ⟨y, hy, hyw, hyr⟩ := sess_run h hx
      have hinv := inv_run (h0.trans h)
      have hinv2 := inv_run ((h0.trans h).then hs)
      have old : y.l = .done → i ∈ s2.table.aborted := fun h => by
        rw [step_table hs]; exact aborted_run _ _ (ih y hy h)
      have hset : ∀ (j : Nat) (z z' : Sess B σ), s1.sess[j]? = some z → (s1.sess.set j z')[i]? = some x' →
          (z'.l = .done → z.l = .done) → i ∈ s2.table.aborted := by
        intro j z z' hz hx' himp
        rcases set_get hx' with ⟨hij, hx'⟩ | ⟨rfl, rfl⟩
        · rw [hy] at hx'; cases hx'; exact old hd
        · rw [hy] at hz; cases hz; exact old (himp hd)
      have hsame : s1.sess[i]? = some x' → i ∈ s2.table.aborted := by
        intro hx'
        rw [hy] at hx'; cases hx'; exact old hd
      cases hs with
      | connect who hook =>
        rcases append_get hx' with hx' | ⟨rfl, rfl⟩
        · exact hsame hx'
        · cases hd
      | spawn j z hz hf => exact hset j z _ hz hx' (by simp)
      | register j z hz hf => exact hset j z _ hz hx' (fun h => h)
      | wake j z hz hf => exact hset j z _ hz hx' (by simp)
      | sleep j z hz hf => exact hset j z _ hz hx' (by simp)
      | cancelled j z hz hf ha =>
        rcases set_get hx' with ⟨hij, hx'⟩ | ⟨rfl, rfl⟩
        · rw [hy] at hx'; cases hx'; exact old hd
        · exact ha
      | frameOp j z hz => exact hset j z _ hz hx' (fun h => h)
      | frameIdle j z hz => exact hset j z _ hz hx' (fun h => h)
      | frameFail j z hz => exact hset j z _ hz hx' (by simp)
      | recvErr j z hz => exact hset j z _ hz hx' (by simp)
      | remove j z hz hf =>
        rcases set_get hx' with ⟨hij, hx''⟩ | ⟨rfl, rfl⟩
        · rw [hy] at hx''; cases hx''; exact old hd
        · rw [hy] at hz; cases hz
          refine hinv2.aborted ⟨_, hx', hyr hr⟩ ?_
          rintro (⟨u, hu⟩ | ⟨b, hb⟩)
          · obtain ⟨w, ts, hw1, hw2⟩ := hinv2.user u _ hu
            rw [hx'] at hw1; cases hw1
            have hw2 : y.who = .user u ts := hw2
            simp [Conns.step, hw2, Who.del, getUserConnection, removeUser_users_get] at hu
          · obtain ⟨w, hw1, hw2⟩ := hinv2.broker b _ hb
            rw [hx'] at hw1; cases hw1
            have hw2 : y.who = .broker b := hw2
            simp [Conns.step, hw2, Who.del, getBrokerConnection, removeBroker_brokers_get] at hb
      | sendErr => exact hsame hx'
      | sendRemove => exact hsame hx'
      | kick => exact hsame hx'
      | userSync => exact hsame hx'
      | topicSync => exact hsame hx'
  have ha := key x' hx' hd
  have hinv := inv_run (h0.trans h)
  exact ⟨fun u hu => hinv.not_aborted (Or.inl ⟨u, hu⟩) ha, fun b hb => hinv.not_aborted (Or.inr ⟨b, hb⟩) ha⟩

/-! ## C65 -/

/-- **C65 is false.** The whitelist task removes the user while its receive loop is running; the loop still handles
a subscription, is then suspended and never resumed. No user is connected, no task is left, and the broker
announces the topic to the other brokers as subscribed. -/
theorem C65_false (cfg : Cfg B σ) (id : B) (hook : σ) (u raw : Bytes) (t : Topic) (h : AsksFor cfg hook raw t) :
    ∃ os s, Run cfg (St.new id)
      [.connect (.user u []), .spawn 0, .register 0, .wake 0, .kick u, .frame 0 raw, .sleep 0, .cancelled 0] os s ∧
      s.sess.map Sess.l = [.done] ∧ (∀ u', s.table.getUserConnection u' = none) ∧
      ∃ m, s.table.getPartialTopicSync.2 = some m ∧ m.get t = some .subscribed := by
  obtain ⟨hk, hact⟩ := asksFor_act h u []
  have h1 := run_first cfg id hook u []
  have h2 : Run cfg (St.new id) [.connect (.user u []), .spawn 0, .register 0, .wake 0] [.addUser u 0 []]
      ⟨(Conns.new id).step (.addUser u 0 []), [us u [] hook .registered .awake], []⟩ :=
    h1.then (.wake 0 (us u [] hook .registered .asleep) rfl rfl
      (by simp [Conns.step, addUser, removeUser_aborted, Conns.new]))
  have h3 : Run cfg (St.new id) [.connect (.user u []), .spawn 0, .register 0, .wake 0, .kick u]
      [.addUser u 0 [], .removeUser u]
      ⟨(Conns.new id).run [.addUser u 0 [], .removeUser u], [us u [] hook .registered .awake], []⟩ :=
    h2.then (.kick u)
  have h4 : Run cfg (St.new id) [.connect (.user u []), .spawn 0, .register 0, .wake 0, .kick u, .frame 0 raw]
      [.addUser u 0 [], .removeUser u, .subscribeUser u [t]]
      ⟨(Conns.new id).run [.addUser u 0 [], .removeUser u, .subscribeUser u [t]],
        [us u [] hk .registered .awake], []⟩ :=
    h3.then (.frameOp 0 (us u [] hook .registered .awake) rfl rfl raw hk _ hact)
  have h5 : Run cfg (St.new id) [.connect (.user u []), .spawn 0, .register 0, .wake 0, .kick u, .frame 0 raw, .sleep 0]
      [.addUser u 0 [], .removeUser u, .subscribeUser u [t]]
      ⟨(Conns.new id).run [.addUser u 0 [], .removeUser u, .subscribeUser u [t]],
        [us u [] hk .registered .asleep], []⟩ :=
    h4.then (.sleep 0 (us u [] hk .registered .awake) rfl rfl)
  refine ⟨_, _, h5.then (.cancelled 0 (us u [] hk .registered .asleep) rfl rfl ?_), rfl, ?_, ?_⟩
  · simp [Conns.run, Conns.step, subscribeUser, addUser, removeUser_aborted]
  · intro u'
    by_cases hu : u = u'
    · simp [Conns.run, Conns.step, subscribeUser, addUser, getUserConnection, removeUser_users_get, hu]
    · simp [Conns.run, Conns.step, subscribeUser, addUser, getUserConnection, removeUser_users_get, hu, AMap.get_insert,
        Conns.new]
  · have hc := C22_sync_iff_changed (T := Topic) (H := Nat) id [.addUser u 0 [], .removeUser u, .subscribeUser u [t]]
    have hsub : Subscribed ((Conns.new id : Table B Nat).run [.addUser u 0 [], .removeUser u, .subscribeUser u [t]]) t := by
      rw [subscribed_iff]
      exact ⟨u, by simp [Conns.run, Conns.step, subscribeUser, RMap.bwd_associate]⟩
    dsimp only at hc ⊢
    cases hm : ((Conns.new id : Table B Nat).run
        [.addUser u 0 [], .removeUser u, .subscribeUser u [t]]).getPartialTopicSync.2 with
    | none =>
      rw [hm] at hc
      exact absurd ((hc t).1 hsub) (by simp [lastSynced])
    | some m =>
      rw [hm] at hc
      exact ⟨m, rfl, ((hc.2 t).1).2 ⟨hsub, by simp [lastSynced]⟩⟩

/-- **C65, what holds.** If every subscription was handled while its user was connected, then every topic announced
as subscribed has a connected subscriber. -/
theorem C65_partial (cfg : Cfg B σ) (id : B) (ls : List (Lab B)) (os : List (TOp B Nat)) (s : St B σ)
    (h : Run cfg (St.new id) ls os s) (hw : SubscribesConnected (Conns.new id) os) (m : TopicSync Topic)
    (hm : s.table.getPartialTopicSync.2 = some m) (t : Topic) (ht : m.get t = some .subscribed) :
    ∃ u, SubscribedTo s u t ∧ (s.table.getUserConnection u).isSome := by
  have htab := (inv_run h).table
  have hc := C22_sync_iff_changed id os
  dsimp only at hc
  rw [← htab, hm] at hc
  obtain ⟨u, hu⟩ := (((hc.2 t).1).1 ht).1
  refine ⟨u, hu, ?_⟩
  have := (C11_interested_are_connected id os hw [t] true).1 u
  rw [← htab] at this
  exact this hu

/-! ## C66 -/

/-- **C66 is false.** Connection 1 of `u` has replaced connection 0, whose receive loop happens to be running: a
subscription that arrives on the old connection takes effect for the new one. -/
theorem C66_false (cfg : Cfg B σ) (id : B) (hook : σ) (u raw : Bytes) (t : Topic) (h : AsksFor cfg hook raw t) :
    ∃ os s1 s, Run cfg (St.new id)
      [.connect (.user u []), .spawn 0, .register 0, .wake 0, .connect (.user u []), .spawn 1, .register 1] os s1 ∧
      s1.table.getUserConnection u = some 1 ∧ 0 ∈ s1.table.aborted ∧ ¬ SubscribedTo s1 u t ∧
      Run cfg s1 [.frame 0 raw] [.subscribeUser u [t]] s ∧
      s.table.getUserConnection u = some 1 ∧ SubscribedTo s u t := by
  obtain ⟨hk, hact⟩ := asksFor_act h u []
  have h1 := run_first cfg id hook u []
  have h2 : Run cfg (St.new id) [.connect (.user u []), .spawn 0, .register 0, .wake 0] [.addUser u 0 []]
      ⟨(Conns.new id).step (.addUser u 0 []), [us u [] hook .registered .awake], []⟩ :=
    h1.then (.wake 0 (us u [] hook .registered .asleep) rfl rfl
      (by simp [Conns.step, addUser, removeUser_aborted, Conns.new]))
  have h4 := h2.trans (run_second cfg _ _ _ hook u [])
  have hi := (inv_run h2).index
  refine ⟨_, _, _, h4, ?_, ?_, ?_,
    Run.nil.then (.frameOp 0 (us u [] hook .registered .awake) rfl rfl raw hk _ hact), ?_, ?_⟩
  · simp [Conns.step, addUser, getUserConnection]
  · simp [Conns.step, addUser, removeUser_aborted]
  · rw [subscribedTo_iff]
    generalize (Conns.step (Conns.new id : Table B Nat) (.addUser u 0 [])) = T at hi
    simp only [Conns.step, addUser, removeUser_bcUsers, RMap.bwd_associate]
    rw [RMap.bwd_removeKey hi.1]
    simp
  · simp [Conns.step, addUser, subscribeUser, getUserConnection]
  · rw [subscribedTo_iff]
    simp [Conns.step, subscribeUser, RMap.bwd_associate]

/-- **C66, what holds.** A connection that was registered and is no longer the user's, and whose receive task is not
running, never handles a frame again, and never removes anybody. -/
theorem C66_partial (cfg : Cfg B σ) (id : B) (l0 ls : List (Lab B)) (o0 os : List (TOp B Nat)) (s s' : St B σ)
    (h0 : Run cfg (St.new id) l0 o0 s) (h : Run cfg s ls os s') (u : Bytes) (i : Nat) (x : Sess B σ)
    (ts : List Topic) (hx : s.sess[i]? = some x) (hw : x.who = .user u ts) (hr : x.h = .registered)
    (hgone : s.table.getUserConnection u ≠ some i) (hl : x.l ≠ .awake) (hf : x.l ≠ .failed) :
    (∀ raw, Lab.frame i raw ∉ ls) ∧ Lab.remove i ∉ ls := by
  have hinv := inv_run h0
  have ha : i ∈ s.table.aborted := by
    refine hinv.aborted ⟨x, hx, hr⟩ ?_
    rintro (⟨u', hu⟩ | ⟨b, hb⟩)
    · obtain ⟨y, ts', hy, hyw⟩ := hinv.user u' i hu
      rw [hx] at hy; cases hy
      rw [hw] at hyw; cases hyw
      exact hgone hu
    · obtain ⟨y, hy, hyw⟩ := hinv.broker b i hb
      rw [hx] at hy; cases hy
      rw [hw] at hyw; cases hyw
  have key : ((∀ raw, Lab.frame i raw ∉ ls) ∧ Lab.remove i ∉ ls) ∧
      ∃ y, s'.sess[i]? = some y ∧ y.h = .registered ∧ y.l ≠ .awake ∧ y.l ≠ .failed := by
    induction h with
    | nil => exact ⟨⟨by simp, by simp⟩, x, hx, hr, hl, hf⟩
    | snoc ls os s1 l o s2 h hs ih =>
      obtain ⟨⟨ih1, ih2⟩, y, hy, hyr, hyl, hyf⟩ := ih
      have ha1 := aborted_of_run h ha
      have hset : ∀ (j : Nat) (z z' : Sess B σ), s1.sess[j]? = some z →
          (i = j → z'.h = .registered ∧ z'.l ≠ .awake ∧ z'.l ≠ .failed) →
          ∃ y, (s1.sess.set j z')[i]? = some y ∧ y.h = .registered ∧ y.l ≠ .awake ∧ y.l ≠ .failed := by
        intro j z z' hz himp
        by_cases hij : i = j
        · subst hij
          exact ⟨z', List.getElem?_set_self (List.getElem?_eq_some_iff.1 hz).1, himp rfl⟩
        · exact ⟨y, by rw [List.getElem?_set_ne (fun e => hij e.symm)]; exact hy, hyr, hyl, hyf⟩
      have hlab : ∀ l, (∀ raw, l ≠ Lab.frame i raw) → l ≠ Lab.remove i →
          (∀ raw, Lab.frame i raw ∉ ls ++ [l]) ∧ Lab.remove i ∉ ls ++ [l] := by
        intro l h1 h2
        refine ⟨fun raw => ?_, ?_⟩
        · simp only [List.mem_append, List.mem_singleton, not_or]
          exact ⟨ih1 raw, fun e => h1 raw e.symm⟩
        · simp only [List.mem_append, List.mem_singleton, not_or]
          exact ⟨ih2, fun e => h2 e.symm⟩
      cases hs with
      | connect who hook =>
        refine ⟨hlab _ (by simp) (by simp), y, ?_, hyr, hyl, hyf⟩
        simp only
        rw [List.getElem?_append_left (List.getElem?_eq_some_iff.1 hy).1]; exact hy
      | spawn j z hz hzf =>
        refine ⟨hlab _ (by simp) (by simp), hset j z _ hz ?_⟩
        rintro rfl
        rw [hy] at hz; cases hz
        rw [hyr] at hzf; cases hzf
      | register j z hz hzf =>
        refine ⟨hlab _ (by simp) (by simp), hset j z _ hz ?_⟩
        rintro rfl
        rw [hy] at hz; cases hz
        exact ⟨rfl, hyl, hyf⟩
      | wake j z hz hzf hna =>
        refine ⟨hlab _ (by simp) (by simp), hset j z _ hz ?_⟩
        rintro rfl
        exact absurd ha1 hna
      | sleep j z hz hzf =>
        refine ⟨hlab _ (by simp) (by simp), hset j z _ hz ?_⟩
        rintro rfl
        rw [hy] at hz; cases hz
        exact absurd hzf hyl
      | cancelled j z hz hzf =>
        refine ⟨hlab _ (by simp) (by simp), hset j z _ hz ?_⟩
        rintro rfl
        rw [hy] at hz; cases hz
        exact ⟨hyr, by simp, by simp⟩
      | recvErr j z hz hzf =>
        refine ⟨hlab _ (by simp) (by simp), hset j z _ hz ?_⟩
        rintro rfl
        rw [hy] at hz; cases hz
        exact absurd hzf hyl
      | frameOp j z hz hzf raw =>
        have hij : i ≠ j := by rintro rfl; rw [hy] at hz; cases hz; exact hyl hzf
        exact ⟨hlab _ (by rintro _ e; cases e; exact hij rfl) (by simp), hset j z _ hz (fun e => absurd e hij)⟩
      | frameIdle j z hz hzf raw =>
        have hij : i ≠ j := by rintro rfl; rw [hy] at hz; cases hz; exact hyl hzf
        exact ⟨hlab _ (by rintro _ e; cases e; exact hij rfl) (by simp), hset j z _ hz (fun e => absurd e hij)⟩
      | frameFail j z hz hzf raw =>
        have hij : i ≠ j := by rintro rfl; rw [hy] at hz; cases hz; exact hyl hzf
        exact ⟨hlab _ (by rintro _ e; cases e; exact hij rfl) (by simp), hset j z _ hz (fun e => absurd e hij)⟩
      | remove j z hz hzf =>
        have hij : i ≠ j := by rintro rfl; rw [hy] at hz; cases hz; exact hyf hzf
        exact ⟨hlab _ (by simp) (by rintro e; cases e; exact hij rfl), hset j z _ hz (fun e => absurd e hij)⟩
      | sendErr => exact ⟨hlab _ (by simp) (by simp), y, hy, hyr, hyl, hyf⟩
      | sendRemove => exact ⟨hlab _ (by simp) (by simp), y, hy, hyr, hyl, hyf⟩
      | kick => exact ⟨hlab _ (by simp) (by simp), y, hy, hyr, hyl, hyf⟩
      | userSync => exact ⟨hlab _ (by simp) (by simp), y, hy, hyr, hyl, hyf⟩
      | topicSync => exact ⟨hlab _ (by simp) (by simp), y, hy, hyr, hyl, hyf⟩
  exact key.1

/-- **C66, at most one active connection per user.** In every reachable state, of all the registered connections of
a user at most one has a receive task that was not told to stop, and that is the one messages for the user are
sent on. -/
theorem C66_one_active_partial (cfg : Cfg B σ) (id : B) (ls : List (Lab B)) (os : List (TOp B Nat)) (s : St B σ)
    (h : Run cfg (St.new id) ls os s) (u : Bytes) (i : Nat) (x : Sess B σ) (ts : List Topic)
    (hx : s.sess[i]? = some x) (hw : x.who = .user u ts) (hr : x.h = .registered) :
    i ∉ s.table.aborted ↔ s.table.getUserConnection u = some i := by
  have hinv := inv_run h
  constructor
  · intro ha
    refine Decidable.byContradiction fun hn => ha (hinv.aborted ⟨x, hx, hr⟩ ?_)
    rintro (⟨u', hu⟩ | ⟨b, hb⟩)
    · obtain ⟨y, ts', hy, hyw⟩ := hinv.user u' i hu
      rw [hx] at hy; cases hy
      rw [hw] at hyw; cases hyw
      exact hn hu
    · obtain ⟨y, hy, hyw⟩ := hinv.broker b i hb
      rw [hx] at hy; cases hy
      rw [hw] at hyw; cases hyw
  · intro hu
    exact hinv.not_aborted (Or.inl ⟨u, hu⟩)

/-! ## Concrete cases -/

/-- A topic sync saying that topic 5 is subscribed and topic 6 no longer. -/
def toySync : TopicSync Topic := ⟨AMap.ofList [(5, ⟨1, some .subscribed⟩), (6, ⟨2, some .unsubscribed⟩)], FSet.empty, 0⟩

/-- A small configuration: `[0, t]` asks for topic `t`, `[1]` is the topic sync above, other bytes are refused. -/
def toy : Cfg Nat Unit where
  decode := fun raw => match raw with
    | [0, t] => some (.subscribe [t])
    | [1] => some (.topicSync [])
    | _ => none
  decUserSync := fun _ => none
  decTopicSync := fun _ => some toySync
  valid := fun t => t < 100
  userHook := fun h m => (h, m, .process)
  brokerHook := fun h m => (h, m, .process)

/-- The hypotheses of C52_false, C65_false, C66_false can be met. -/
example : AsksFor toy () [0, 7] 7 := ⟨rfl, rfl, rfl⟩

/-- The hypotheses of C53_false can be met with a sync that announces something. -/
example : Syncs toy () [1] toySync ∧ toySync.get 5 = some .subscribed := ⟨⟨[], rfl, rfl, rfl⟩, rfl⟩

/-- Non-trivial case of `C53_partial`: registered first, then the sync: 5 is forwarded, 6 is not. -/
example : ∃ ls os s, Run toy (St.new 1) ls os s ∧ Forwards s 2 5 ∧ ¬ Forwards s 2 6 := by
  have h1 : Run toy (St.new 1) [.connect (.broker 2)] [] ⟨Conns.new 1, [bs 2 () .fresh .none], []⟩ :=
    (Run.nil (s := St.new 1)).then (.connect (.broker 2) ())
  have h2 : Run toy (St.new 1) [.connect (.broker 2), .spawn 0] []
      ⟨Conns.new 1, [bs 2 () .spawned .asleep], []⟩ := h1.then (.spawn 0 (bs 2 () .fresh .none) rfl rfl)
  have h3 : Run toy (St.new 1) [.connect (.broker 2), .spawn 0, .wake 0] []
      ⟨Conns.new 1, [bs 2 () .spawned .awake], []⟩ :=
    h2.then (.wake 0 (bs 2 () .spawned .asleep) rfl rfl (by simp [Conns.new]))
  have hreg : Step toy ⟨Conns.new 1, [bs 2 () .spawned .awake], []⟩ (.register 0) [.addBroker 2 0]
      ⟨(Conns.new 1).step (.addBroker 2 0), [bs 2 () .registered .awake], []⟩ :=
    .register 0 (bs 2 () .spawned .awake) rfl rfl
  have hfr : Step toy ⟨(Conns.new 1).step (.addBroker 2 0), [bs 2 () .registered .awake], []⟩ (.frame 0 [1])
      [.applyTopicSync 2 toySync]
      ⟨((Conns.new 1).step (.addBroker 2 0)).step (.applyTopicSync 2 toySync), [bs 2 () .registered .awake], []⟩ :=
    .frameOp 0 (bs 2 () .registered .awake) rfl rfl [1] () _ rfl
  have hval : ∀ t e, toySync.map.get t = some e → e.value ≠ none := by
    intro t e h
    simp only [toySync, AMap.ofList, List.foldl_cons, List.foldl_nil, AMap.get_insert] at h
    split at h
    · cases h; simp
    · split at h
      · cases h; simp
      · simp at h
  have key := C53_partial toy 1 2 _ _ _ _ _ _ _ _ _ _ 0 [1] toySync h3 (bs 2 () .spawned .awake) rfl rfl hreg
    Run.nil (by simp) (bs 2 () .registered .awake) rfl ⟨[], rfl, rfl, rfl⟩ hval hfr
  exact ⟨_, _, _, (h3.then hreg).then hfr, (key 5).2 rfl, fun h => by have := (key 6).1 h; cases this⟩

/-- Non-trivial case of `C64_partial`: a registered user's loop fails on bytes it cannot decode and ends. -/
example : ∃ l0 o0 s s', Run toy (St.new 1) l0 o0 s ∧ s.table.getUserConnection [9] = some 0 ∧
    Run toy s [.wake 0, .frame 0 [3, 3, 3], .remove 0] [.removeUser [9]] s' ∧
    s'.sess.map Sess.l = [.done] ∧ s'.table.getUserConnection [9] = none := by
  refine ⟨_, _, _, ⟨((Conns.new 1).step (.addUser [9] 0 [5])).step (.removeUser [9]),
    [us [9] [5] () .registered .done], []⟩, run_first toy 1 () [9] [5], by decide, ?_, rfl, by decide⟩
  have g1 : Run toy ⟨(Conns.new 1).step (.addUser [9] 0 [5]), [us [9] [5] () .registered .asleep], []⟩ [.wake 0] []
      ⟨(Conns.new 1).step (.addUser [9] 0 [5]), [us [9] [5] () .registered .awake], []⟩ :=
    Run.nil.then (.wake 0 (us [9] [5] () .registered .asleep) rfl rfl (by decide))
  have g2 : Run toy ⟨(Conns.new 1).step (.addUser [9] 0 [5]), [us [9] [5] () .registered .asleep], []⟩
      [.wake 0, .frame 0 [3, 3, 3]] []
      ⟨(Conns.new 1).step (.addUser [9] 0 [5]), [us [9] [5] () .registered .failed], []⟩ :=
    g1.then (.frameFail 0 (us [9] [5] () .registered .awake) rfl rfl [3, 3, 3] () rfl)
  exact g2.then (.remove 0 (us [9] [5] () .registered .failed) rfl rfl)

/-- Non-trivial case of `C65_partial`: a user that connected with topic 5; the broker announces it. -/
example : ∃ ls os s m, Run toy (St.new 1) ls os s ∧ SubscribesConnected (Conns.new 1) os ∧
    s.table.getPartialTopicSync.2 = some m ∧ m.get 5 = some .subscribed :=
  ⟨_, _, _, _, run_first toy 1 () [9] [5], ⟨trivial, trivial⟩, rfl, rfl⟩

/-- Non-trivial case of `C66_partial` and `C66_one_active_partial`: a suspended connection is replaced. -/
example : ∃ ls os s x y, Run toy (St.new 1) ls os s ∧ s.table.getUserConnection [9] = some 1 ∧
    s.sess = [x, y] ∧ x.who = .user [9] [] ∧ x.h = .registered ∧ x.l = .asleep ∧ s.table.aborted = [0] :=
  ⟨_, _, _, _, _, (run_first toy 1 () [9] []).trans (run_second toy _ _ _ () [9] [5]), by decide, rfl, rfl, rfl,
    rfl, by decide⟩

end Verif.Props.Sessions

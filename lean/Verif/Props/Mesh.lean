import Verif.Lemmas.Mesh
import Verif.Props.TopicSync
import Verif.Props.Connections
import Verif.Props.Network

/-!
# Properties C71 and C72: topic interest in a mesh whose links come and go
-/

set_option linter.unusedSectionVars false

namespace Verif.Props.Mesh
open Verif Verif.Conns Verif.MNet Verif.Props.Connections

section
variable {U B T H : Type} [DecidableEq U] [DecidableEq B] [DecidableEq T] [DecidableEq H]
  [LT B] [DecidableLT B]

/-! ## Specification -/

/-- The two brokers have each other registered. -/
def Linked (n : MNet U B T H) (b b' : B) : Prop := n.knows b b' = true ∧ n.knows b' b = true

/-- The message is a topic sync. -/
def IsTopic : SyncMsg U B T → Prop
  | .topic _ => True
  | .user _ => False

/-- `b` has nothing new to announce about topics, and nothing it announced is on its way to `b'`: no
initial sync is due, no sync in progress still has to be sent to `b'`, no frame is queued. -/
structure TopicsSettled (n : MNet U B T H) (b b' : B) : Prop where
  announced : (n.st b).getPartialTopicSync.2 = none
  initial : (b, b') ∉ n.fullT
  sent : ∀ τ ∈ n.tasks, τ.here = b → IsTopic τ.msg → ∃ ds, τ.dests = some ds ∧ b' ∉ ds
  arrived : ∀ m ∈ n.ch b b', ¬ IsTopic m

/-! ## C71 -/

/-- **C71.** Freshly started brokers; users connect, disconnect, subscribe and unsubscribe anywhere;
links come up, fail at one end or both and come up again; brokers crash and are started again under the
same identity, while their peers still have the old one registered; any number of syncs per broker run
concurrently, with any interleaving of their steps, and sends may fail. Whenever two brokers are linked
and the topics of `b` have been announced and have arrived, `b'` forwards messages on topic `t` to `b`
exactly if some user of `b` is subscribed to `t`. (Fewer than `2^63` steps: versions must not wrap.) -/
theorem C71_interest_exact (ls : List (MLabel U B T H)) (hlen : 2 * ls.length < 2 ^ 64) (b b' : B)
    (hlink : Linked ((start : MNet U B T H).run ls) b b')
    (hset : TopicsSettled ((start : MNet U B T H).run ls) b b') (t : T) :
    b ∈ ((((start : MNet U B T H).run ls).st b').getInterestedByTopic [t] false).1 ↔
      TopicSync.Subscribed (((start : MNet U B T H).run ls).st b) t := by
  have h := MNet.inv_run (inv_start (U := U) (B := B) (T := T) (H := H)) ls (by omega)
  generalize (start : MNet U B T H).run ls = n at *
  obtain ⟨h1, h2⟩ := hlink
  rw [knows_iff] at h1 h2
  obtain ⟨hidx, e, he, hpast, hval, hbwd⟩ := h.view b b' h1 h2
  rw [(mem_interested _ [t] false).2.1 b]
  simp only [true_and, List.mem_singleton, exists_eq_left]
  rw [hbwd t, TopicSync.subscribed_iff]
  -- the receiver's entry is the sender's
  have hsame : e.topicSync.map.get t = (n.S b).map.get t := by
    cases hs : (n.S b).map.get t with
    | some x =>
      rcases h.cov b b' h1 h2 t x hs with ⟨e', h3, h4⟩ | h3 | ⟨i, τ, h3, h4, ⟨m, h5, _⟩, h6⟩ | ⟨m, h3, m', h4, _⟩
      · rw [he] at h3; cases h3; exact h4
      · exact absurd h3 hset.initial
      · exfalso
        obtain ⟨ds, h7, h8⟩ := hset.sent τ (List.mem_of_getElem? h3) h4 (by rw [h5]; trivial)
        exact h8 (h6 ds h7)
      · exact absurd (by rw [h4]; trivial) (hset.arrived m h3)
    | none =>
      cases hl : e.topicSync.map.get t with
      | none => rfl
      | some y =>
        obtain ⟨z, hz, _⟩ := hpast t y hl
        rw [hs] at hz; simp at hz
  have hprev := (h.own b).prev t
  obtain ⟨_, _, _, _, _, h6⟩ := partialTopicSync_spec (n.st b) (h.own b).index (h.own b).clean
  rw [hset.announced] at h6
  rw [← h6 t, ← hprev]
  simp only [VMap.get, hsame]

/-! ### Syncs settle -/

/-- A step of a sync: no user connects, leaves or changes topics, and no link comes or goes. -/
def SyncOnly : MLabel U B T H → Prop
  | .startTopic _ | .startUser _ | .readDests _ | .fullTopic _ _ | .deliver _ _ => True
  | .send _ ok => ok = true
  | _ => False

theorem run_append (n : MNet U B T H) (l1 l2 : List (MLabel U B T H)) :
    n.run (l1 ++ l2) = (n.run l1).run l2 := List.foldl_append

/-- One task is finished by sending. -/
theorem finish_sends (i : Nat) (here : B) (m : SyncMsg U B T) (ds : List B) (n : MNet U B T H)
    (hi : n.tasks[i]? = some ⟨here, m, some ds⟩) :
    ∃ ls : List (MLabel U B T H), (∀ l ∈ ls, SyncOnly l) ∧ (n.run ls).st = n.st ∧
      (n.run ls).fullT = n.fullT ∧
      (n.run ls).tasks = n.tasks.set i ⟨here, m, some []⟩ := by
  induction ds generalizing n with
  | nil =>
    refine ⟨[], by simp, rfl, rfl, ?_⟩
    show n.tasks = _
    obtain ⟨h1, h2⟩ := List.getElem?_eq_some_iff.1 hi
    rw [← h2, List.set_getElem_self]
  | cons d ds ih =>
    have h1 : (n.step (.send i true)).st = n.st ∧ (n.step (.send i true)).fullT = n.fullT ∧
        (n.step (.send i true)).tasks = n.tasks.set i ⟨here, m, some ds⟩ := by
      simp only [MNet.step, hi]
      split
      · exact ⟨rfl, rfl, rfl⟩
      · exact ⟨rfl, rfl, rfl⟩
    obtain ⟨ls, h2, h3, h4, h5⟩ := ih (n.step (.send i true)) (by
      rw [h1.2.2, List.getElem?_set_self (List.getElem?_eq_some_iff.1 hi).1])
    refine ⟨.send i true :: ls, ?_, h3.trans h1.1, h4.trans h1.2.1, ?_⟩
    · intro l hl
      rcases List.mem_cons.1 hl with rfl | hl
      · rfl
      · exact h2 l hl
    · show ((n.step (.send i true)).run ls).tasks = _
      rw [h5, h1.2.2, List.set_set]

/-- One task is finished. -/
theorem finish_task (i : Nat) (τ : SyncTask U B T) (n : MNet U B T H) (hi : n.tasks[i]? = some τ) :
    ∃ ls : List (MLabel U B T H), (∀ l ∈ ls, SyncOnly l) ∧ (n.run ls).st = n.st ∧
      (n.run ls).fullT = n.fullT ∧
      (n.run ls).tasks = n.tasks.set i ⟨τ.here, τ.msg, some []⟩ := by
  obtain ⟨here, m, _ | ds⟩ := τ
  · have h1 : (n.step (.readDests i)) =
        { n with tasks := n.tasks.set i ⟨here, m, some (n.st here).allBrokers⟩ } := by
      simp only [MNet.step, hi]
    obtain ⟨ls, h2, h3, h4, h5⟩ := finish_sends i here m (n.st here).allBrokers (n.step (.readDests i)) (by
      rw [h1]; exact List.getElem?_set_self (List.getElem?_eq_some_iff.1 hi).1)
    refine ⟨.readDests i :: ls, ?_, h3.trans (by rw [h1]), h4.trans (by rw [h1]), ?_⟩
    · intro l hl
      rcases List.mem_cons.1 hl with rfl | hl
      · trivial
      · exact h2 l hl
    · show ((n.step (.readDests i)).run ls).tasks = _
      rw [h5, h1, List.set_set]
  · exact finish_sends i here m ds n hi

/-- All tasks are finished. -/
theorem finish_all (n : MNet U B T H) (j : Nat) (hj : j ≤ n.tasks.length) :
    ∃ ls : List (MLabel U B T H), (∀ l ∈ ls, SyncOnly l) ∧ (n.run ls).st = n.st ∧
      (n.run ls).fullT = n.fullT ∧ (n.run ls).tasks.length = n.tasks.length ∧
      ∀ (i : Nat) (τ : SyncTask U B T), i < j → (n.run ls).tasks[i]? = some τ → τ.dests = some [] := by
  induction j with
  | zero => exact ⟨[], by simp, rfl, rfl, rfl, by omega⟩
  | succ j ih =>
    obtain ⟨ls, h1, h2, h3, h4, h5⟩ := ih (by omega)
    have hlt : j < (n.run ls).tasks.length := by omega
    obtain ⟨ls', h6, h7, h8, h9⟩ := finish_task j (n.run ls).tasks[j] (n.run ls)
      (List.getElem?_eq_getElem hlt)
    refine ⟨ls ++ ls', ?_, ?_, ?_, ?_, ?_⟩
    · intro l hl
      rcases List.mem_append.1 hl with hl | hl
      · exact h1 l hl
      · exact h6 l hl
    · rw [run_append, h7, h2]
    · rw [run_append, h8, h3]
    · rw [run_append, h9, List.length_set, h4]
    · intro i τ hi hτ
      rw [run_append, h9, List.getElem?_set] at hτ
      split at hτ
      · cases hτ; rfl
      · exact h5 i τ (by omega) hτ

/-- All initial topic syncs of `b` for `b'` are started. -/
theorem start_full (b b' : B) (k : Nat) (n : MNet U B T H) (hk : n.fullT.count (b, b') = k) :
    ∃ ls : List (MLabel U B T H), (∀ l ∈ ls, SyncOnly l) ∧ (n.run ls).st = n.st ∧
      (b, b') ∉ (n.run ls).fullT := by
  induction k generalizing n with
  | zero => exact ⟨[], by simp, rfl, List.count_eq_zero.1 hk⟩
  | succ k ih =>
    have hmem : (b, b') ∈ n.fullT := List.count_pos_iff.1 (by omega)
    have h1 : (n.step (.fullTopic b b')).st = n.st ∧
        (n.step (.fullTopic b b')).fullT = n.fullT.erase (b, b') := by
      simp only [MNet.step, if_pos hmem]
      split
      · exact ⟨rfl, rfl⟩
      · exact ⟨rfl, rfl⟩
    obtain ⟨ls, h2, h3, h4⟩ := ih (n.step (.fullTopic b b')) (by
      rw [h1.2, List.count_erase_self]; omega)
    refine ⟨.fullTopic b b' :: ls, ?_, h3.trans h1.1, h4⟩
    intro l hl
    rcases List.mem_cons.1 hl with rfl | hl
    · trivial
    · exact h2 l hl

theorem applyUserSync_brokers (s : Conns U B T H) (m : DirectMap U B) :
    (s.applyUserSync m).brokers = s.brokers := by
  simp only [applyUserSync]
  rw [(foldl_removeUser_frame _ Prod.fst _).2.1]

theorem applyTopicSync_known (s : Conns U B T H) (b : B) (m : TopicSync T) (hb : s.brokers.get b ≠ none)
    (y : B) : (s.applyTopicSync b m).brokers.get y ≠ none ↔ s.brokers.get y ≠ none := by
  unfold applyTopicSync
  cases he : s.brokers.get b with
  | none => exact absurd he hb
  | some e =>
    simp only
    rw [(foldl_applyTopicChange_frame _ b _).2.2.1]
    simp only [AMap.get_insert]
    split
    · rename_i h; subst h; simp [he]
    · rfl

/-- Everything queued from `b` to `b'` is handled. -/
theorem drain (b b' : B) (hne : b ≠ b') (q : List (SyncMsg U B T)) (n : MNet U B T H)
    (hq : n.ch b b' = q) (hl : Linked n b b') :
    ∃ ls : List (MLabel U B T H), (∀ l ∈ ls, SyncOnly l) ∧ (n.run ls).st b = n.st b ∧
      (n.run ls).fullT = n.fullT ∧ (n.run ls).tasks = n.tasks ∧ (n.run ls).ch b b' = [] ∧
      Linked (n.run ls) b b' := by
  induction q generalizing n with
  | nil => exact ⟨[], by simp, rfl, rfl, rfl, hq, hl⟩
  | cons m q ih =>
    have h1 : (n.step (.deliver b b')).st b = n.st b ∧ (n.step (.deliver b b')).fullT = n.fullT ∧
        (n.step (.deliver b b')).tasks = n.tasks ∧ (n.step (.deliver b b')).ch b b' = q ∧
        Linked (n.step (.deliver b b')) b b' := by
      have hk := (knows_iff n b' b).1 hl.2
      simp only [MNet.step, hl.2, if_true, hq]
      cases m with
      | user m =>
        refine ⟨st_act_ne _ _ _ hne, rfl, rfl, by simp [setCh], ?_, ?_⟩
        · rw [knows_iff]
          show ((n.act b' (.applyUserSync m)).st b).brokers.get b' ≠ none
          rw [st_act_ne _ _ _ hne]; exact (knows_iff _ _ _).1 hl.1
        · rw [knows_iff]
          show ((n.act b' (.applyUserSync m)).st b').brokers.get b ≠ none
          rw [st_act_self]
          show ((n.st b').applyUserSync m).brokers.get b ≠ none
          rw [applyUserSync_brokers]; exact hk
      | topic m =>
        refine ⟨st_act_ne _ _ _ hne, rfl, rfl, by simp [setCh], ?_, ?_⟩
        · rw [knows_iff]
          show ((n.act b' (.applyTopicSync b m)).st b).brokers.get b' ≠ none
          rw [st_act_ne _ _ _ hne]; exact (knows_iff _ _ _).1 hl.1
        · rw [knows_iff]
          show ((n.act b' (.applyTopicSync b m)).st b').brokers.get b ≠ none
          rw [st_act_self]
          exact (applyTopicSync_known _ _ _ hk b).2 hk
    obtain ⟨ls, h2, h3, h4, h5, h6, h7⟩ := ih _ h1.2.2.2.1 h1.2.2.2.2
    refine ⟨.deliver b b' :: ls, ?_, h3.trans h1.1, h4.trans h1.2.1, h5.trans h1.2.2.1, h6, h7⟩
    intro l hl
    rcases List.mem_cons.1 hl with rfl | hl
    · trivial
    · exact h2 l hl

theorem linked_congr {n n' : MNet U B T H} (h : n'.st = n.st) (b b' : B) :
    Linked n' b b' ↔ Linked n b b' := by
  unfold Linked knows; rw [h]

/-- **C71**, the premise can always be met: in any reachable state in which `b` and `b'` are linked,
syncs alone lead to a state in which they still are and everything of `b` has arrived at `b'`; the
subscriptions at `b` are what they were. -/
theorem C71_can_settle (ls : List (MLabel U B T H)) (hlen : 2 * ls.length < 2 ^ 64) (b b' : B)
    (hne : b ≠ b') (hlink : Linked ((start : MNet U B T H).run ls) b b') :
    ∃ ls' : List (MLabel U B T H), (∀ l ∈ ls', SyncOnly l) ∧
      Linked ((start : MNet U B T H).run (ls ++ ls')) b b' ∧
      TopicsSettled ((start : MNet U B T H).run (ls ++ ls')) b b' ∧
      ∀ t, TopicSync.Subscribed (((start : MNet U B T H).run (ls ++ ls')).st b) t ↔
        TopicSync.Subscribed (((start : MNet U B T H).run ls).st b) t := by
  have h := MNet.inv_run (inv_start (U := U) (B := B) (T := T) (H := H)) ls (by omega)
  simp only [run_append]
  generalize (start : MNet U B T H).run ls = n at *
  -- announce
  obtain ⟨p1, p2, p3, p4, _, _⟩ := partialTopicSync_spec (n.st b) (h.own b).index (h.own b).clean
  have hst1 : (n.step (.startTopic b)).st = (n.act b .partialTopicSync).st := by
    simp only [MNet.step]; split <;> rfl
  have hb1 : (n.step (.startTopic b)).st b = (n.st b).getPartialTopicSync.1 := by
    rw [hst1, st_act_self]; rfl
  have hann : ((n.step (.startTopic b)).st b).getPartialTopicSync.2 = none := by
    rw [hb1]
    have hidx : (n.st b).getPartialTopicSync.1.IndexInv := by
      have := (h.own b).index
      unfold IndexInv at *
      rw [p3, p4]; exact this
    obtain ⟨_, _, _, _, _, q6⟩ := partialTopicSync_spec (n.st b).getPartialTopicSync.1 hidx p2
    cases hr : (n.st b).getPartialTopicSync.1.getPartialTopicSync.2 with
    | none => rfl
    | some m =>
      rw [hr] at q6
      exfalso; apply q6.1
      intro t
      rw [p1 t]; unfold LocalTopic; rw [p3]
  have hl1 : Linked (n.step (.startTopic b)) b b' := by
    have key : ∀ x y, ((n.step (.startTopic b)).st x).brokers.get y = (n.st x).brokers.get y := by
      intro x y
      rw [hst1, st_act]; split
      · rename_i e; subst e
        exact (notAbout_step _ y .partialTopicSync (h.own _).index trivial).1
      · rfl
    unfold Linked; rw [knows_iff, knows_iff, key, key, ← knows_iff, ← knows_iff]; exact hlink
  have hsub : ∀ t, TopicSync.Subscribed ((n.step (.startTopic b)).st b) t ↔
      TopicSync.Subscribed (n.st b) t := by
    intro t
    rw [TopicSync.subscribed_iff, TopicSync.subscribed_iff, hb1]; unfold LocalTopic; rw [p3]
  generalize hn1 : n.step (.startTopic b) = n1 at *
  obtain ⟨l2, a1, a2, a3⟩ := start_full b b' _ n1 rfl
  obtain ⟨l3, c1, c2, c3, c4, c5⟩ := finish_all (n1.run l2) _ (Nat.le_refl _)
  have hl3 : Linked ((n1.run l2).run l3) b b' :=
    (linked_congr c2 b b').2 ((linked_congr a2 b b').2 hl1)
  obtain ⟨l4, d1, d2, d3, d4, d5, d6⟩ := drain b b' hne _ ((n1.run l2).run l3) rfl hl3
  have hend : n.run (.startTopic b :: (l2 ++ l3 ++ l4)) = ((n1.run l2).run l3).run l4 := by
    show (n.step (.startTopic b)).run _ = _
    rw [hn1, run_append, run_append]
  have hstb : (((n1.run l2).run l3).run l4).st b = n1.st b := by rw [d2, c2, a2]
  refine ⟨.startTopic b :: (l2 ++ l3 ++ l4), ?_, ?_, ?_, ?_⟩
  · intro l hl
    simp only [List.mem_cons, List.mem_append] at hl
    rcases hl with rfl | (hl | hl) | hl
    · trivial
    · exact a1 l hl
    · exact c1 l hl
    · exact d1 l hl
  · rw [hend]; exact d6
  · rw [hend]
    refine ⟨by rw [hstb]; exact hann, by rw [d3, c3]; exact a3, ?_, by rw [d5]; simp⟩
    intro τ hτ _ _
    rw [d4] at hτ
    obtain ⟨i, hi⟩ := List.mem_iff_getElem?.1 hτ
    refine ⟨[], c5 i τ ?_ hi, by simp⟩
    rw [← c4]; exact (List.getElem?_eq_some_iff.1 hi).1
  · intro t; rw [hend, hstb]; exact hsub t

/-! ### Only connected users, only valid topics -/

/-- A subscribe frame comes from a user connected to that broker; users name valid topics only (others
are cut off or rejected before they reach the table, C16 and C17). -/
def Orderly (valid : T → Bool) (n : MNet U B T H) : MLabel U B T H → Prop
  | .connect _ _ _ ts => ∀ t ∈ ts, valid t = true
  | .subscribe b u ts => ((n.st b).getUserConnection u).isSome ∧ ∀ t ∈ ts, valid t = true
  | _ => True

/-- Every step of the schedule is orderly in the state in which it happens. -/
def AllOrderly (valid : T → Bool) (n : MNet U B T H) : List (MLabel U B T H) → Prop
  | [] => True
  | l :: ls => Orderly valid n l ∧ AllOrderly valid (n.step l) ls

/-- Not a call by which a user connects or changes topics. -/
def Plain : Op U B T H → Prop
  | .addUser _ _ _ | .subscribeUser _ _ | .unsubscribeUser _ _ | .subscribeBroker _ _ => False
  | _ => True

theorem bwd_plain (s : Conns U B T H) (hidx : s.IndexInv) (op : Op U B T H) (hp : Plain op) (u : U) (t : T)
    (h : (s.step op).bcUsers.Bwd u t) : s.bcUsers.Bwd u t := by
  have hfold : ∀ (l : List U) (s : Conns U B T H), s.IndexInv →
      (l.foldl (fun s c => s.removeUser c) s).bcUsers.Bwd u t → s.bcUsers.Bwd u t := by
    intro l
    induction l with
    | nil => intro s _ h; exact h
    | cons c l ih =>
      intro s hidx h
      have := ih (s.removeUser c) (indexInv_step s (.removeUser c) hidx) h
      rw [removeUser_bcUsers, RMap.bwd_removeKey hidx.1] at this
      exact this.2
  cases op with
  | addUser => exact absurd hp id
  | subscribeUser => exact absurd hp id
  | subscribeBroker => exact absurd hp id
  | removeUser u' =>
    simp only [Conns.step] at h
    rw [removeUser_bcUsers, RMap.bwd_removeKey hidx.1] at h
    exact h.2
  | addBroker b hd => simpa [Conns.step, addBroker] using h
  | removeBroker b => simpa [Conns.step] using h
  | unsubscribeUser => exact absurd hp id
  | unsubscribeBroker b ts => exact h
  | applyUserSync m =>
    simp only [Conns.step, applyUserSync] at h
    have h' := hfold ((s.direct.merge m).2.map Prod.fst) { s with direct := (s.direct.merge m).1 } hidx
    rw [List.foldl_map] at h'
    exact h' h
  | applyTopicSync b m =>
    simp only [Conns.step, applyTopicSync] at h
    cases he : s.brokers.get b with
    | none => rw [he] at h; simpa using h
    | some e =>
      rw [he] at h; simp only at h
      rw [(foldl_applyTopicChange_frame _ b _).2.2.2.2.1] at h
      exact h
  | partialUserSync => exact h
  | partialTopicSync =>
    simp only [Conns.step, getPartialTopicSync] at h
    split at h <;> exact h

/-- In one step other than a restart every table stays or makes one call. -/
theorem step_call_up (n : MNet U B T H) (l : MLabel U B T H) (x : B) (hr : ∀ b, l ≠ .restart b) :
    (n.step l).st x = n.st x ∨ ∃ op, (n.step l).st x = (n.st x).step op ∧
      (Plain op ∨ (∃ u h ts, l = .connect x u h ts ∧ op = .addUser u h ts) ∨
        (∃ u ts, l = .subscribe x u ts ∧ op = .subscribeUser u ts) ∨
        ∃ u ts, l = .unsubscribe x u ts ∧ op = .unsubscribeUser u ts) := by
  have one : ∀ (b : B) (op : Op U B T H) (n' : MNet U B T H), n'.st = (n.act b op).st →
      (b = x → (Plain op ∨ (∃ u h ts, l = .connect x u h ts ∧ op = .addUser u h ts) ∨
        (∃ u ts, l = .subscribe x u ts ∧ op = .subscribeUser u ts) ∨
        ∃ u ts, l = .unsubscribe x u ts ∧ op = .unsubscribeUser u ts)) →
      n'.st x = n.st x ∨ ∃ op, n'.st x = (n.st x).step op ∧
      (Plain op ∨ (∃ u h ts, l = .connect x u h ts ∧ op = .addUser u h ts) ∨
        (∃ u ts, l = .subscribe x u ts ∧ op = .subscribeUser u ts) ∨
        ∃ u ts, l = .unsubscribe x u ts ∧ op = .unsubscribeUser u ts) := by
    intro b op n' h1 h2
    rw [h1]
    by_cases e : x = b
    · subst e; right; exact ⟨op, st_act_self _ _ _, h2 rfl⟩
    · left; exact st_act_ne _ _ _ e
  cases l with
  | connect b u h ts =>
    exact one b (.addUser u h ts) _ rfl (by rintro rfl; exact Or.inr (Or.inl ⟨u, h, ts, rfl, rfl⟩))
  | disconnect b u => exact one b (.removeUser u) _ rfl (fun _ => Or.inl trivial)
  | subscribe b u ts =>
    exact one b (.subscribeUser u ts) _ rfl (by rintro rfl; exact Or.inr (Or.inr (Or.inl ⟨u, ts, rfl, rfl⟩)))
  | unsubscribe b u ts =>
    exact one b (.unsubscribeUser u ts) _ rfl
      (by rintro rfl; exact Or.inr (Or.inr (Or.inr ⟨u, ts, rfl, rfl⟩)))
  | startTopic b =>
    refine one b .partialTopicSync _ ?_ (fun _ => Or.inl trivial)
    simp only [MNet.step]; split <;> rfl
  | startUser b =>
    refine one b .partialUserSync _ ?_ (fun _ => Or.inl trivial)
    simp only [MNet.step]; split <;> rfl
  | readDests i => left; simp only [MNet.step]; split <;> rfl
  | send i ok =>
    simp only [MNet.step]
    split
    · rename_i b m d ds _
      split
      · split
        · left; rfl
        · exact one b (.removeBroker d) _ rfl (fun _ => Or.inl trivial)
      · left; rfl
    · left; rfl
  | linkUp b b' h h' =>
    simp only [MNet.step]
    split
    · left; rfl
    · rename_i hne
      by_cases e : x = b'
      · right
        refine ⟨.addBroker b h', ?_, Or.inl trivial⟩
        show ((n.act b (.addBroker b' h)).act b' (.addBroker b h')).st x = _
        subst e
        rw [st_act_self, st_act_ne _ _ _ (fun e => hne e.symm)]
      · by_cases e' : x = b
        · right
          refine ⟨.addBroker b' h, ?_, Or.inl trivial⟩
          show ((n.act b (.addBroker b' h)).act b' (.addBroker b h')).st x = _
          rw [st_act_ne _ _ _ e, e', st_act_self]
        · left
          show ((n.act b (.addBroker b' h)).act b' (.addBroker b h')).st x = _
          rw [st_act_ne _ _ _ e, st_act_ne _ _ _ e']
  | fullTopic b b' =>
    left; simp only [MNet.step]; split
    · split <;> rfl
    · rfl
  | fullUser b b' =>
    left; simp only [MNet.step]; split
    · split <;> rfl
    · rfl
  | drop b b' => exact one b (.removeBroker b') _ rfl (fun _ => Or.inl trivial)
  | deliver b b' =>
    simp only [MNet.step]
    split
    · split
      · left; rfl
      · rename_i m rest _; exact one b' (.applyUserSync m) _ rfl (fun _ => Or.inl trivial)
      · rename_i m rest _; exact one b' (.applyTopicSync b m) _ rfl (fun _ => Or.inl trivial)
    · left; rfl
  | restart b => exact absurd rfl (hr b)

/-- In one step every table stays, makes one call, or is new. -/
theorem step_call (n : MNet U B T H) (l : MLabel U B T H) (x : B) :
    (n.step l).st x = n.st x ∨ (∃ op, (n.step l).st x = (n.st x).step op ∧
      (Plain op ∨ (∃ u h ts, l = .connect x u h ts ∧ op = .addUser u h ts) ∨
        (∃ u ts, l = .subscribe x u ts ∧ op = .subscribeUser u ts) ∨
        ∃ u ts, l = .unsubscribe x u ts ∧ op = .unsubscribeUser u ts)) ∨
    (n.step l).st x = Conns.new x := by
  by_cases hr : ∃ b, l = .restart b
  · obtain ⟨b, rfl⟩ := hr
    by_cases e : x = b
    · subst e; right; right; show (if x = x then _ else _) = _; rw [if_pos rfl]
    · left; show (if x = b then _ else _) = _; rw [if_neg e]
  · rcases step_call_up n l x (fun b e => hr ⟨b, e⟩) with h | h
    · exact Or.inl h
    · exact Or.inr (Or.inl h)

/-- Only connected users are subscribed, only to valid topics. -/
def Good (valid : T → Bool) (n : MNet U B T H) : Prop :=
  ∀ b, Subs (n.st b) ∧ ∀ u t, (n.st b).bcUsers.Bwd u t → valid t = true

theorem good_step (valid : T → Bool) (n : MNet U B T H) (l : MLabel U B T H) (hg : Good valid n)
    (ho : Orderly valid n l) : Good valid (n.step l) := by
  intro x
  obtain ⟨h1, h2⟩ := hg x
  rcases step_call n l x with e | ⟨op, e, hop⟩ | e
  · rw [e]; exact ⟨h1, h2⟩
  rotate_left
  · rw [e]; exact ⟨subs_new x, by simp [Conns.new, RMap.Bwd, RMap.new]⟩
  · rw [e]
    have hidx : (n.st x).IndexInv := ⟨h1.invU, h1.invB⟩
    rcases hop with hp | ⟨u, h, ts, rfl, rfl⟩ | ⟨u, ts, rfl, rfl⟩ | ⟨u, ts, rfl, rfl⟩
    · refine ⟨subs_step _ op h1 ?_, fun u t hb => h2 u t (bwd_plain _ hidx op hp u t hb)⟩
      cases op <;> first | trivial | exact absurd hp id
    · refine ⟨subs_step _ _ h1 trivial, ?_⟩
      intro u' t hb
      simp only [Conns.step, addUser, RMap.bwd_associate, removeUser_bcUsers] at hb
      rw [RMap.bwd_removeKey hidx.1] at hb
      rcases hb with ⟨_, hb⟩ | ⟨_, hb⟩
      · exact ho t hb
      · exact h2 u' t hb
    · refine ⟨subs_step _ _ h1 ho.1, ?_⟩
      intro u' t hb
      simp only [Conns.step, subscribeUser, RMap.bwd_associate] at hb
      rcases hb with ⟨_, hb⟩ | hb
      · exact ho.2 t hb
      · exact h2 u' t hb
    · refine ⟨subs_step _ _ h1 trivial, ?_⟩
      intro u' t hb
      simp only [Conns.step, unsubscribeUser] at hb
      rw [RMap.bwd_dissociate] at hb
      exact h2 u' t hb.2

theorem good_run (valid : T → Bool) (ls : List (MLabel U B T H)) (n : MNet U B T H) (hg : Good valid n)
    (ho : AllOrderly valid n ls) : Good valid (n.run ls) := by
  induction ls generalizing n with
  | nil => exact hg
  | cons l ls ih => exact ih (n.step l) (good_step valid n l hg ho.1) ho.2

/-- The topics `u` asked for at broker `b`: those of the last connection there, and the later changes. -/
def asked (b : B) (u : U) : List (MLabel U B T H) → List T → List T
  | [], ts => ts
  | .connect b' u' _ new :: ls, ts => asked b u ls (if b' = b ∧ u' = u then new else ts)
  | .subscribe b' u' new :: ls, ts => asked b u ls (if b' = b ∧ u' = u then ts ++ new else ts)
  | .unsubscribe b' u' old :: ls, ts =>
    asked b u ls (if b' = b ∧ u' = u then ts.filter (· ∉ old) else ts)
  | _ :: ls, ts => asked b u ls ts

theorem plain_keeps (s : Conns U B T H) (hidx : s.IndexInv) (op : Op U B T H) (hp : Plain op) (u : U)
    (h : ((s.step op).users.get u).isSome = true) :
    (s.users.get u).isSome = true ∧ ∀ t, (s.step op).bcUsers.Bwd u t ↔ s.bcUsers.Bwd u t := by
  have hfold : ∀ (l : List U) (s : Conns U B T H), s.IndexInv →
      ((l.foldl (fun s c => s.removeUser c) s).users.get u).isSome = true →
      (s.users.get u).isSome = true ∧
        ∀ t, (l.foldl (fun s c => s.removeUser c) s).bcUsers.Bwd u t ↔ s.bcUsers.Bwd u t := by
    intro l
    induction l with
    | nil => intro s _ h; exact ⟨h, fun _ => Iff.rfl⟩
    | cons c l ih =>
      intro s hidx h
      obtain ⟨h1, h2⟩ := ih (s.removeUser c) (indexInv_step s (.removeUser c) hidx) h
      rw [removeUser_users_get] at h1
      split at h1
      · cases h1
      · rename_i hne
        refine ⟨h1, fun t => (h2 t).trans ?_⟩
        rw [removeUser_bcUsers, RMap.bwd_removeKey hidx.1]
        exact ⟨fun h => h.2, fun h => ⟨fun e => hne e.symm, h⟩⟩
  cases op with
  | addUser => exact absurd hp id
  | subscribeUser => exact absurd hp id
  | unsubscribeUser => exact absurd hp id
  | subscribeBroker => exact absurd hp id
  | removeUser u' => exact hfold [u'] s hidx h
  | addBroker b hd => exact ⟨by simpa [Conns.step, addBroker] using h, fun t => by simp [Conns.step, addBroker]⟩
  | removeBroker b => exact ⟨by simpa [Conns.step] using h, fun t => by simp [Conns.step]⟩
  | unsubscribeBroker b ts => exact ⟨h, fun _ => Iff.rfl⟩
  | applyUserSync m =>
    simp only [Conns.step, applyUserSync] at h ⊢
    have h' := hfold ((s.direct.merge m).2.map Prod.fst) { s with direct := (s.direct.merge m).1 } hidx
    rw [List.foldl_map] at h'
    exact h' h
  | applyTopicSync b m =>
    simp only [Conns.step, applyTopicSync] at h ⊢
    cases he : s.brokers.get b with
    | none => rw [he] at h; exact ⟨by simpa using h, fun t => by simp⟩
    | some e =>
      rw [he] at h; simp only at h ⊢
      rw [(foldl_applyTopicChange_frame _ b _).2.1] at h
      rw [(foldl_applyTopicChange_frame _ b _).2.2.2.2.1]
      exact ⟨h, fun _ => Iff.rfl⟩
  | partialUserSync => exact ⟨h, fun _ => Iff.rfl⟩
  | partialTopicSync =>
    simp only [Conns.step, getPartialTopicSync] at h ⊢
    refine ⟨?_, fun t => ?_⟩
    · split at h <;> exact h
    · split <;> exact Iff.rfl

theorem asked_run (ls : List (MLabel U B T H)) (n : MNet U B T H) (b : B) (u : U) (ts : List T)
    (hidx : (n.st b).IndexInv)
    (hts : ((n.st b).getUserConnection u).isSome → ∀ t, (n.st b).bcUsers.Bwd u t ↔ t ∈ ts)
    (hend : (((n.run ls).st b).getUserConnection u).isSome) (t : T) :
    ((n.run ls).st b).bcUsers.Bwd u t ↔ t ∈ asked b u ls ts := by
  induction ls generalizing n ts with
  | nil => exact hts hend t
  | cons l ls ih =>
    have hidx' : ((n.step l).st b).IndexInv := by
      rcases step_call n l b with e | ⟨op, e, _⟩ | e
      · rw [e]; exact hidx
      · rw [e]; exact indexInv_step _ op hidx
      · rw [e]; exact ⟨RMap.inv_new, RMap.inv_new⟩
    -- the label does not concern the topics of `u` at `b`
    have other : (∀ u' h new, l = .connect b u' h new → u' ≠ u) → (∀ u' new, l = .subscribe b u' new → u' ≠ u) →
        (∀ u' old, l = .unsubscribe b u' old → u' ≠ u) →
        (((n.step l).st b).getUserConnection u).isSome → ∀ t, ((n.step l).st b).bcUsers.Bwd u t ↔ t ∈ ts := by
      intro h1 h2 h3 hc t
      rcases step_call n l b with e |
        ⟨op, e, hp | ⟨u', h, new, rfl, rfl⟩ | ⟨u', new, rfl, rfl⟩ | ⟨u', old, rfl, rfl⟩⟩ | e
      · rw [e] at hc ⊢; exact hts hc t
      · rw [e] at hc ⊢
        obtain ⟨h4, h5⟩ := plain_keeps _ hidx op hp u hc
        exact (h5 t).trans (hts h4 t)
      · have hne := h1 u' h new rfl
        rw [e] at hc ⊢
        simp only [getUserConnection, Conns.step, addUser, AMap.get_insert, if_neg hne, removeUser_users_get] at hc
        simp only [Conns.step, addUser, RMap.bwd_associate, removeUser_bcUsers]
        rw [RMap.bwd_removeKey hidx.1, ← hts hc t]
        exact ⟨fun h => h.elim (fun h => absurd h.1.symm hne) (fun h => h.2),
          fun h => Or.inr ⟨fun e => hne e.symm, h⟩⟩
      · have hne := h2 u' new rfl
        rw [e] at hc ⊢
        simp only [Conns.step, subscribeUser, RMap.bwd_associate]
        rw [← hts hc t]
        exact ⟨fun h => h.elim (fun h => absurd h.1.symm hne) id, Or.inr⟩
      · have hne := h3 u' old rfl
        rw [e] at hc ⊢
        simp only [Conns.step, unsubscribeUser]
        rw [RMap.bwd_dissociate, ← hts hc t]
        exact ⟨fun h => h.2, fun h => ⟨fun h' => hne h'.1.symm, h⟩⟩
      · rw [e] at hc; simp [Conns.new, getUserConnection] at hc
    have same : asked b u (l :: ls) ts = asked b u ls ts →
        (∀ u' h new, l = .connect b u' h new → u' ≠ u) → (∀ u' new, l = .subscribe b u' new → u' ≠ u) →
        (∀ u' old, l = .unsubscribe b u' old → u' ≠ u) →
        (((n.run (l :: ls)).st b).bcUsers.Bwd u t ↔ t ∈ asked b u (l :: ls) ts) := by
      intro h0 h1 h2 h3
      rw [h0]
      exact ih (n.step l) ts hidx' (other h1 h2 h3) hend
    cases l with
    | connect b' u' h new =>
      by_cases e : b' = b ∧ u' = u
      · obtain ⟨rfl, rfl⟩ := e
        simp only [asked, and_self, if_true]
        refine ih (n.step (.connect b' u' h new)) new hidx' (fun _ t => ?_) hend
        simp only [MNet.step, st_act_self, Conns.step, addUser, RMap.bwd_associate, removeUser_bcUsers]
        rw [RMap.bwd_removeKey hidx.1]
        simp
      · refine same (by simp only [asked, if_neg e]) ?_ (by simp) (by simp)
        rintro u'' _ _ h rfl
        cases h; exact e ⟨rfl, rfl⟩
    | subscribe b' u' new =>
      by_cases e : b' = b ∧ u' = u
      · obtain ⟨rfl, rfl⟩ := e
        simp only [asked, and_self, if_true]
        refine ih (n.step (.subscribe b' u' new)) _ hidx' (fun hc t => ?_) hend
        simp only [MNet.step, st_act_self, Conns.step, subscribeUser, RMap.bwd_associate] at hc ⊢
        rw [hts hc t, List.mem_append]
        simp [or_comm]
      · refine same (by simp only [asked, if_neg e]) (by simp) ?_ (by simp)
        rintro u'' _ h rfl
        cases h; exact e ⟨rfl, rfl⟩
    | unsubscribe b' u' old =>
      by_cases e : b' = b ∧ u' = u
      · obtain ⟨rfl, rfl⟩ := e
        simp only [asked, and_self, if_true]
        refine ih (n.step (.unsubscribe b' u' old)) _ hidx' (fun hc t => ?_) hend
        simp only [MNet.step, st_act_self, Conns.step, unsubscribeUser] at hc ⊢
        rw [RMap.bwd_dissociate, hts hc t]
        simp [and_comm]
      · refine same (by simp only [asked, if_neg e]) (by simp) (by simp) ?_
        rintro u'' _ h rfl
        cases h; exact e ⟨rfl, rfl⟩
    | _ => exact same rfl (by simp) (by simp) (by simp)

/-- **C72, the subscriptions**: while a user is connected to a broker, they are subscribed there to the
topics they asked for, no more and no less. -/
theorem C72_subscribed_iff_asked (ls : List (MLabel U B T H)) (b : B) (u : U)
    (hc : ((((start : MNet U B T H).run ls).st b).getUserConnection u).isSome) (t : T) :
    u ∈ ((((start : MNet U B T H).run ls).st b).getInterestedByTopic [t] true).2 ↔ t ∈ asked b u ls [] := by
  rw [(mem_interested _ [t] true).1 u]
  simp only [List.mem_singleton, exists_eq_left]
  refine asked_run ls start b u [] ⟨RMap.inv_new, RMap.inv_new⟩ (fun h => ?_) hc t
  simp [start, Conns.new, getUserConnection] at h

theorem good_start (valid : T → Bool) : Good valid (start : MNet U B T H) :=
  fun b => ⟨subs_new b, by simp [start, Conns.new, RMap.Bwd, RMap.new]⟩

end

/-! ## C72 -/

section
open Verif.Props.Network Verif.Broker Verif.Net
variable {B H σ : Type} [DecidableEq B] [DecidableEq H] [LT B] [DecidableLT B]

/-- **C72.** Any number of brokers is started, and crashes and is started again, links come and go, users come and go and change their
topics, syncs run, in any order; then things calm down: the brokers of `M` are linked with one another
and with no others, their topic syncs have arrived, no user is connected twice. From then on a broadcast
published once, at any broker of `M`, is in the end received exactly once by every user connected to a
broker of `M` who has asked there for one of its valid topics, and by nobody else. -/
theorem C72_broadcast_after_calm (cfg : Cfg B σ) (hT : Transparent cfg)
    (ls : List (MLabel Bytes B Topic H)) (hlen : 2 * ls.length < 2 ^ 64)
    (hord : AllOrderly cfg.valid (MNet.start : MNet Bytes B Topic H) ls) (M : B → Prop)
    (hlinks : ∀ b b', M b → M b' → b ≠ b' → Linked ((MNet.start : MNet Bytes B Topic H).run ls) b b' ∧
      TopicsSettled ((MNet.start : MNet Bytes B Topic H).run ls) b b')
    (honly : ∀ b b', M b → ((MNet.start : MNet Bytes B Topic H).run ls).knows b b' = true → M b')
    (htwice : ∀ b b' u, M b → M b' →
      ((((MNet.start : MNet Bytes B Topic H).run ls).st b).getUserConnection u).isSome →
      ((((MNet.start : MNet Bytes B Topic H).run ls).st b').getUserConnection u).isSome → b = b')
    (hook : B → Dest B → σ) (ls' : List (Label B H)) (hl : ∀ l ∈ ls', Static cfg l) (k : Nat) (b : B)
    (hb : M b) (a raw : Bytes) (ts : List Topic) (payload : Bytes)
    (hd : cfg.decode raw = some (.broadcast ts payload))
    (honce : ls'.filter (publishes k) = [.publish b a k raw]) (u : Bytes) :
    let tab := ((MNet.start : MNet Bytes B Topic H).run ls).st
    let n := (Net.start tab hook).run cfg ls'
    let wants := ∃ b', M b' ∧ ((tab b').getUserConnection u).isSome ∧
      ∃ t ∈ ts, cfg.valid t = true ∧ t ∈ asked b' u ls []
    copiesReceived n u k ≤ 1 ∧ (¬ wants → copiesReceived n u k = 0) ∧
    (Quiescent n → wants → copiesReceived n u k = 1) := by
  have hinv := MNet.inv_run (MNet.inv_start (U := Bytes) (B := B) (T := Topic) (H := H)) ls (by omega)
  have hgood := good_run cfg.valid ls _ (good_start cfg.valid) hord
  have hex := C71_interest_exact (U := Bytes) (T := Topic) (H := H) (B := B) ls hlen
  have hask := C72_subscribed_iff_asked (U := Bytes) (T := Topic) (H := H) (B := B) ls
  generalize hnet : (MNet.start : MNet Bytes B Topic H).run ls = net at *
  intro tab n wants
  classical
  let home : Bytes → Option B := fun u =>
    if h : ∃ b', M b' ∧ ((tab b').getUserConnection u).isSome then some h.choose else none
  have hhome : ∀ u b', M b' → (((tab b').getUserConnection u).isSome ↔ home u = some b') := by
    intro u b' hM
    constructor
    · intro hc
      have h : ∃ b', M b' ∧ ((tab b').getUserConnection u).isSome := ⟨b', hM, hc⟩
      show (if h : _ then _ else _) = _
      rw [dif_pos h]
      rw [htwice _ b' u h.choose_spec.1 hM h.choose_spec.2 hc]
    · intro hc
      by_cases h : ∃ b', M b' ∧ ((tab b').getUserConnection u).isSome
      · have : home u = some h.choose := dif_pos h
        rw [this] at hc; cases hc; exact h.choose_spec.2
      · have : home u = none := dif_neg h
        rw [this] at hc; cases hc
  have hin : ∀ u b', home u = some b' → M b' := by
    intro u b' hc
    by_cases h : ∃ b', M b' ∧ ((tab b').getUserConnection u).isSome
    · have : home u = some h.choose := dif_pos h
      rw [this] at hc; cases hc; exact h.choose_spec.1
    · have : home u = none := dif_neg h
      rw [this] at hc; cases hc
  have hmesh : Network.Mesh M tab home := by
    refine ⟨fun b _ => hinv.ident b, fun b b' h1 h2 h3 => (hlinks b b' h1 h2 h3).1.1, ?_, hin,
      fun b u hM => hhome u b hM⟩
    intro b b' hM hk
    refine ⟨honly b b' hM hk, ?_⟩
    rintro rfl
    exact (knows_iff _ _ _).1 hk (hinv.irrefl _)
  let sub : Bytes → Topic → Prop := fun u t => ∃ b', home u = some b' ∧ (tab b').bcUsers.Bwd u t
  have hsync : TopicsInSync cfg.valid M tab home sub := by
    refine ⟨?_, ?_, ?_⟩
    · intro b u t hM hh
      rw [RMap.mem_getKeysByValue]
      exact ⟨fun h => ⟨b, hh, h⟩, fun ⟨b', h1, h2⟩ => by rw [hh] at h1; cases h1; exact h2⟩
    · intro b b' t hM hM' hne
      obtain ⟨h1, h2⟩ := hlinks b' b hM' hM (fun e => hne e.symm)
      have h3 := hex b' b h1 h2 t
      rw [(mem_interested _ [t] false).2.1 b'] at h3
      simp only [true_and, List.mem_singleton, exists_eq_left] at h3
      rw [RMap.mem_getKeysByValue]
      rintro ⟨u, h4, b'', h5, h6⟩
      rw [h4] at h5; cases h5; exact h3.2 ((TopicSync.subscribed_iff _ _).2 ⟨u, h6⟩)
    · rintro u t ⟨b', _, h⟩
      exact (hgood b').2 u t h
  have hw : wants ↔ ((home u).isSome ∧ ∃ t ∈ ts, cfg.valid t = true ∧ sub u t) := by
    constructor
    · rintro ⟨b', h1, h2, t, h3, h4, h5⟩
      have h6 := (hhome u b' h1).1 h2
      refine ⟨by rw [h6]; rfl, t, h3, h4, b', h6, ?_⟩
      obtain ⟨t', h7, h8⟩ := ((mem_interested (tab b') [t] true).1 u).1 ((hask b' u h2 t).2 h5)
      simp only [List.mem_singleton] at h7; subst h7; exact h8
    · rintro ⟨_, t, h3, h4, b', h6, h7⟩
      have h1 := hin u b' h6
      exact ⟨b', h1, (hhome u b' h1).2 h6, t, h3, h4, (hask b' u ((hhome u b' h1).2 h6) t).1
        (((mem_interested (tab b') [t] true).1 u).2 ⟨t, by simp, h7⟩)⟩
  have hfin := C18_broadcast_exactly_once cfg hT M tab home sub hmesh hsync hook ls' hl k b hb a raw ts
    payload hd honce u
  exact ⟨hfin.1, fun h => hfin.2.1 (fun h' => h (hw.2 h')), fun hq h => hfin.2.2 hq (hw.1 h)⟩

end

/-! ### A case

Broker 0 has a subscriber of topic 0, broker 1 one of topic 1. Broker 2 joins and is lost again. The link
between 0 and 1 fails with a sync of broker 0 on its way, and while it is down broker 0's user leaves, another
one comes, and broker 1's changes topics. It comes back; a partial sync and the full sync of broker 1 are
sent interleaved. -/

def demoRun : List (MLabel Bytes Nat Topic Nat) :=
  [.linkUp 0 1 100 101, .linkUp 0 2 102 103, .fullTopic 0 1, .fullTopic 1 0, .fullTopic 0 2, .fullTopic 2 0,
   .connect 0 [1] 11 [0], .connect 1 [2] 12 [1], .startTopic 0, .readDests 0, .send 0 true, .send 0 true,
   .drop 0 1, .drop 0 2, .drop 2 0, .drop 1 0,
   .disconnect 0 [1], .connect 0 [3] 13 [1], .subscribe 1 [2] [0], .startTopic 0,
   .readDests 1, .linkUp 1 0 104 105, .startTopic 1, .readDests 2, .fullTopic 1 0, .fullTopic 0 1,
   .unsubscribe 1 [2] [1], .startTopic 1, .readDests 5, .send 3 true, .send 5 true, .send 2 true, .send 4 true,
   .deliver 1 0, .deliver 1 0, .deliver 1 0, .deliver 0 1]

def demoEnd : MNet Bytes Nat Topic Nat := (MNet.start : MNet Bytes Nat Topic Nat).run demoRun

instance (m : SyncMsg U B T) : Decidable (IsTopic m) := by cases m <;> (unfold IsTopic; infer_instance)

def settledB (n : MNet Bytes Nat Topic Nat) (b b' : Nat) : Bool :=
  (n.st b).getPartialTopicSync.2.isNone && (b, b') ∉ n.fullT &&
  n.tasks.all (fun τ => τ.here ≠ b || ¬ IsTopic τ.msg || τ.dests.any (b' ∉ ·)) &&
  (n.ch b b').all (fun m => ¬ IsTopic m)

theorem settledB_sound (n : MNet Bytes Nat Topic Nat) (b b' : Nat) (h : settledB n b b' = true) :
    TopicsSettled n b b' := by
  simp only [settledB, Bool.and_eq_true, Option.isNone_iff_eq_none, decide_eq_true_eq, List.all_eq_true,
    Bool.or_eq_true, Option.any_eq_true] at h
  refine ⟨h.1.1.1, h.1.1.2, fun τ hτ h1 h2 => ?_, h.2⟩
  rcases h.1.2 τ hτ with (h3 | h3) | h3
  · exact absurd h1 h3
  · exact absurd h2 h3
  · exact h3

theorem demo_settled : (Linked demoEnd 0 1 ∧ TopicsSettled demoEnd 0 1) ∧
    (Linked demoEnd 1 0 ∧ TopicsSettled demoEnd 1 0) := by
  refine ⟨⟨?_, settledB_sound _ _ _ (by decide +kernel)⟩, ?_, settledB_sound _ _ _ (by decide +kernel)⟩ <;>
  · unfold Linked; decide +kernel

/-- The hypotheses of C71 hold in both directions, with something to be known: at broker 0, topic 1 and no
longer topic 0; at broker 1, topic 0 and no longer topic 1. -/
example : (Linked demoEnd 0 1 ∧ TopicsSettled demoEnd 0 1) ∧ (Linked demoEnd 1 0 ∧ TopicsSettled demoEnd 1 0) ∧
    ((demoEnd.st 1).getInterestedByTopic [1] false).1 = [0] ∧
    ((demoEnd.st 1).getInterestedByTopic [0] false).1 = [] ∧
    ((demoEnd.st 0).getInterestedByTopic [0] false).1 = [1] ∧
    ((demoEnd.st 0).getInterestedByTopic [1] false).1 = [] :=
  ⟨demo_settled.1, demo_settled.2, by decide +kernel, by decide +kernel, by decide +kernel, by decide +kernel⟩

/-- The topics asked for, at the brokers where the users are. -/
example : ((demoEnd.st 0).getUserConnection [3]).isSome ∧ asked 0 [3] demoRun [] = [1] ∧
    ((demoEnd.st 1).getUserConnection [2]).isSome ∧ asked 1 [2] demoRun [] = [0] := by decide +kernel

/-- Before the frames have arrived the conclusion does not hold yet. -/
example : ¬ ((((MNet.start : MNet Bytes Nat Topic Nat).run (demoRun.take 33)).st 0).getInterestedByTopic
    [0] false).1 = [1] := by decide +kernel

/-- Broker 1 then crashes and comes back; broker 0 notices only when they link again. -/
def demoCrash : List (MLabel Bytes Nat Topic Nat) :=
  [.restart 1, .linkUp 0 1 200 201, .fullTopic 1 0, .fullTopic 0 1, .connect 1 [2] 14 [1],
   .startTopic 1, .readDests 4, .send 4 true, .send 3 true, .deliver 1 0, .deliver 0 1]

/-- After the crash broker 0 still forwards topic 0 to broker 1, where nobody is; in the end the hypotheses of
C71 hold again and broker 0 knows what the new broker 1 wants, topic 1 and no longer topic 0. -/
example : (let n := demoEnd.run (demoCrash.take 1)
    (n.st 0).getInterestedByTopic [0] false = ([1], []) ∧ n.knows 0 1 = true ∧ n.knows 1 0 = false) ∧
    (let n := demoEnd.run demoCrash
    settledB n 1 0 = true ∧ settledB n 0 1 = true ∧ n.knows 0 1 = true ∧ n.knows 1 0 = true ∧
    ((n.st 0).getInterestedByTopic [0] false).1 = [] ∧ ((n.st 0).getInterestedByTopic [1] false).1 = [1] ∧
    ((n.st 1).getInterestedByTopic [1] false).1 = [0]) := by decide +kernel

section
open Verif.Props.Network Verif.Broker Verif.Net

def demoPublish : List (Label Nat Nat) :=
  [.publish 0 [3] 7 [4, 0], .publish 1 [2] 8 [4, 1, 0], .take 0 (.user [3]), .take 1 (.user [2]),
   .send 0 (.user [3]) true, .send 1 (.user [2]) true, .send 1 (.user [2]) true, .take 1 (.broker 0),
   .take 0 (.broker 1), .send 1 (.broker 0) true, .send 0 (.broker 1) true]

def orderlyB (n : MNet Bytes Nat Topic Nat) : List (MLabel Bytes Nat Topic Nat) → Bool
  | [] => true
  | l :: ls =>
    (match l with
     | .connect _ _ _ ts => ts.all demoNet.valid
     | .subscribe b u ts => ((n.st b).getUserConnection u).isSome && ts.all demoNet.valid
     | _ => true) && orderlyB (n.step l) ls

theorem orderlyB_sound (ls : List (MLabel Bytes Nat Topic Nat)) (n : MNet Bytes Nat Topic Nat)
    (h : orderlyB n ls = true) : AllOrderly demoNet.valid n ls := by
  induction ls generalizing n with
  | nil => trivial
  | cons l ls ih =>
    simp only [orderlyB, Bool.and_eq_true] at h
    refine ⟨?_, ih _ h.2⟩
    have h1 := h.1
    cases l <;> simp_all [Orderly]

theorem two (b : Nat) (h : b < 2) : b = 0 ∨ b = 1 := by omega

/-- The hypotheses of C72 hold after `demoRun` for the brokers 0 and 1, and both messages reach both users. -/
example : AllOrderly demoNet.valid (MNet.start : MNet Bytes Nat Topic Nat) demoRun ∧
    (∀ b b', b < 2 → b' < 2 → b ≠ b' → Linked demoEnd b b' ∧ TopicsSettled demoEnd b b') ∧
    (∀ b b', b < 2 → demoEnd.knows b b' = true → b' < 2) ∧
    (∀ b b' u, b < 2 → b' < 2 → ((demoEnd.st b).getUserConnection u).isSome →
      ((demoEnd.st b').getUserConnection u).isSome → b = b') ∧
    (∀ l ∈ demoPublish, Static demoNet l) ∧
    demoPublish.filter (publishes 7) = [.publish 0 [3] 7 [4, 0]] ∧
    demoPublish.filter (publishes 8) = [.publish 1 [2] 8 [4, 1, 0]] ∧
    (let n := (Net.start demoEnd.st (fun _ _ => 0)).run demoNet demoPublish
     n.wire.length = 0 ∧ n.pend.length = 0 ∧ copiesReceived n [2] 7 = 1 ∧ copiesReceived n [3] 7 = 0 ∧
     copiesReceived n [3] 8 = 1 ∧ copiesReceived n [2] 8 = 1) := by
  refine ⟨orderlyB_sound _ _ (by decide +kernel), ?_, ?_, ?_, ?_, rfl, rfl, by decide +kernel⟩
  · intro b b' h h' hne
    rcases two b h with rfl | rfl <;> rcases two b' h' with rfl | rfl
    · exact absurd rfl hne
    · exact demo_settled.1
    · exact demo_settled.2
    · exact absurd rfl hne
  · intro b b' h hk
    have hm : b' ∈ (demoEnd.st b).brokers.keys := by
      rw [AMap.mem_keys]
      have := (knows_iff _ _ _).1 hk
      exact Option.isSome_iff_ne_none.2 this
    have : ∀ b < 2, ∀ b' ∈ (demoEnd.st b).brokers.keys, b' < 2 := by decide +kernel
    exact this b h b' hm
  · intro b b' u h h' hu hu'
    have hm : u ∈ (demoEnd.st b).users.keys := AMap.mem_keys.2 hu
    have : ∀ b < 2, ∀ b' < 2, ∀ u ∈ (demoEnd.st b).users.keys,
        ((demoEnd.st b').getUserConnection u).isSome → b = b' := by decide +kernel
    exact this b h b' h' u hm hu'
  · intro l hl
    simp only [demoPublish, List.mem_cons, List.not_mem_nil, or_false] at hl
    rcases hl with rfl | rfl | rfl | rfl | rfl | rfl | rfl | rfl | rfl | rfl | rfl
    all_goals first | rfl | trivial | skip
    · exact ⟨0, by simp, rfl⟩
    · exact ⟨0, by simp, rfl⟩
end

end Verif.Props.Mesh

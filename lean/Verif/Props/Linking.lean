import Verif.Lemmas.Linking
import Verif.Props.Mesh

/-!
# Property C112: topic interest when the two ends of a connection register it at different moments
-/

set_option linter.unusedSectionVars false

namespace Verif.Props.Linking
open Verif Verif.Conns Verif.LNet Verif.Props.Connections

section
variable {U B T : Type} [DecidableEq U] [DecidableEq B] [DecidableEq T] [LT B] [DecidableLT B]

/-! ## Specification -/

/-- The two brokers have each other registered, on the same connection. -/
def Linked (n : LNet U B T) (c : Nat) (b b' : B) : Prop := n.conn b b' = some c ∧ n.conn b' b = some c

/-- `b` has nothing new to announce about topics, and nothing it announced is on its way to `b'` on `c`: no
initial sync is due, no sync in progress still has to be sent to `b'`, no frame is queued. -/
structure TopicsSettled (n : LNet U B T) (c : Nat) (b b' : B) : Prop where
  announced : (n.st b).getPartialTopicSync.2 = none
  initial : (b, b') ∉ n.fullT
  sent : ∀ τ ∈ n.tasks, τ.here = b → Mesh.IsTopic τ.msg →
    τ.held ≠ some (b', c) ∧ ∃ ds, τ.dests = some ds ∧ b' ∉ ds
  arrived : ∀ m ∈ n.q c b, ¬ Mesh.IsTopic m

/-- A topic sync of `b` is handled by `b'` on a connection that `b'` has not registered, or not any more; and that
connection is `c`, or `c` is the one `b'` has registered. -/
def Misled (c : Nat) (b b' : B) (n : LNet U B T) (l : LLabel U B T) : Prop :=
  ∃ c', l = .strayTopic c' b b' ∧ n.conn b' b ≠ some c' ∧ (c' = c ∨ n.conn b' b = some c)

/-- That happens at no step of `ls`. -/
def NeverMisled (c : Nat) (b b' : B) (n : LNet U B T) (ls : List (LLabel U B T)) : Prop :=
  ∀ p l, p ++ [l] <+: ls → ¬ Misled c b b' (n.run p) l

/-! ## C112 -/

/-- The invariant for the one connection. -/
theorem inv_never {n : LNet U B T} {k c : Nat} {b b' : B}
    (h : Inv (fun c' x y => c' = c ∧ x = b ∧ y = b') n k) (ls : List (LLabel U B T)) (hm : NeverMisled c b b' n ls)
    (hk : k + ls.length < 2 ^ 64) : Inv (fun c' x y => c' = c ∧ x = b ∧ y = b') (n.run ls) (k + ls.length) := by
  refine LNet.inv_run h ls ?_ hk
  intro p l hp c1 x y e hne
  refine ⟨?_, ?_⟩
  · rintro ⟨rfl, rfl, rfl⟩
    exact hm p l hp ⟨_, e, hne, Or.inl rfl⟩
  · rintro c' hc ⟨rfl, rfl, rfl⟩
    exact hm p l hp ⟨_, e, hne, Or.inr hc⟩

/-- What of the invariant needs no assumption. -/
theorem inv_any (ls : List (LLabel U B T)) (hk : ls.length < 2 ^ 64) :
    Inv (fun _ _ _ => False) ((start : LNet U B T).run ls) (0 + ls.length) :=
  LNet.inv_run LNet.inv_start ls (fun _ _ _ _ _ _ _ _ => ⟨id, fun _ _ => id⟩) (by omega)

/-- **C112, what holds.** Freshly started brokers. Connections between brokers are authenticated, any number
between the same two brokers, and each end registers them when it gets to it, in any order, or not at all;
brokers give up connections, crash and are started again; users come and go and change their topics; any number of
syncs per broker run concurrently, looking up connections that may be replaced before the message is put on them.
Whenever two brokers are registered with each other on the same connection `c` and the topics of `b` have been
announced and have arrived, `b'` forwards messages on topic `t` to `b` exactly if some user of `b` is subscribed to
`t`, provided that `b'` never handled a topic sync of `b` that came on `c` while `b'` did not have `c` registered, or
on another connection while it did (`NeverMisled`; what happened between other brokers, or between these two on
other connections before `b'` registered `c`, does not matter).
Missing against C112: that proviso (`C112_false`, `C112_late_false`). (Fewer than `2^64` steps: versions must not
wrap.) -/
theorem C112_interest_partial (ls : List (LLabel U B T)) (hlen : ls.length < 2 ^ 64)
    (c : Nat) (b b' : B) (hmis : NeverMisled c b b' start ls) (hlink : Linked ((start : LNet U B T).run ls) c b b')
    (hset : TopicsSettled ((start : LNet U B T).run ls) c b b') (t : T) :
    b ∈ ((((start : LNet U B T).run ls).st b').getInterestedByTopic [t] false).1 ↔
      TopicSync.Subscribed (((start : LNet U B T).run ls).st b) t := by
  have h := inv_never (LNet.inv_start (U := U) (B := B) (T := T)) ls hmis (by omega)
  generalize (start : LNet U B T).run ls = n at *
  obtain ⟨h1, h2⟩ := hlink
  obtain ⟨hidx, e, he, hpast, hval, hbwd⟩ := h.view b b' c ⟨rfl, rfl, rfl⟩ h2 (Or.inl h1)
  rw [(mem_interested _ [t] false).2.1 b]
  simp only [true_and, List.mem_singleton, exists_eq_left]
  rw [hbwd t, TopicSync.subscribed_iff]
  -- the receiver's entry is the sender's
  have hsame : e.topicSync.map.get t = (n.S b).map.get t := by
    cases hs : (n.S b).map.get t with
    | some x =>
      rcases h.cov b b' c ⟨rfl, rfl, rfl⟩ h1 (Or.inl h2) t x hs with ⟨_, e', h3, h4⟩ | h3 | ⟨τ, h3, h4, ⟨m, h5, _⟩, h6⟩ |
        ⟨m, h3, m', h4, _⟩
      · rw [he] at h3; cases h3; exact h4
      · exact absurd h3 hset.initial
      · exfalso
        obtain ⟨h7, ds, h8, h9⟩ := hset.sent τ h3 h4 (by rw [h5]; trivial)
        exact h6.elim h7 (fun h10 => h9 (h10 ds h8))
      · exact absurd (by rw [h4]; trivial) (hset.arrived m h3)
    | none =>
      cases hl : e.topicSync.map.get t with
      | none => rfl
      | some y =>
        obtain ⟨z, hz, _⟩ := hpast t y hl
        rw [hs] at hz; simp at hz
  have hprev := (h.own b).prev t
  obtain ⟨_, _, _, _, _, h6⟩ := partialTopicSync_spec (n.st b) (h.own b).index (h.own b).clean
  rw [hset.announced] at h6
  rw [← h6 t, ← hprev]
  simp only [VMap.get, hsame]

/-! ### Syncs settle -/

/-- A step of a sync: no user connects, leaves or changes topics, and no connection comes or goes. -/
def SyncOnly : LLabel U B T → Prop
  | .startTopic _ | .startUser _ | .readDests _ | .lookup _ | .fullTopic _ _ | .deliver _ _ _ => True
  | .push _ ok => ok = true
  | _ => False

theorem run_append (n : LNet U B T) (l1 l2 : List (LLabel U B T)) :
    n.run (l1 ++ l2) = (n.run l1).run l2 := List.foldl_append

theorem run_cons (n : LNet U B T) (l : LLabel U B T) (ls : List (LLabel U B T)) :
    n.run (l :: ls) = (n.step l).run ls := rfl

/-- The connection looked up is used. -/
theorem finish_push (i : Nat) (here : B) (m : SyncMsg U B T) (ds : Option (List B)) (hd : Option (B × Nat))
    (n : LNet U B T) (hi : n.tasks[i]? = some ⟨here, m, ds, hd⟩) :
    ∃ ls : List (LLabel U B T), (∀ l ∈ ls, SyncOnly l) ∧ (n.run ls).st = n.st ∧
      (n.run ls).fullT = n.fullT ∧ (n.run ls).tasks = n.tasks.set i ⟨here, m, ds, none⟩ := by
  cases hd with
  | none =>
    refine ⟨[], by simp, rfl, rfl, ?_⟩
    show n.tasks = _
    obtain ⟨h1, h2⟩ := List.getElem?_eq_some_iff.1 hi
    rw [← h2, List.set_getElem_self]
  | some p =>
    obtain ⟨d, c⟩ := p
    have h1 : n.run [.push i true] = ({ n with tasks := n.tasks.set i ⟨here, m, ds, none⟩ } : LNet U B T).setQ c here
        (n.q c here ++ [m]) := by
      simp only [run_cons, LNet.step, hi, if_true]; rfl
    refine ⟨[.push i true], by simp [SyncOnly], ?_, ?_, ?_⟩ <;> rw [h1] <;> rfl

/-- One task is finished by sending. -/
theorem finish_sends (i : Nat) (here : B) (m : SyncMsg U B T) (ds : List B) (n : LNet U B T)
    (hi : n.tasks[i]? = some ⟨here, m, some ds, none⟩) :
    ∃ ls : List (LLabel U B T), (∀ l ∈ ls, SyncOnly l) ∧ (n.run ls).st = n.st ∧
      (n.run ls).fullT = n.fullT ∧ (n.run ls).tasks = n.tasks.set i ⟨here, m, some [], none⟩ := by
  induction ds generalizing n with
  | nil => exact finish_push i here m _ none n hi
  | cons d ds ih =>
    have hlt := (List.getElem?_eq_some_iff.1 hi).1
    have h1 : n.step (.lookup i) =
        { n with tasks := n.tasks.set i ⟨here, m, some ds, (n.conn here d).map (fun c => (d, c))⟩ } := by
      simp only [LNet.step, hi]
    obtain ⟨l1, a1, a2, a3, a4⟩ := finish_push i here m (some ds) ((n.conn here d).map (fun c => (d, c)))
      (n.step (.lookup i)) (by rw [h1]; exact List.getElem?_set_self hlt)
    have a4' : ((n.step (.lookup i)).run l1).tasks = n.tasks.set i ⟨here, m, some ds, none⟩ := by
      rw [a4, h1, List.set_set]
    obtain ⟨l2, b1, b2, b3, b4⟩ := ih ((n.step (.lookup i)).run l1) (by
      rw [a4']; exact List.getElem?_set_self hlt)
    refine ⟨.lookup i :: (l1 ++ l2), ?_, ?_, ?_, ?_⟩
    · intro l hl
      rcases List.mem_cons.1 hl with rfl | hl
      · trivial
      · rcases List.mem_append.1 hl with hl | hl
        · exact a1 l hl
        · exact b1 l hl
    · rw [run_cons, run_append, b2, a2, h1]
    · rw [run_cons, run_append, b3, a3, h1]
    · rw [run_cons, run_append, b4, a4', List.set_set]

/-- One task is finished. -/
theorem finish_task (i : Nat) (τ : LTask U B T) (n : LNet U B T) (hi : n.tasks[i]? = some τ) :
    ∃ ls : List (LLabel U B T), (∀ l ∈ ls, SyncOnly l) ∧ (n.run ls).st = n.st ∧
      (n.run ls).fullT = n.fullT ∧ (n.run ls).tasks = n.tasks.set i ⟨τ.here, τ.msg, some [], none⟩ := by
  obtain ⟨here, m, ds, hd⟩ := τ
  have hlt := (List.getElem?_eq_some_iff.1 hi).1
  obtain ⟨l1, a1, a2, a3, a4⟩ := finish_push i here m ds hd n hi
  have hi1 : (n.run l1).tasks[i]? = some ⟨here, m, ds, none⟩ := by
    rw [a4]; exact List.getElem?_set_self hlt
  cases ds with
  | some ds =>
    obtain ⟨l2, b1, b2, b3, b4⟩ := finish_sends i here m ds (n.run l1) hi1
    refine ⟨l1 ++ l2, ?_, ?_, ?_, ?_⟩
    · intro l hl
      rcases List.mem_append.1 hl with hl | hl
      · exact a1 l hl
      · exact b1 l hl
    · rw [run_append, b2, a2]
    · rw [run_append, b3, a3]
    · rw [run_append, b4, a4, List.set_set]
  | none =>
    have h1 : ((n.run l1).step (.readDests i)) =
        { n.run l1 with tasks := (n.run l1).tasks.set i ⟨here, m, some ((n.run l1).st here).allBrokers, none⟩ } := by
      simp only [LNet.step, hi1]
    obtain ⟨l2, b1, b2, b3, b4⟩ := finish_sends i here m ((n.run l1).st here).allBrokers
      ((n.run l1).step (.readDests i)) (by
        rw [h1]; exact List.getElem?_set_self (List.getElem?_eq_some_iff.1 hi1).1)
    refine ⟨l1 ++ .readDests i :: l2, ?_, ?_, ?_, ?_⟩
    · intro l hl
      rcases List.mem_append.1 hl with hl | hl
      · exact a1 l hl
      · rcases List.mem_cons.1 hl with rfl | hl
        · trivial
        · exact b1 l hl
    · rw [run_append, run_cons, b2, h1, a2]
    · rw [run_append, run_cons, b3, h1, a3]
    · rw [run_append, run_cons, b4, h1, List.set_set, a4, List.set_set]

/-- All tasks are finished. -/
theorem finish_all (n : LNet U B T) (j : Nat) (hj : j ≤ n.tasks.length) :
    ∃ ls : List (LLabel U B T), (∀ l ∈ ls, SyncOnly l) ∧ (n.run ls).st = n.st ∧
      (n.run ls).fullT = n.fullT ∧ (n.run ls).tasks.length = n.tasks.length ∧
      ∀ (i : Nat) (τ : LTask U B T), i < j → (n.run ls).tasks[i]? = some τ → τ.dests = some [] ∧ τ.held = none := by
  induction j with
  | zero => exact ⟨[], by simp, rfl, rfl, rfl, by omega⟩
  | succ j ih =>
    obtain ⟨ls, h1, h2, h3, h4, h5⟩ := ih (by omega)
    have hlt : j < (n.run ls).tasks.length := by omega
    obtain ⟨ls', h6, h7, h8, h9⟩ := finish_task j (n.run ls).tasks[j] (n.run ls)
      (List.getElem?_eq_getElem hlt)
    refine ⟨ls ++ ls', ?_, ?_, ?_, ?_, ?_⟩
    · intro l hl
      rcases List.mem_append.1 hl with hl | hl
      · exact h1 l hl
      · exact h6 l hl
    · rw [run_append, h7, h2]
    · rw [run_append, h8, h3]
    · rw [run_append, h9, List.length_set, h4]
    · intro i τ hi hτ
      rw [run_append, h9, List.getElem?_set] at hτ
      split at hτ
      · cases hτ; exact ⟨rfl, rfl⟩
      · exact h5 i τ (by omega) hτ

/-- All initial topic syncs of `b` for `b'` are started. -/
theorem start_full (b b' : B) (k : Nat) (n : LNet U B T) (hk : n.fullT.count (b, b') = k) :
    ∃ ls : List (LLabel U B T), (∀ l ∈ ls, SyncOnly l) ∧ (n.run ls).st = n.st ∧
      (b, b') ∉ (n.run ls).fullT := by
  induction k generalizing n with
  | zero => exact ⟨[], by simp, rfl, List.count_eq_zero.1 hk⟩
  | succ k ih =>
    have hmem : (b, b') ∈ n.fullT := List.count_pos_iff.1 (by omega)
    have h1 : (n.step (.fullTopic b b')).st = n.st ∧
        (n.step (.fullTopic b b')).fullT = n.fullT.erase (b, b') := by
      simp only [LNet.step, if_pos hmem]
      split
      · exact ⟨rfl, rfl⟩
      · exact ⟨rfl, rfl⟩
    obtain ⟨ls, h2, h3, h4⟩ := ih (n.step (.fullTopic b b')) (by
      rw [h1.2, List.count_erase_self]; omega)
    refine ⟨.fullTopic b b' :: ls, ?_, h3.trans h1.1, h4⟩
    intro l hl
    rcases List.mem_cons.1 hl with rfl | hl
    · trivial
    · exact h2 l hl

/-- Everything queued from `b` to `b'` is handled. -/
theorem drain (c : Nat) (b b' : B) (hne : b ≠ b') (l : List (SyncMsg U B T)) (n : LNet U B T)
    (hq : n.q c b = l) (hl : Linked n c b b') :
    ∃ ls : List (LLabel U B T), (∀ l ∈ ls, SyncOnly l) ∧ (n.run ls).st b = n.st b ∧
      (n.run ls).fullT = n.fullT ∧ (n.run ls).tasks = n.tasks ∧ (n.run ls).q c b = [] ∧
      Linked (n.run ls) c b b' := by
  induction l generalizing n with
  | nil => exact ⟨[], by simp, rfl, rfl, rfl, hq, hl⟩
  | cons m l ih =>
    have h1 : (n.step (.deliver c b b')).st b = n.st b ∧ (n.step (.deliver c b b')).fullT = n.fullT ∧
        (n.step (.deliver c b b')).tasks = n.tasks ∧ (n.step (.deliver c b b')).q c b = l ∧
        Linked (n.step (.deliver c b b')) c b b' := by
      obtain ⟨l1, l2⟩ := hl
      simp only [LNet.step, l2, if_true, hq]
      cases m with
      | user m =>
        refine ⟨st_act_ne _ _ _ hne, rfl, rfl, by simp [setQ], ?_, ?_⟩
        · show ((n.act b' (.applyUserSync m)).st b).getBrokerConnection b' = _
          rw [st_act_ne _ _ _ hne]; exact l1
        · show ((n.act b' (.applyUserSync m)).st b').getBrokerConnection b = _
          rw [st_act_self]
          show ((n.st b').applyUserSync m).getBrokerConnection b = _
          unfold getBrokerConnection
          rw [Mesh.applyUserSync_brokers]; exact l2
      | topic m =>
        refine ⟨st_act_ne _ _ _ hne, rfl, rfl, by simp [setQ], ?_, ?_⟩
        · show ((n.act b' (.applyTopicSync b m)).st b).getBrokerConnection b' = _
          rw [st_act_ne _ _ _ hne]; exact l1
        · show ((n.act b' (.applyTopicSync b m)).st b').getBrokerConnection b = _
          rw [st_act_self]
          exact (applyTopicSync_conn _ _ _ _).trans l2
    obtain ⟨ls, h2, h3, h4, h5, h6, h7⟩ := ih _ h1.2.2.2.1 h1.2.2.2.2
    refine ⟨.deliver c b b' :: ls, ?_, h3.trans h1.1, h4.trans h1.2.1, h5.trans h1.2.2.1, h6, h7⟩
    intro l hl
    rcases List.mem_cons.1 hl with rfl | hl
    · trivial
    · exact h2 l hl

theorem linked_congr {n n' : LNet U B T} (h : n'.st = n.st) (c : Nat) (b b' : B) :
    Linked n' c b b' ↔ Linked n c b b' := by
  unfold Linked conn; rw [h]

/-- **C112**, the premise can always be met: in any state that can be reached in which `b` and `b'` are linked on a
connection, syncs alone lead to a state in which they still are and everything of `b` has arrived at `b'`; the
subscriptions at `b` are what they were. No proviso is needed here. -/
theorem C112_can_settle (ls : List (LLabel U B T)) (hlen : ls.length < 2 ^ 64)
    (c : Nat) (b b' : B) (hlink : Linked ((start : LNet U B T).run ls) c b b') :
    ∃ ls' : List (LLabel U B T), (∀ l ∈ ls', SyncOnly l) ∧
      Linked ((start : LNet U B T).run (ls ++ ls')) c b b' ∧
      TopicsSettled ((start : LNet U B T).run (ls ++ ls')) c b b' ∧
      ∀ t, TopicSync.Subscribed (((start : LNet U B T).run (ls ++ ls')).st b) t ↔
        TopicSync.Subscribed (((start : LNet U B T).run ls).st b) t := by
  have h := inv_any (U := U) (B := B) (T := T) ls hlen
  simp only [run_append]
  generalize (start : LNet U B T).run ls = n at *
  have hne : b ≠ b' := joins_ne h (h.reg _ _ _ hlink.1).1
  -- announce
  obtain ⟨p1, p2, p3, p4, _, _⟩ := partialTopicSync_spec (n.st b) (h.own b).index (h.own b).clean
  have hst1 : (n.step (.startTopic b)).st = (n.act b .partialTopicSync).st := by
    simp only [LNet.step]; split <;> rfl
  have hb1 : (n.step (.startTopic b)).st b = (n.st b).getPartialTopicSync.1 := by
    rw [hst1, st_act_self]; rfl
  have hann : ((n.step (.startTopic b)).st b).getPartialTopicSync.2 = none := by
    rw [hb1]
    have hidx : (n.st b).getPartialTopicSync.1.IndexInv := by
      have := (h.own b).index
      unfold IndexInv at *
      rw [p3, p4]; exact this
    obtain ⟨_, _, _, _, _, q6⟩ := partialTopicSync_spec (n.st b).getPartialTopicSync.1 hidx p2
    cases hr : (n.st b).getPartialTopicSync.1.getPartialTopicSync.2 with
    | none => rfl
    | some m =>
      rw [hr] at q6
      exfalso; apply q6.1
      intro t
      rw [p1 t]; unfold LocalTopic; rw [p3]
  have hl1 : Linked (n.step (.startTopic b)) c b b' := by
    have key : ∀ x y, (n.step (.startTopic b)).conn x y = n.conn x y := by
      intro x y
      apply conn_of_get
      rw [hst1, st_act]; split
      · rename_i e; subst e
        exact (notAbout_step _ y .partialTopicSync (h.own _).index trivial).1
      · rfl
    unfold Linked; rw [key, key]; exact hlink
  have hsub : ∀ t, TopicSync.Subscribed ((n.step (.startTopic b)).st b) t ↔
      TopicSync.Subscribed (n.st b) t := by
    intro t
    rw [TopicSync.subscribed_iff, TopicSync.subscribed_iff, hb1]; unfold LocalTopic; rw [p3]
  generalize hn1 : n.step (.startTopic b) = n1 at *
  obtain ⟨l2, a1, a2, a3⟩ := start_full b b' _ n1 rfl
  obtain ⟨l3, c1, c2, c3, c4, c5⟩ := finish_all (n1.run l2) _ (Nat.le_refl _)
  have hl3 : Linked ((n1.run l2).run l3) c b b' :=
    (linked_congr c2 c b b').2 ((linked_congr a2 c b b').2 hl1)
  obtain ⟨l4, d1, d2, d3, d4, d5, d6⟩ := drain c b b' hne _ ((n1.run l2).run l3) rfl hl3
  have hend : n.run (.startTopic b :: (l2 ++ l3 ++ l4)) = ((n1.run l2).run l3).run l4 := by
    show (n.step (.startTopic b)).run _ = _
    rw [hn1, run_append, run_append]
  have hstb : (((n1.run l2).run l3).run l4).st b = n1.st b := by rw [d2, c2, a2]
  refine ⟨.startTopic b :: (l2 ++ l3 ++ l4), ?_, ?_, ?_, ?_⟩
  · intro l hl
    simp only [List.mem_cons, List.mem_append] at hl
    rcases hl with rfl | (hl | hl) | hl
    · trivial
    · exact a1 l hl
    · exact c1 l hl
    · exact d1 l hl
  · rw [hend]; exact d6
  · rw [hend]
    refine ⟨by rw [hstb]; exact hann, by rw [d3, c3]; exact a3, ?_, by rw [d5]; simp⟩
    intro τ hτ _ _
    rw [d4] at hτ
    obtain ⟨i, hi⟩ := List.mem_iff_getElem?.1 hτ
    obtain ⟨e1, e2⟩ := c5 i τ (by rw [← c4]; exact (List.getElem?_eq_some_iff.1 hi).1) hi
    exact ⟨by rw [e2]; simp, [], e1, by simp⟩
  · intro t; rw [hend, hstb]; exact hsub t

end

/-! ## The case excluded, and a case included -/

/-- Whether the frame is a topic sync. -/
def isTopicB {U B T : Type} : SyncMsg U B T → Bool
  | .topic _ => true
  | .user _ => false

/-- Decision procedure for `TopicsSettled`. -/
def settledB {U B T : Type} [DecidableEq U] [DecidableEq B] [DecidableEq T] [LT B] [DecidableLT B] (n : LNet U B T)
    (c : Nat) (b b' : B) : Bool :=
  (n.st b).getPartialTopicSync.2.isNone && !(n.fullT.contains (b, b')) &&
  n.tasks.all (fun τ => τ.here != b || !isTopicB τ.msg ||
    (τ.held != some (b', c) && (match τ.dests with | some ds => !ds.contains b' | none => false))) &&
  (n.q c b).all (fun m => !isTopicB m)

theorem settledB_sound {U B T : Type} [DecidableEq U] [DecidableEq B] [DecidableEq T] [LT B] [DecidableLT B]
    (n : LNet U B T) (c : Nat) (b b' : B) (h : settledB n c b b' = true) :
    TopicsSettled n c b b' := by
  simp only [settledB, Bool.and_eq_true, List.all_eq_true, Bool.or_eq_true, Bool.not_eq_true', bne_iff_ne, ne_eq] at h
  obtain ⟨⟨⟨h1, h2⟩, h3⟩, h4⟩ := h
  have ht : ∀ m : SyncMsg U B T, Mesh.IsTopic m → isTopicB m = true := by
    intro m hm; cases m with
    | topic _ => rfl
    | user _ => exact absurd hm (by simp [Mesh.IsTopic])
  refine ⟨by simpa using h1, by simpa using h2, ?_, ?_⟩
  · intro τ hτ he hm
    rcases h3 τ hτ with (h5 | h5) | ⟨h5, h6⟩
    · exact absurd he h5
    · rw [ht _ hm] at h5; cases h5
    · refine ⟨h5, ?_⟩
      cases hd : τ.dests with
      | none => rw [hd] at h6; cases h6
      | some ds => rw [hd] at h6; exact ⟨ds, rfl, by simpa using h6⟩
  · intro m hm hh
    have := h4 m hm
    rw [ht _ hh] at this; cases this

/-- Decision procedure for `NeverMisled`. -/
def neverB {U B T : Type} [DecidableEq U] [DecidableEq B] [DecidableEq T] [LT B] [DecidableLT B] (c : Nat) (b b' : B)
    (n : LNet U B T) : List (LLabel U B T) → Bool
  | [] => true
  | l :: ls =>
    (match l with
     | .strayTopic c' x y => x != b || y != b' || n.conn b' b == some c' || (c' != c && n.conn b' b != some c)
     | _ => true) && neverB c b b' (n.step l) ls

theorem neverB_sound {U B T : Type} [DecidableEq U] [DecidableEq B] [DecidableEq T] [LT B] [DecidableLT B]
    (c : Nat) (b b' : B) (ls : List (LLabel U B T)) (n : LNet U B T) (h : neverB c b b' n ls = true) :
    NeverMisled c b b' n ls := by
  induction ls generalizing n with
  | nil => intro p l hp; have := List.prefix_nil.1 hp; simp at this
  | cons x ls ih =>
    simp only [neverB, Bool.and_eq_true] at h
    intro p l hp
    cases p with
    | nil =>
      obtain ⟨rfl, _⟩ := List.cons_prefix_cons.1 hp
      rintro ⟨c', rfl, h1, h2⟩
      have h3 := h.1
      simp only [Bool.or_eq_true, bne_self_eq_false, Bool.false_eq_true, false_or, beq_iff_eq, Bool.and_eq_true,
        bne_iff_ne, ne_eq] at h3
      rcases h3 with h3 | ⟨h3, h4⟩
      · exact h1 h3
      · exact h2.elim h3 h4
    | cons y p =>
      obtain ⟨rfl, hp'⟩ := List.cons_prefix_cons.1 hp
      exact ih _ h.2 p l hp'

/-- A user of broker 0 is subscribed to topic 7. Brokers 0 and 1 connect; broker 0 registers the connection and
sends its topics before broker 1 has registered it; the receive loop of broker 1 handles them already. -/
def early : List (LLabel Nat Nat Nat) :=
  [.connect 0 5 9 [7], .startTopic 0, .readDests 0, .authenticated 0 0 1, .register 0 0 1, .fullTopic 0 1,
   .readDests 1, .lookup 1, .push 1 true, .strayTopic 0 0 1, .register 0 1 0]

/-- **C112 is false**: after that the two brokers are linked, nothing is on its way, and broker 1 does not forward
messages on topic 7 to broker 0, although a user there is subscribed. -/
theorem C112_false : Linked ((LNet.start : LNet Nat Nat Nat).run early) 0 0 1 ∧
    TopicsSettled ((LNet.start : LNet Nat Nat Nat).run early) 0 0 1 ∧
    TopicSync.Subscribed (((LNet.start : LNet Nat Nat Nat).run early).st 0) 7 ∧
    0 ∉ ((((LNet.start : LNet Nat Nat Nat).run early).st 1).getInterestedByTopic [7] false).1 := by
  refine ⟨⟨by decide +kernel, by decide +kernel⟩, settledB_sound _ _ _ _ (by decide +kernel), ?_, by decide +kernel⟩
  exact ⟨5, by decide +kernel⟩

/-- Two connections between brokers 0 and 1. Broker 1 announces topic 7 on the first, crashes and is started again; both
register the second; only then the receive loop of the first at broker 0, not yet aborted, handles the announcement. -/
def late : List (LLabel Nat Nat Nat) :=
  [.authenticated 0 0 1, .register 0 0 1, .register 0 1 0, .connect 1 5 9 [7], .fullTopic 1 0, .startTopic 1,
   .readDests 0, .lookup 0, .push 0 true, .restart 1, .authenticated 1 0 1, .register 1 1 0, .fullTopic 1 0,
   .register 1 0 1, .strayTopic 0 1 0]

/-- **C112 is false** the other way, too: broker 0 forwards messages on topic 7 to broker 1, where nobody is
subscribed to it. -/
theorem C112_late_false : Linked ((LNet.start : LNet Nat Nat Nat).run late) 1 1 0 ∧
    TopicsSettled ((LNet.start : LNet Nat Nat Nat).run late) 1 1 0 ∧
    ¬ TopicSync.Subscribed (((LNet.start : LNet Nat Nat Nat).run late).st 1) 7 ∧
    1 ∈ ((((LNet.start : LNet Nat Nat Nat).run late).st 0).getInterestedByTopic [7] false).1 := by
  refine ⟨⟨by decide +kernel, by decide +kernel⟩, settledB_sound _ _ _ _ (by decide +kernel), ?_, by decide +kernel⟩
  have h : ((((LNet.start : LNet Nat Nat Nat).run late).st 1).getInterestedByTopic [7] true).2 = [] := by
    decide +kernel
  rintro ⟨u, hu⟩
  rw [h] at hu; exact (nomatch hu)

/-- Connection 0 between brokers 0 and 1 ends with a crash of broker 1, started again. Then both dial at once:
connections 1 and 2, registered in opposite orders, so that each broker ends on another one; a sync looked up the first
before the second replaced it. Both give up, and meet on connection 3. -/
def overlap : List (LLabel Nat Nat Nat) :=
  [.authenticated 0 0 1, .register 0 0 1, .connect 1 5 9 [7], .register 0 1 0, .restart 1, .authenticated 1 0 1,
   .authenticated 2 1 0, .register 2 0 1, .register 1 1 0, .connect 1 6 9 [8], .startTopic 1, .fullTopic 1 0,
   .readDests 0, .lookup 0, .register 2 1 0, .push 0 true, .strayUser 1 1 0, .register 1 0 1, .deliver 1 1 0,
   .drop 0 1, .drop 1 0, .authenticated 3 0 1, .register 3 1 0, .fullTopic 1 0, .lookup 2, .push 2 true,
   .register 3 0 1, .deliver 3 1 0, .readDests 1, .lookup 1, .push 1 true, .deliver 3 1 0,
   .fullTopic 1 0, .lookup 3, .push 3 true, .deliver 3 1 0]

example : NeverMisled 3 1 0 LNet.start overlap ∧ Linked ((LNet.start : LNet Nat Nat Nat).run overlap) 3 1 0 ∧
    TopicsSettled ((LNet.start : LNet Nat Nat Nat).run overlap) 3 1 0 ∧
    ((((LNet.start : LNet Nat Nat Nat).run overlap).st 0).getInterestedByTopic [7] false).1 = [] ∧
    ((((LNet.start : LNet Nat Nat Nat).run overlap).st 0).getInterestedByTopic [8] false).1 = [1] := by
  refine ⟨neverB_sound _ _ _ _ _ (by decide +kernel), ⟨by decide +kernel, by decide +kernel⟩,
    settledB_sound _ _ _ _ (by decide +kernel), by decide +kernel, by decide +kernel⟩

/-- What a sync handled out of place has broken is mended by the next connection: `early` and `late`, which refute
C112, and then a new connection between the two. -/
def earlyMended : List (LLabel Nat Nat Nat) :=
  early ++ [.authenticated 1 1 0, .register 1 1 0, .register 1 0 1, .fullTopic 0 1, .lookup 2, .push 2 true, .deliver 1 0 1]

def lateMended : List (LLabel Nat Nat Nat) :=
  late ++ [.authenticated 2 1 0, .register 2 1 0, .register 2 0 1, .fullTopic 1 0]

example : NeverMisled 1 0 1 LNet.start earlyMended ∧ Linked ((LNet.start : LNet Nat Nat Nat).run earlyMended) 1 0 1 ∧
    TopicsSettled ((LNet.start : LNet Nat Nat Nat).run earlyMended) 1 0 1 ∧
    ((((LNet.start : LNet Nat Nat Nat).run earlyMended).st 1).getInterestedByTopic [7] false).1 = [0] := by
  refine ⟨neverB_sound _ _ _ _ _ (by decide +kernel), ⟨by decide +kernel, by decide +kernel⟩,
    settledB_sound _ _ _ _ (by decide +kernel), by decide +kernel⟩

example : NeverMisled 2 1 0 LNet.start lateMended ∧ Linked ((LNet.start : LNet Nat Nat Nat).run lateMended) 2 1 0 ∧
    TopicsSettled ((LNet.start : LNet Nat Nat Nat).run lateMended) 2 1 0 ∧
    ((((LNet.start : LNet Nat Nat Nat).run lateMended).st 0).getInterestedByTopic [7] false).1 = [] := by
  refine ⟨neverB_sound _ _ _ _ _ (by decide +kernel), ⟨by decide +kernel, by decide +kernel⟩,
    settledB_sound _ _ _ _ (by decide +kernel), by decide +kernel⟩

/-- Each broker on another connection, halfway through. -/
example : ((LNet.start : LNet Nat Nat Nat).run (overlap.take 18)).conn 0 1 = some 1 ∧
    ((LNet.start : LNet Nat Nat Nat).run (overlap.take 18)).conn 1 0 = some 2 := by
  decide +kernel

end Verif.Props.Linking

import Verif.Lemmas.TopicSync

/-!
# Properties C21, C22: topic interest synchronisation
-/

set_option linter.unusedSectionVars false

namespace Verif.Props.TopicSync
open Verif Verif.Conns

variable {U B T H : Type} [DecidableEq U] [DecidableEq B] [DecidableEq T] [DecidableEq H]
  [LT B] [DecidableLT B]

/-! ## Specification -/

/-- Some local user would receive a message for topic `t`. -/
def Subscribed (s : Conns U B T H) (t : T) : Prop := ∃ u, u ∈ (s.getInterestedByTopic [t] true).2

/-- The topics that were subscribed when the broker last computed a partial topic sync. -/
def lastSynced (s : Conns U B T H) (L : T → Prop) : List (Op U B T H) → (T → Prop)
  | [] => L
  | .partialTopicSync :: ops => lastSynced (s.step .partialTopicSync) (Subscribed s) ops
  | op :: ops => lastSynced (s.step op) L ops

/-- The partial topic syncs a broker sends during a history. -/
def sent (s : Conns U B T H) : List (Op U B T H) → List (TopicSync T)
  | [] => []
  | .partialTopicSync :: ops =>
    s.getPartialTopicSync.2.toList ++ sent (s.step .partialTopicSync) ops
  | op :: ops => sent (s.step op) ops

theorem subscribed_iff (s : Conns U B T H) (t : T) : Subscribed s t ↔ s.LocalTopic t := by
  unfold Subscribed LocalTopic
  constructor
  · rintro ⟨u, hu⟩
    obtain ⟨t', ht', h⟩ := ((mem_interested s [t] true).1 u).1 hu
    rw [List.mem_singleton] at ht'
    subst ht'; exact ⟨u, h⟩
  · rintro ⟨u, hu⟩
    exact ⟨u, ((mem_interested s [t] true).1 u).2 ⟨t, by simp, hu⟩⟩

theorem prev_iff_lastSynced (ops : List (Op U B T H)) (s : Conns U B T H) (n : Nat) (h : TInv s n)
    (L : T → Prop) (hL : ∀ t, t ∈ s.prev ↔ L t) (t : T) :
    t ∈ (s.run ops).prev ↔ lastSynced s L ops t := by
  induction ops generalizing s n L with
  | nil => exact hL t
  | cons op ops ih =>
    rw [run_cons]
    by_cases hop : op = .partialTopicSync
    · subst hop
      refine ih _ (n + 1) (tinv_step h _) (Subscribed s) ?_
      intro t
      rw [subscribed_iff]
      exact (partialTopicSync_spec s h.index h.clean).1 t
    · have e : lastSynced s L (op :: ops) = lastSynced (s.step op) L ops := by
        cases op <;> first | rfl | exact absurd rfl hop
      rw [e]
      refine ih _ (n + 1) (tinv_step h _) L ?_
      intro t
      rw [(topicSync_step s op hop).2]; exact hL t

/-! ## C22 -/

/-- **C22.** A partial topic sync is produced only if the set of locally subscribed topics differs
from the one at the previous call, and then it lists exactly the added topics as subscribed, the
removed ones as unsubscribed, and nothing else. -/
theorem C22_sync_iff_changed (id : B) (ops : List (Op U B T H)) :
    let s := (Conns.new id).run ops
    let L := lastSynced (Conns.new id) (fun _ => False) ops
    match s.getPartialTopicSync.2 with
    | none => ∀ t, Subscribed s t ↔ L t
    | some m =>
      (∃ t, ¬ (Subscribed s t ↔ L t)) ∧
      ∀ t, (m.get t = some .subscribed ↔ Subscribed s t ∧ ¬ L t) ∧
           (m.get t = some .unsubscribed ↔ L t ∧ ¬ Subscribed s t) ∧
           (m.map.get t = none ↔ (Subscribed s t ↔ L t)) := by
  intro s L
  have h : TInv s ops.length := by
    have := tinv_run (tinv_new (U := U) (T := T) (H := H) id) ops
    simpa using this
  have hL : ∀ t, t ∈ s.prev ↔ L t :=
    prev_iff_lastSynced ops _ 0 (tinv_new id) (fun _ => False) (by simp [Conns.new])
  obtain ⟨_, _, _, _, h5, h6⟩ := partialTopicSync_spec s h.index h.clean
  cases hr : s.getPartialTopicSync.2 with
  | none =>
    rw [hr] at h6
    intro t
    rw [subscribed_iff, ← hL]
    exact (h6 t).symm
  | some m =>
    rw [hr] at h6
    obtain ⟨h7, h8⟩ := h6
    constructor
    · obtain ⟨t, ht⟩ := Classical.not_forall.1 h7
      refine ⟨t, fun h => ht ?_⟩
      rw [subscribed_iff, ← hL] at h
      exact h.symm
    · intro t
      rw [subscribed_iff, ← hL]
      simp only [VMap.get]
      rw [h8, h5]
      by_cases hl : s.LocalTopic t <;> by_cases hp : t ∈ s.prev <;> simp [hl, hp]

/-- Non-trivial instance of C22: two users on topic 5, one leaves: no sync; the other leaves and a
third takes topic 6: the sync says 5 unsubscribed, 6 subscribed. -/
example :
    let ops : List (Op Nat Nat Nat Nat) :=
      [.addUser 1 100 [5], .addUser 2 101 [5], .partialTopicSync, .removeUser 1]
    let ops' := ops ++ [.removeUser 2, .addUser 3 102 [6]]
    (((Conns.new 0).run ops).getPartialTopicSync.2.isNone = true) ∧
    (((Conns.new 0).run ops').getPartialTopicSync.2.map (fun m => (m.get 5, m.get 6)) =
      some (some .unsubscribed, some .subscribed)) := by
  refine ⟨by rfl, by rfl⟩

/-! ## C21 -/

theorem sent_past (ops : List (Op U B T H)) (s : Conns U B T H) (n : Nat) (h : TInv s n)
    (hn : n + ops.length < 2 ^ 64) (m : TopicSync T) (hm : m ∈ sent s ops) :
    Past m (s.run ops).topicSync ∧ ∀ t x, m.map.get t = some x → x.value ≠ none := by
  induction ops generalizing s n with
  | nil => simp [sent] at hm
  | cons op ops ih =>
    rw [List.length_cons] at hn
    rw [run_cons]
    by_cases hop : op = .partialTopicSync
    · subst hop
      simp only [sent, List.mem_append] at hm
      rcases hm with hm | hm
      · obtain ⟨_, _, _, _, h5, h6⟩ := partialTopicSync_spec s h.index h.clean
        cases hr : s.getPartialTopicSync.2 with
        | none => rw [hr] at hm; simp at hm
        | some m' =>
          rw [hr] at hm h6
          simp only [Option.toList_some, List.mem_singleton] at hm
          subst hm
          have hcur : ∀ t x, m.map.get t = some x →
              (s.step .partialTopicSync).topicSync.map.get t = some x := by
            intro t x hx
            rw [h6.2] at hx
            split at hx
            · exact hx
            · simp at hx
          have hti := tinv_step h (.partialTopicSync)
          refine ⟨?_, fun t x hx => (hti.ent t x (hcur t x hx)).1⟩
          have : Past m (s.step .partialTopicSync).topicSync :=
            fun t x hx => ⟨x, hcur t x hx, Or.inr rfl⟩
          exact this.trans (past_run hti ops (by omega))
      · exact ih _ (n + 1) (tinv_step h _) (by omega) hm
    · have e : sent s (op :: ops) = sent (s.step op) ops := by
        cases op <;> first | rfl | exact absurd rfl hop
      rw [e] at hm
      exact ih _ (n + 1) (tinv_step h _) (by omega) hm

theorem sent_covers (ops : List (Op U B T H)) (s : Conns U B T H) (n : Nat) (h : TInv s n)
    (t : T) (x : VV SubStatus) (hx : (s.run ops).topicSync.map.get t = some x) :
    s.topicSync.map.get t = some x ∨ ∃ m ∈ sent s ops, m.map.get t = some x := by
  induction ops generalizing s n with
  | nil => left; exact hx
  | cons op ops ih =>
    rw [run_cons] at hx
    have hrec := ih _ (n + 1) (tinv_step h op) hx
    by_cases hop : op = .partialTopicSync
    · subst hop
      simp only [sent, List.mem_append]
      rcases hrec with h1 | ⟨m, hm, h1⟩
      · obtain ⟨_, _, _, _, h5, h6⟩ := partialTopicSync_spec s h.index h.clean
        by_cases hch : (s.LocalTopic t ∧ t ∉ s.prev) ∨ (t ∈ s.prev ∧ ¬ s.LocalTopic t)
        · right
          cases hr : s.getPartialTopicSync.2 with
          | none => rw [hr] at h6; have := h6 t; grind
          | some m =>
            rw [hr] at h6
            refine ⟨m, Or.inl (by simp), ?_⟩
            rw [h6.2, if_pos hch]; exact h1
        · left
          simp only [step] at h1
          rw [h5, if_neg (fun h' => hch (Or.inl h')), if_neg (fun h' => hch (Or.inr h'))] at h1
          exact h1
      · right; exact ⟨m, Or.inr hm, h1⟩
    · have e : sent s (op :: ops) = sent (s.step op) ops := by
        cases op <;> first | rfl | exact absurd rfl hop
      rw [(topicSync_step s op hop).1] at hrec
      rw [e]; exact hrec

theorem getFullTopicSync_eq (s : Conns U B T H) (F : TopicSync T)
    (h : s.getFullTopicSync = some F) : F = s.topicSync := by
  unfold getFullTopicSync at h
  split at h
  · simp at h
  · exact (Option.some.inj h).symm

/-- **C21.** Broker `id` has history `before`, sends a full topic sync (or nothing, if its map is
empty), and goes on with history `after`.  A receiver in any reachable state registers the connection
and then goes through any history `recv` that does not itself drop, re-register or manually
(un)subscribe the peer, in which the delivered syncs from `id`
* are all taken from what `id` ever produced (any full sync at any earlier time, any partial sync), in
  any order and any number of times;
* include the full sync and every partial sync sent after it.
Then the receiver forwards topic `t` to `id` exactly when some user of `id` was subscribed to `t` when
`id` last computed a sync. (`hlen` excludes wrapping of the 64-bit version counter.) -/
theorem C21_topic_interest_converges
    (id rid : B) (before after pre recv : List (Op U B T H)) (hd : H)
    (hlen : (before ++ after).length < 2 ^ 64)
    (hrecv : ∀ op ∈ recv, OnlySyncs id op)
    (hfrom : ∀ m ∈ delivered id recv,
      m ∈ sent (Conns.new id) (before ++ after) ∨
      ∃ p q, before ++ after = p ++ q ∧
        ((Conns.new id : Conns U B T H).run p).getFullTopicSync = some m)
    (hfull : ∀ F, ((Conns.new id : Conns U B T H).run before).getFullTopicSync = some F →
      F ∈ delivered id recv)
    (hpart : ∀ P ∈ sent ((Conns.new id).run before) after, P ∈ delivered id recv)
    (t : T) :
    id ∈ (((Conns.new rid).run (pre ++ .addBroker id hd :: recv)).getInterestedByTopic [t] false).1
      ↔ lastSynced (Conns.new id) (fun _ => False) (before ++ after) t := by
  have h0 : TInv (Conns.new id : Conns U B T H) 0 := tinv_new id
  -- sender side
  have hS : TInv ((Conns.new id : Conns U B T H).run (before ++ after)) (before ++ after).length := by
    have := tinv_run h0 (before ++ after); simpa using this
  have hprev : ∀ t, t ∈ ((Conns.new id : Conns U B T H).run (before ++ after)).prev ↔
      lastSynced (Conns.new id) (fun _ => False) (before ++ after) t :=
    prev_iff_lastSynced _ _ 0 h0 (fun _ => False) (by simp [Conns.new])
  have hSget : ((Conns.new id : Conns U B T H).run (before ++ after)).topicSync.get t =
      some .subscribed ↔ lastSynced (Conns.new id) (fun _ => False) (before ++ after) t :=
    (hS.prev t).trans (hprev t)
  generalize hSdef : ((Conns.new id : Conns U B T H).run (before ++ after)).topicSync = S at hSget
  -- every delivered message is in the past of S
  have hdel : ∀ m ∈ delivered id recv, Past m S ∧ ∀ t x, m.map.get t = some x → x.value ≠ none := by
    intro m hm
    rcases hfrom m hm with h1 | ⟨p, q, hpq, h1⟩
    · have := sent_past (before ++ after) _ 0 h0 (by simpa using hlen) m h1
      rw [hSdef] at this; exact this
    · have e := getFullTopicSync_eq _ _ h1
      have hp : TInv ((Conns.new id : Conns U B T H).run p) p.length := by
        have := tinv_run h0 p; simpa using this
      have hp2 := past_run hp q (by rw [hpq, List.length_append] at hlen; exact hlen)
      rw [← run_append, ← hpq, hSdef] at hp2
      rw [e]
      exact ⟨hp2, fun t x hx => (hp.ent t x hx).1⟩
  -- the last entry of every topic is delivered
  have hcov : ∀ t x, S.map.get t = some x → ∃ m ∈ delivered id recv, m.map.get t = some x := by
    intro t x hx
    have hb : TInv ((Conns.new id : Conns U B T H).run before) before.length := by
      have := tinv_run h0 before; simpa using this
    rw [← hSdef, run_append] at hx
    rcases sent_covers after _ _ hb t x hx with h1 | ⟨m, hm, h1⟩
    · refine ⟨_, hfull ((Conns.new id : Conns U B T H).run before).topicSync ?_, h1⟩
      unfold getFullTopicSync
      rw [if_neg]
      intro he
      rw [AMap.isEmpty_iff] at he
      rw [he t] at h1
      simp at h1
    · exact ⟨m, hpart m hm, h1⟩
  -- receiver side
  have hr0 : ((Conns.new rid : Conns U B T H).run pre).IndexInv :=
    indexInv_run _ ⟨RMap.inv_new, RMap.inv_new⟩ pre
  have hr1 : RInv (((Conns.new rid : Conns U B T H).run pre).step (.addBroker id hd)) id S := by
    refine ⟨indexInv_step _ _ hr0, ⟨⟨hd, VMap.new 0⟩, ?_, ?_, ?_, ?_⟩⟩
    · simp [step, addBroker]
    · intro t x hx; simp [VMap.new] at hx
    · intro t x hx; simp [VMap.new] at hx
    · intro t
      simp only [step, addBroker, removeBroker_bcBrokers]
      rw [RMap.bwd_removeKey hr0.2]
      simp [VMap.get, VMap.new]
  obtain ⟨hr2, hr3⟩ := receiver_run id S recv _ hr1 hrecv hdel
  have hrun : (Conns.new rid : Conns U B T H).run (pre ++ .addBroker id hd :: recv) =
      (((Conns.new rid : Conns U B T H).run pre).step (.addBroker id hd)).run recv := by
    rw [run_append, run_cons]
  rw [hrun]
  rw [(mem_interested _ [t] false).2.1 id]
  simp only [true_and, List.mem_singleton, exists_eq_left]
  obtain ⟨e, he, hpast, hval, hbwd⟩ := hr2.view
  rw [hbwd t, ← hSget]
  have hsame : e.topicSync.map.get t = S.map.get t := by
    obtain ⟨e0, he0, _⟩ := hr1.view
    cases hst : S.map.get t with
    | some x => exact hr3 e0 e he0 he t x hst (Or.inr (hcov t x hst))
    | none =>
      cases hl : e.topicSync.map.get t with
      | none => rfl
      | some y =>
        obtain ⟨z, hz, _⟩ := hpast t y hl
        rw [hst] at hz; simp at hz
  simp only [VMap.get, hsame]

/-- **C21**, steady state: if the sender has just computed a sync, the receiver's interest equals the
sender's current subscriptions. -/
theorem C21_lastSynced_current (id : B) (ops : List (Op U B T H)) (t : T) :
    lastSynced (Conns.new id) (fun _ => False) (ops ++ [.partialTopicSync]) t ↔
    Subscribed ((Conns.new id).run (ops ++ [.partialTopicSync])) t := by
  have key : ∀ (ops : List (Op U B T H)) (s : Conns U B T H) (L : T → Prop),
      lastSynced s L (ops ++ [.partialTopicSync]) = Subscribed (s.run ops) := by
    intro ops
    induction ops with
    | nil => intro s L; rfl
    | cons op ops ih =>
      intro s L
      rw [run_cons, List.cons_append]
      cases op <;> simp only [lastSynced] <;> exact ih _ _
  have h : TInv ((Conns.new id : Conns U B T H).run ops) ops.length := by
    have := tinv_run (tinv_new (U := U) (T := T) (H := H) id) ops
    simpa using this
  obtain ⟨_, _, h3, _⟩ := partialTopicSync_spec _ h.index h.clean
  rw [key, run_append, subscribed_iff, subscribed_iff]
  unfold LocalTopic
  simp only [run, List.foldl_cons, List.foldl_nil, step]
  simp only [run] at h3
  rw [h3]

/-- Non-trivial instance of C21: topic 5 subscribed, full sync, then 5 unsubscribed and 6 subscribed;
the partial sync overtakes the full one and is delivered twice. -/
example :
    let before : List (Op Nat Nat Nat Nat) := [.addUser 1 100 [5], .partialTopicSync]
    let after : List (Op Nat Nat Nat Nat) := [.unsubscribeUser 1 [5], .subscribeUser 1 [6], .partialTopicSync]
    let F := ((Conns.new 0).run before).topicSync
    let Ps := sent ((Conns.new 0).run before) after
    let recv : List (Op Nat Nat Nat Nat) :=
      (Ps.map (.applyTopicSync 0)) ++ [.applyTopicSync 0 F, .addUser 9 102 []] ++
      (Ps.map (.applyTopicSync 0))
    let r := (Conns.new 7).run ([] ++ .addBroker 0 101 :: recv)
    Ps.length = 1 ∧
    [5, 6].map (fun t => (r.getInterestedByTopic [t] false).1) = [[], [0]] := by
  refine ⟨by rfl, by rfl⟩

end Verif.Props.TopicSync

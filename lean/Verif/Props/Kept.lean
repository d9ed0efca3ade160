import Verif.Lemmas.Connections
import Verif.Model.Topic
import Mathlib.Data.List.Perm.Subperm

/-!
# Property C123: what a broker keeps about users who are gone

When a user leaves, the broker's direct map keeps a tombstone (an entry without a broker) so that the departure can be announced.
A broker runs for months and meets any number of users, so it matters that nothing stays behind. A history is any list of calls
(`Conns.Op`) starting from a new table; the sync maps inside the calls are arbitrary.
-/

set_option linter.unusedSectionVars false

namespace Verif.Props.Kept
open Verif Verif.Conns

variable {U B T H : Type} [DecidableEq U] [DecidableEq B] [DecidableEq T] [DecidableEq H]
  [LT B] [DecidableLT B]

/-! ## The versioned map -/

/-- Tombstones are there for users in `S` only, and each will be announced. -/
def Dead (S : U → Prop) (m : DirectMap U B) : Prop :=
  ∀ k v, m.map.get k = some ⟨v, none⟩ → k ∈ m.modified ∧ S k

theorem dead_new (S : U → Prop) (b : B) : Dead S (VMap.new b : DirectMap U B) := by
  intro k v h
  simp [VMap.new] at h

theorem dead_insert {S : U → Prop} {m : DirectMap U B} {u : U} (h : Dead (fun k => S k ∨ k = u) m) (b : B) :
    Dead S (m.insert u b) := by
  intro k v hk
  rw [VMap.insert, VMap.map_modifyLocal] at hk
  rw [VMap.insert, VMap.modified_modifyLocal, FSet.mem_insert]
  by_cases hu : u = k
  · rw [if_pos hu] at hk
    simp at hk
  · rw [if_neg hu] at hk
    obtain ⟨h1, h2 | h2⟩ := h k v hk
    · exact ⟨Or.inr h1, h2⟩
    · exact absurd h2.symm hu

theorem dead_removeIfEquals {S : U → Prop} {m : DirectMap U B} {u : U} {b : B} (h : Dead S m)
    (hu : m.get u = some b → S u) : Dead S (m.removeIfEquals u b) := by
  rw [VMap.removeIfEquals_eq]
  split
  · rename_i hg
    intro k v hk
    rw [VMap.remove, VMap.map_modifyLocal] at hk
    rw [VMap.remove, VMap.modified_modifyLocal, FSet.mem_insert]
    by_cases he : u = k
    · subst he
      exact ⟨Or.inl rfl, hu hg⟩
    · rw [if_neg he] at hk
      obtain ⟨h1, h2⟩ := h k v hk
      exact ⟨Or.inr h1, h2⟩
  · exact h

theorem dead_diff {S : U → Prop} {m : DirectMap U B} (h : Dead S m) (S' : U → Prop) : Dead S' m.diff.1 := by
  intro k v hk
  rw [VMap.map_diff_self] at hk
  split at hk
  · split at hk
    · cases hk
    · rename_i hx
      exact absurd hk (hx v)
  · rename_i hn
    exact absurd (h k v hk).1 hn

theorem dead_merge {S : U → Prop} {m : DirectMap U B} (h : Dead S m) (r : DirectMap U B) : Dead S (m.merge r).1 := by
  intro k v hk
  rw [VMap.map_merge] at hk
  have key : ∀ hn : ¬ ∃ e, r.map.get k = some e ∧ VMap.takes m.ident r.ident (m.map.get k) e,
      m.map.get k = some ⟨v, none⟩ → k ∈ (m.merge r).1.modified ∧ S k := by
    intro hn hm
    obtain ⟨h1, h2⟩ := h k v hm
    exact ⟨(VMap.modified_merge m r k).2 ⟨h1, fun hx => hn hx.2⟩, h2⟩
  cases hr : r.map.get k with
  | none =>
    rw [hr] at hk
    exact key (by rintro ⟨e, he, _⟩; rw [hr] at he; cases he) hk
  | some e =>
    rw [hr] at hk
    dsimp only at hk
    split at hk
    · unfold VMap.adopted at hk
      split at hk
      · rename_i hs
        cases hk
        simp at hs
      · cases hk
    · rename_i hn
      exact key (by rintro ⟨e', he, ht⟩; rw [hr] at he; cases he; exact hn ht) hk

/-! ## The calls -/

/-- A call that may leave a tombstone for `u` at broker `b`: the user leaves, or a sync says that they are at `b`. -/
def Leaves (b : B) (u : U) : Op U B T H → Prop
  | .removeUser w => w = u
  | .applyUserSync m => m.get u = some b
  | _ => False

theorem dead_foldl {S : U → Prop} (b : B) (l : List (U × Option B)) (s : Conns U B T H) (hi : s.identity = b)
    (h : Dead S s.direct) (hl : ∀ c ∈ l, s.direct.get c.1 = some b → S c.1) :
    Dead S (l.foldl (fun s c => s.removeUser c.1) s).direct := by
  induction l generalizing s with
  | nil => exact h
  | cons c l ih =>
    refine ih (s.removeUser c.1) (by simpa using hi) ?_ ?_
    · rw [removeUser_direct, hi]
      exact dead_removeIfEquals h (hl c List.mem_cons_self)
    · intro c' hc' hg
      rw [removeUser_direct_get] at hg
      split at hg
      · cases hg
      · exact hl c' (List.mem_cons_of_mem _ hc') hg

theorem dead_step {S : U → Prop} (b : B) (s : Conns U B T H) (op : Op U B T H) (hi : s.identity = b)
    (hS : ∀ u, Leaves b u op → S u) (h : Dead S s.direct) : Dead S (s.step op).direct := by
  cases op with
  | addUser u hd ts =>
    simp only [step, addUser]
    refine dead_insert ?_ _
    rw [removeUser_direct]
    exact dead_removeIfEquals (fun k v hk => ⟨(h k v hk).1, Or.inl (h k v hk).2⟩) (fun _ => Or.inr rfl)
  | removeUser u =>
    simp only [step, removeUser_direct]
    exact dead_removeIfEquals h (fun _ => hS u rfl)
  | addBroker b' hd =>
    simp only [step, addBroker, removeBroker_direct]
    exact h
  | removeBroker b' =>
    simp only [step, removeBroker_direct]
    exact h
  | subscribeUser u ts => exact h
  | unsubscribeUser u ts => exact h
  | subscribeBroker b' ts => exact h
  | unsubscribeBroker b' ts => exact h
  | applyUserSync m =>
    simp only [step, applyUserSync]
    refine dead_foldl b _ _ hi (dead_merge h m) ?_
    rintro ⟨k, v⟩ hc hg
    obtain ⟨e, he, ht, hv⟩ := (VMap.mem_changes_merge _ _ _ _).1 hc
    refine hS k ?_
    show m.get k = some b
    have : (s.direct.merge m).1.map.get k = VMap.adopted e := by
      rw [VMap.map_merge, he]
      simp [ht]
    dsimp only at hg
    unfold VMap.get at hg ⊢
    rw [this] at hg
    rw [he]
    unfold VMap.adopted at hg
    split at hg
    · exact hg
    · cases hg
  | applyTopicSync b' m =>
    simp only [step, applyTopicSync]
    cases hb : s.brokers.get b' with
    | none =>
      simp only [removeBroker_direct]
      exact h
    | some e =>
      obtain ⟨_, _, _, h4, _⟩ := foldl_applyTopicChange_frame
        { s with brokers := s.brokers.insert b' { e with topicSync := (e.topicSync.merge m).1 } }
        b' (e.topicSync.merge m).2
      simp only [h4]
      exact h
  | partialUserSync => exact dead_diff h S
  | partialTopicSync =>
    simp only [step, getPartialTopicSync]
    split <;> exact h

theorem dead_run {S : U → Prop} (b : B) (ops : List (Op U B T H)) (s : Conns U B T H) (hi : s.identity = b)
    (hS : ∀ op ∈ ops, ∀ u, Leaves b u op → S u) (h : Dead S s.direct) : Dead S (s.run ops).direct := by
  induction ops generalizing s with
  | nil => exact h
  | cons op ops ih =>
    rw [run_cons]
    exact ih _ (by simpa using hi) (fun o ho => hS o (List.mem_cons_of_mem _ ho))
      (dead_step b s op hi (hS op List.mem_cons_self) h)

/-! ## C123 -/

/-- **C123.** A user of whom the direct map has an entry, and who is not found, has been removed here, or was said by another
broker to be here, since the last user sync was taken, whichever that was; and the next one says that they are gone. -/
theorem C123_departures (b : B) (pre post : List (Op U B T H)) (u : U) (e : VV B)
    (he : ((Conns.new b : Conns U B T H).run (pre ++ .partialUserSync :: post)).direct.map.get u = some e)
    (hu : ((Conns.new b : Conns U B T H).run (pre ++ .partialUserSync :: post)).getBrokerOfUser u = none) :
    (∃ op ∈ post, op = .removeUser u ∨ ∃ m, op = .applyUserSync m ∧ m.get u = some b) ∧
    (∃ m, ((Conns.new b : Conns U B T H).run (pre ++ .partialUserSync :: post)).getPartialUserSync.2 = some m ∧
      m.map.get u = some ⟨e.version, none⟩) := by
  have hdead : Dead (fun k => ∃ op ∈ post, Leaves b k op)
      ((Conns.new b : Conns U B T H).run (pre ++ .partialUserSync :: post)).direct := by
    rw [run_append, run_cons]
    refine dead_run b post _ (by simp [Conns.new]) (fun op ho k hk => ⟨op, ho, hk⟩) ?_
    exact dead_diff (S := fun _ => True) (dead_run b pre _ rfl (fun _ _ _ _ => trivial) (dead_new _ b)) _
  generalize (Conns.new b : Conns U B T H).run (pre ++ .partialUserSync :: post) = s at he hu hdead
  have hv : e.value = none := by
    unfold getBrokerOfUser VMap.get at hu
    rw [he] at hu
    exact hu
  have he' : s.direct.map.get u = some ⟨e.version, none⟩ := by rw [he, ← hv]
  obtain ⟨hm, op, ho, hl⟩ := hdead u e.version he'
  refine ⟨⟨op, ho, ?_⟩, s.direct.diff.2, ?_, ?_⟩
  · cases op with
    | removeUser w => exact Or.inl (by rw [show w = u from hl])
    | applyUserSync m => exact Or.inr ⟨m, rfl, hl⟩
    | _ => exact hl.elim
  · simp only [getPartialUserSync]
    rw [if_neg]
    intro hemp
    have := (AMap.isEmpty_iff.1 hemp) u
    rw [VMap.map_diff_out, if_pos hm, he'] at this
    cases this
  · rw [VMap.map_diff_out, if_pos hm, he']

/-- **C123.** Right after a user sync was taken, the direct map has entries for exactly the users that are found. -/
theorem C123_after_sync (b : B) (ops : List (Op U B T H)) (u : U) :
    u ∈ ((Conns.new b : Conns U B T H).run (ops ++ [.partialUserSync])).direct.map.keys ↔
    (((Conns.new b : Conns U B T H).run (ops ++ [.partialUserSync])).getBrokerOfUser u).isSome := by
  rw [AMap.mem_keys]
  constructor
  · intro h
    obtain ⟨e, he⟩ := Option.isSome_iff_exists.1 h
    cases hg : ((Conns.new b : Conns U B T H).run (ops ++ [.partialUserSync])).getBrokerOfUser u with
    | some x => rfl
    | none =>
      obtain ⟨⟨op, ho, _⟩, _⟩ := C123_departures b ops [] u e he hg
      cases ho
  · intro h
    unfold getBrokerOfUser VMap.get at h
    revert h
    cases ((Conns.new b : Conns U B T H).run (ops ++ [.partialUserSync])).direct.map.get u <;> simp

/-! ### Topics -/

/-- No tombstones. -/
def Alive (m : TopicSync T) : Prop := ∀ k e, m.map.get k = some e → e.value ≠ none

theorem alive_insert {m : TopicSync T} (h : Alive m) (t : T) (x : SubStatus) : Alive (m.insert t x) := by
  intro k e hk
  rw [VMap.insert, VMap.map_modifyLocal] at hk
  split at hk
  · cases hk
    simp
  · exact h k e hk

theorem alive_foldl {m : TopicSync T} (h : Alive m) (x : SubStatus) (l : List T) :
    Alive (l.foldl (fun m t => VMap.insert m t x) m) :=
  foldl_preserves Alive _ (fun _ t hm => alive_insert hm t x) l m h

theorem alive_diff {m : TopicSync T} (h : Alive m) : Alive m.diff.1 := by
  intro k e hk
  rw [VMap.map_diff_self] at hk
  split at hk
  · split at hk
    · cases hk
    · exact h k e hk
  · exact h k e hk

theorem alive_merge {m : TopicSync T} (h : Alive m) (r : TopicSync T) : Alive (m.merge r).1 := by
  intro k e hk
  rw [VMap.map_merge] at hk
  split at hk
  · split at hk
    · unfold VMap.adopted at hk
      split at hk
      · rename_i hs
        cases hk
        intro hn
        rw [hn] at hs
        cases hs
      · cases hk
    · exact h k e hk
  · exact h k e hk

def TopicsAlive (s : Conns U B T H) : Prop :=
  Alive s.topicSync ∧ ∀ b e, s.brokers.get b = some e → Alive e.topicSync

theorem topicsAlive_removeBroker {s : Conns U B T H} (h : TopicsAlive s) (b : B) : TopicsAlive (s.removeBroker b) := by
  refine ⟨by rw [removeBroker_topicSync]; exact h.1, fun b' e he => ?_⟩
  rw [removeBroker_brokers_get] at he
  split at he
  · cases he
  · exact h.2 b' e he

theorem topicsAlive_step (s : Conns U B T H) (op : Op U B T H) (h : TopicsAlive s) : TopicsAlive (s.step op) := by
  cases op with
  | addUser u hd ts =>
    simp only [step, addUser]
    exact ⟨by simpa using h.1, by simpa using h.2⟩
  | removeUser u => exact ⟨by simpa [step] using h.1, by simpa [step] using h.2⟩
  | addBroker b' hd =>
    simp only [step, addBroker]
    have h' := topicsAlive_removeBroker (s := { s with gaugeBrokers := s.gaugeBrokers + 1 }) h b'
    refine ⟨h'.1, fun x e he => ?_⟩
    dsimp only at he
    rw [AMap.get_insert] at he
    split at he
    · cases he
      intro k e hk
      simp [VMap.new] at hk
    · exact h'.2 x e he
  | removeBroker b' => exact topicsAlive_removeBroker h b'
  | subscribeUser u ts => exact h
  | unsubscribeUser u ts => exact h
  | subscribeBroker b' ts => exact h
  | unsubscribeBroker b' ts => exact h
  | applyUserSync m =>
    obtain ⟨_, h2, _, h4, _⟩ := foldl_removeUser_frame ({ s with direct := (s.direct.merge m).1 } : Conns U B T H) Prod.fst
      (s.direct.merge m).2
    simp only [step, applyUserSync, TopicsAlive, h2, h4]
    exact h
  | applyTopicSync b' m =>
    simp only [step, applyTopicSync]
    cases hb : s.brokers.get b' with
    | none => exact topicsAlive_removeBroker h b'
    | some e =>
      obtain ⟨_, _, h3, _, _, h6, _⟩ := foldl_applyTopicChange_frame
        { s with brokers := s.brokers.insert b' { e with topicSync := (e.topicSync.merge m).1 } }
        b' (e.topicSync.merge m).2
      simp only [TopicsAlive, h3, h6]
      refine ⟨h.1, fun x e' he => ?_⟩
      rw [AMap.get_insert] at he
      split at he
      · cases he
        exact alive_merge (h.2 b' e hb) m
      · exact h.2 x e' he
  | partialUserSync => exact h
  | partialTopicSync =>
    simp only [step, getPartialTopicSync]
    split
    · exact h
    · exact ⟨alive_diff (alive_foldl (alive_foldl h.1 _ _) _ _), h.2⟩

/-- There are 256 topics. -/
theorem size_le {V : Type} (m : AMap Topic V) : m.size ≤ 256 := by
  have hnd : (m.keys.map UInt8.toNat).Nodup := by
    refine List.Pairwise.map _ ?_ m.keys_nodup
    intro a b hab hn
    exact hab (UInt8.toNat_inj.1 hn)
  have := (List.subperm_of_subset hnd (l₂ := List.range 256) (fun x hx => by
    obtain ⟨t, _, rfl⟩ := List.mem_map.1 hx
    exact List.mem_range.2 (UInt8.toNat_lt t))).length_le
  simpa [AMap.keys, AMap.size] using this

/-- **C123.** However often topics come and go, and whatever other brokers send, the broker's table of its own topics and the one it
keeps for each broker have no tombstones, and no more than 256 entries each. -/
theorem C123_topics (b : B) (ops : List (Op U B Topic H)) :
    (∀ t e, ((Conns.new b : Conns U B Topic H).run ops).topicSync.map.get t = some e → e.value ≠ none) ∧
    ((Conns.new b : Conns U B Topic H).run ops).topicSync.map.size ≤ 256 ∧
    ∀ x r, ((Conns.new b : Conns U B Topic H).run ops).brokers.get x = some r →
      (∀ t e, r.topicSync.map.get t = some e → e.value ≠ none) ∧ r.topicSync.map.size ≤ 256 := by
  have h : TopicsAlive ((Conns.new b : Conns U B Topic H).run ops) := by
    refine run_induction _ topicsAlive_step _ ⟨?_, ?_⟩ ops
    · intro k e hk
      simp [Conns.new, VMap.new] at hk
    · intro x e he
      simp [Conns.new] at he
  exact ⟨h.1, size_le _, fun x r hr => ⟨h.2 x r hr, size_le _⟩⟩

/-! ### Examples -/

/-- Two users connect, one is said to be elsewhere, a sync is taken; then user 1 leaves. -/
def demo : List (Op Nat Nat Topic Nat) :=
  [.addUser 1 10 [0], .addUser 2 11 [1], .applyUserSync ⟨AMap.ofList [(7, ⟨3, some 9⟩), (8, ⟨2, none⟩)], FSet.empty, 9⟩]

/-- The hypotheses of `C123_departures` are met: user 1 has left, and a stale sync claims that user 5 is here. -/
example :
    (((Conns.new 4 : Conns Nat Nat Topic Nat).run (demo ++ .partialUserSync :: [.removeUser 1,
      .applyUserSync ⟨AMap.ofList [(5, ⟨6, some 4⟩)], FSet.empty, 3⟩])).direct.map.get 1 = some ⟨2, none⟩ ∧
    ((Conns.new 4 : Conns Nat Nat Topic Nat).run (demo ++ .partialUserSync :: [.removeUser 1,
      .applyUserSync ⟨AMap.ofList [(5, ⟨6, some 4⟩)], FSet.empty, 3⟩])).direct.map.get 5 = some ⟨7, none⟩) := by
  decide +kernel

/-- Once that has been announced, only users 2 and 7 are kept. -/
example :
    ((Conns.new 4 : Conns Nat Nat Topic Nat).run ((demo ++ .partialUserSync :: [.removeUser 1,
      .applyUserSync ⟨AMap.ofList [(5, ⟨6, some 4⟩)], FSet.empty, 3⟩]) ++ [.partialUserSync])).direct.map.keys = [7, 2] := by
  decide +kernel

/-- A broker's tables with a topic that was subscribed and unsubscribed, here and there. -/
example :
    ((Conns.new 4 : Conns Nat Nat Topic Nat).run [.addUser 1 10 [0], .partialTopicSync, .unsubscribeUser 1 [0], .partialTopicSync,
      .addBroker 5 20, .applyTopicSync 5 ⟨AMap.ofList [(1, ⟨1, some .subscribed⟩)], FSet.empty, 0⟩,
      .applyTopicSync 5 ⟨AMap.ofList [(1, ⟨2, none⟩)], FSet.empty, 0⟩]).topicSync.map.keys = [0] := by
  decide +kernel

end Verif.Props.Kept

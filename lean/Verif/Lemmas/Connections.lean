import Verif.Model.Connections
import Verif.Lemmas.VersionedMap
import Verif.Lemmas.RelationalMap

/-!
# Lemmas about the connection table
-/

set_option linter.unusedSectionVars false

namespace Verif.Conns
variable {U B T H : Type} [DecidableEq U] [DecidableEq B] [DecidableEq T] [DecidableEq H]
  [LT B] [DecidableLT B]

/-! ## Field-wise effect of each method -/

section fields
variable (s : Conns U B T H)

@[simp] theorem removeBroker_identity (b : B) : (s.removeBroker b).identity = s.identity := by
  unfold removeBroker; cases s.brokers.get b <;> rfl
@[simp] theorem removeBroker_users (b : B) : (s.removeBroker b).users = s.users := by
  unfold removeBroker; cases s.brokers.get b <;> rfl
@[simp] theorem removeBroker_direct (b : B) : (s.removeBroker b).direct = s.direct := by
  unfold removeBroker; cases s.brokers.get b <;> rfl
@[simp] theorem removeBroker_bcUsers (b : B) : (s.removeBroker b).bcUsers = s.bcUsers := by
  unfold removeBroker; cases s.brokers.get b <;> rfl
@[simp] theorem removeBroker_bcBrokers (b : B) :
    (s.removeBroker b).bcBrokers = s.bcBrokers.removeKey b := by
  unfold removeBroker; cases s.brokers.get b <;> rfl
@[simp] theorem removeBroker_topicSync (b : B) : (s.removeBroker b).topicSync = s.topicSync := by
  unfold removeBroker; cases s.brokers.get b <;> rfl
@[simp] theorem removeBroker_prev (b : B) : (s.removeBroker b).prev = s.prev := by
  unfold removeBroker; cases s.brokers.get b <;> rfl
@[simp] theorem removeBroker_gaugeUsers (b : B) : (s.removeBroker b).gaugeUsers = s.gaugeUsers := by
  unfold removeBroker; cases s.brokers.get b <;> rfl
theorem removeBroker_brokers_get (b b' : B) :
    (s.removeBroker b).brokers.get b' = if b = b' then none else s.brokers.get b' := by
  unfold removeBroker
  cases h : s.brokers.get b with
  | some e => simp [AMap.get_erase]
  | none =>
    simp only
    by_cases hb : b = b'
    · subst hb; simp [h]
    · simp [hb]
theorem removeBroker_gaugeBrokers (b : B) :
    (s.removeBroker b).gaugeBrokers =
      s.gaugeBrokers - (if (s.brokers.get b).isSome then 1 else 0) := by
  unfold removeBroker; cases h : s.brokers.get b <;> simp
theorem removeBroker_brokers_size (b : B) :
    ((s.removeBroker b).brokers.size : Int) =
      s.brokers.size - (if (s.brokers.get b).isSome then 1 else 0) := by
  unfold removeBroker
  cases h : s.brokers.get b with
  | some e =>
    have := AMap.size_erase_of_some (m := s.brokers) (k := b) (by simp [h])
    simp only [Option.isSome_some, if_true]; omega
  | none => simp
theorem removeBroker_aborted (b : B) :
    (s.removeBroker b).aborted =
      match s.brokers.get b with | some e => e.handle :: s.aborted | none => s.aborted := by
  unfold removeBroker; cases h : s.brokers.get b <;> rfl

@[simp] theorem removeUser_identity (u : U) : (s.removeUser u).identity = s.identity := by
  unfold removeUser; cases s.users.get u <;> rfl
@[simp] theorem removeUser_brokers (u : U) : (s.removeUser u).brokers = s.brokers := by
  unfold removeUser; cases s.users.get u <;> rfl
@[simp] theorem removeUser_direct (u : U) :
    (s.removeUser u).direct = s.direct.removeIfEquals u s.identity := by
  unfold removeUser; cases s.users.get u <;> rfl
@[simp] theorem removeUser_bcUsers (u : U) : (s.removeUser u).bcUsers = s.bcUsers.removeKey u := by
  unfold removeUser; cases s.users.get u <;> rfl
@[simp] theorem removeUser_bcBrokers (u : U) : (s.removeUser u).bcBrokers = s.bcBrokers := by
  unfold removeUser; cases s.users.get u <;> rfl
@[simp] theorem removeUser_topicSync (u : U) : (s.removeUser u).topicSync = s.topicSync := by
  unfold removeUser; cases s.users.get u <;> rfl
@[simp] theorem removeUser_prev (u : U) : (s.removeUser u).prev = s.prev := by
  unfold removeUser; cases s.users.get u <;> rfl
@[simp] theorem removeUser_gaugeBrokers (u : U) :
    (s.removeUser u).gaugeBrokers = s.gaugeBrokers := by
  unfold removeUser; cases s.users.get u <;> rfl
theorem removeUser_users_get (u u' : U) :
    (s.removeUser u).users.get u' = if u = u' then none else s.users.get u' := by
  unfold removeUser
  cases h : s.users.get u with
  | some e => simp [AMap.get_erase]
  | none =>
    simp only
    by_cases hb : u = u'
    · subst hb; simp [h]
    · simp [hb]
theorem removeUser_gaugeUsers (u : U) :
    (s.removeUser u).gaugeUsers = s.gaugeUsers - (if (s.users.get u).isSome then 1 else 0) := by
  unfold removeUser; cases h : s.users.get u <;> simp
theorem removeUser_users_size (u : U) :
    ((s.removeUser u).users.size : Int) =
      s.users.size - (if (s.users.get u).isSome then 1 else 0) := by
  unfold removeUser
  cases h : s.users.get u with
  | some e =>
    have := AMap.size_erase_of_some (m := s.users) (k := u) (by simp [h])
    simp only [Option.isSome_some, if_true]; omega
  | none => simp
theorem removeUser_aborted (u : U) :
    (s.removeUser u).aborted =
      match s.users.get u with | some h => h :: s.aborted | none => s.aborted := by
  unfold removeUser; cases h : s.users.get u <;> rfl

theorem removeUser_direct_get (u u' : U) :
    (s.removeUser u).direct.get u' =
      if u = u' ∧ s.direct.get u = some s.identity then none else s.direct.get u' := by
  rw [removeUser_direct, VMap.get_removeIfEquals]

end fields

/-! ## Induction over calls

A predicate preserved by the "small" operations is preserved by every call. -/

theorem foldl_removeUser_preserves (P : Conns U B T H → Prop)
    (h : ∀ s u, P s → P (s.removeUser u)) {A : Type} (f : A → U) (l : List A)
    (s : Conns U B T H) (hs : P s) : P (l.foldl (fun s c => s.removeUser (f c)) s) := by
  induction l generalizing s with
  | nil => exact hs
  | cons a l ih => exact ih _ (h s _ hs)

theorem foldl_preserves {S A : Type} (P : S → Prop) (f : S → A → S)
    (h : ∀ s a, P s → P (f s a)) (l : List A) (s : S) (hs : P s) : P (l.foldl f s) := by
  induction l generalizing s with
  | nil => exact hs
  | cons a l ih => exact ih _ (h s a hs)

/-! Frame facts for the folds -/

section frame
variable (s : Conns U B T H)

theorem applyTopicChange_frame (b : B) (c : T × Option SubStatus) :
    (applyTopicChange b s c).identity = s.identity ∧ (applyTopicChange b s c).users = s.users ∧
    (applyTopicChange b s c).brokers = s.brokers ∧ (applyTopicChange b s c).direct = s.direct ∧
    (applyTopicChange b s c).bcUsers = s.bcUsers ∧
    (applyTopicChange b s c).topicSync = s.topicSync ∧ (applyTopicChange b s c).prev = s.prev ∧
    (applyTopicChange b s c).aborted = s.aborted ∧
    (applyTopicChange b s c).gaugeUsers = s.gaugeUsers ∧
    (applyTopicChange b s c).gaugeBrokers = s.gaugeBrokers := by
  unfold applyTopicChange subscribeBroker unsubscribeBroker
  split <;> simp

theorem foldl_applyTopicChange_frame (b : B) (l : List (T × Option SubStatus)) :
    let s' := l.foldl (applyTopicChange b) s
    s'.identity = s.identity ∧ s'.users = s.users ∧ s'.brokers = s.brokers ∧ s'.direct = s.direct ∧
    s'.bcUsers = s.bcUsers ∧ s'.topicSync = s.topicSync ∧ s'.prev = s.prev ∧
    s'.aborted = s.aborted ∧ s'.gaugeUsers = s.gaugeUsers ∧ s'.gaugeBrokers = s.gaugeBrokers := by
  induction l generalizing s with
  | nil => simp
  | cons c l ih =>
    have h1 := ih (applyTopicChange b s c)
    have h2 := applyTopicChange_frame s b c
    simp only [List.foldl_cons] at *
    obtain ⟨a1, a2, a3, a4, a5, a6, a7, a8, a9, a10⟩ := h1
    obtain ⟨b1, b2, b3, b4, b5, b6, b7, b8, b9, b10⟩ := h2
    exact ⟨a1.trans b1, a2.trans b2, a3.trans b3, a4.trans b4, a5.trans b5, a6.trans b6,
      a7.trans b7, a8.trans b8, a9.trans b9, a10.trans b10⟩

theorem foldl_removeUser_frame {A : Type} (f : A → U) (l : List A) :
    let s' := l.foldl (fun s c => s.removeUser (f c)) s
    s'.identity = s.identity ∧ s'.brokers = s.brokers ∧ s'.bcBrokers = s.bcBrokers ∧
    s'.topicSync = s.topicSync ∧ s'.prev = s.prev ∧ s'.gaugeBrokers = s.gaugeBrokers := by
  induction l generalizing s with
  | nil => simp
  | cons c l ih =>
    have h1 := ih (s.removeUser (f c))
    simp only [List.foldl_cons] at *
    simp only [removeUser_identity, removeUser_brokers, removeUser_bcBrokers,
      removeUser_topicSync, removeUser_prev, removeUser_gaugeBrokers] at h1
    exact h1

theorem foldl_removeUser_users_get {A : Type} (f : A → U) (l : List A) (u : U) :
    (l.foldl (fun s c => s.removeUser (f c)) s).users.get u =
      if u ∈ l.map f then none else s.users.get u := by
  induction l generalizing s with
  | nil => simp
  | cons c l ih =>
    rw [List.foldl_cons, ih, removeUser_users_get, List.map_cons]
    by_cases h1 : f c = u
    · simp [h1]
    · have h2 : ¬ u = f c := fun e => h1 e.symm
      simp only [h1, List.mem_cons, h2, false_or, if_false]

theorem foldl_removeUser_direct_get {A : Type} (f : A → U) (l : List A) (u : U) :
    (l.foldl (fun s c => s.removeUser (f c)) s).direct.get u =
      if u ∈ l.map f ∧ s.direct.get u = some s.identity then none else s.direct.get u := by
  induction l generalizing s with
  | nil => simp
  | cons c l ih =>
    rw [List.foldl_cons, ih, removeUser_direct_get, removeUser_identity, List.map_cons]
    by_cases h1 : f c = u
    · subst h1
      by_cases h2 : s.direct.get (f c) = some s.identity
      · simp [h2]
      · simp [h2]
    · have h2 : ¬ u = f c := fun e => h1 e.symm
      simp only [h1, List.mem_cons, h2, false_or, if_false, false_and]

end frame

@[simp] theorem identity_step (s : Conns U B T H) (op : Op U B T H) :
    (s.step op).identity = s.identity := by
  cases op with
  | addUser u h ts => simp [step, addUser]
  | removeUser u => simp [step]
  | addBroker b h => simp [step, addBroker]
  | removeBroker b => simp [step]
  | subscribeUser u ts => rfl
  | unsubscribeUser u ts => rfl
  | subscribeBroker b ts => rfl
  | unsubscribeBroker b ts => rfl
  | applyUserSync m => exact (foldl_removeUser_frame _ Prod.fst _).1
  | applyTopicSync b m =>
    simp only [step, applyTopicSync]
    cases h : s.brokers.get b with
    | none => simp
    | some e => exact (foldl_applyTopicChange_frame _ b _).1
  | partialUserSync => rfl
  | partialTopicSync =>
    simp only [step, getPartialTopicSync]
    split <;> rfl

@[simp] theorem identity_run (s : Conns U B T H) (ops : List (Op U B T H)) :
    (s.run ops).identity = s.identity := by
  induction ops generalizing s with
  | nil => rfl
  | cons op ops ih =>
    have := ih (s.step op)
    simpa [run] using this

theorem run_cons (s : Conns U B T H) (op : Op U B T H) (ops : List (Op U B T H)) :
    s.run (op :: ops) = (s.step op).run ops := rfl

theorem run_append (s : Conns U B T H) (a b : List (Op U B T H)) :
    s.run (a ++ b) = (s.run a).run b := List.foldl_append

/-- Invariants are proved for every reachable state by one lemma. -/
theorem run_induction (P : Conns U B T H → Prop) (hstep : ∀ s op, P s → P (s.step op))
    (s : Conns U B T H) (hs : P s) (ops : List (Op U B T H)) : P (s.run ops) :=
  foldl_preserves P step hstep ops s hs

/-! ## The two topic indexes stay consistent -/

def IndexInv (s : Conns U B T H) : Prop := s.bcUsers.Inv ∧ s.bcBrokers.Inv

theorem indexInv_step (s : Conns U B T H) (op : Op U B T H) (h : s.IndexInv) :
    (s.step op).IndexInv := by
  obtain ⟨h1, h2⟩ := h
  cases op with
  | addUser u hd ts =>
    simp only [step, addUser, IndexInv, removeUser_bcUsers, removeUser_bcBrokers]
    exact ⟨RMap.inv_associate (RMap.inv_removeKey h1 u) u ts, h2⟩
  | removeUser u =>
    simp only [step, IndexInv, removeUser_bcUsers, removeUser_bcBrokers]
    exact ⟨RMap.inv_removeKey h1 u, h2⟩
  | addBroker b hd =>
    simp only [step, addBroker, IndexInv, removeBroker_bcUsers, removeBroker_bcBrokers]
    exact ⟨h1, RMap.inv_removeKey h2 b⟩
  | removeBroker b =>
    simp only [step, IndexInv, removeBroker_bcUsers, removeBroker_bcBrokers]
    exact ⟨h1, RMap.inv_removeKey h2 b⟩
  | subscribeUser u ts => exact ⟨RMap.inv_associate h1 u ts, h2⟩
  | unsubscribeUser u ts => exact ⟨RMap.inv_dissociate h1 u ts, h2⟩
  | subscribeBroker b ts => exact ⟨h1, RMap.inv_associate h2 b ts⟩
  | unsubscribeBroker b ts => exact ⟨h1, RMap.inv_dissociate h2 b ts⟩
  | applyUserSync m =>
    refine foldl_removeUser_preserves IndexInv
      ?_ Prod.fst _ _ ⟨h1, h2⟩
    intro s u hs
    simp only [IndexInv, removeUser_bcUsers, removeUser_bcBrokers]
    exact ⟨RMap.inv_removeKey hs.1 u, hs.2⟩
  | applyTopicSync b m =>
    simp only [step, applyTopicSync]
    cases hb : s.brokers.get b with
    | none =>
      simp only [IndexInv, removeBroker_bcUsers, removeBroker_bcBrokers]
      exact ⟨h1, RMap.inv_removeKey h2 b⟩
    | some e =>
      refine foldl_preserves IndexInv _ ?_ _ _
        ⟨h1, h2⟩
      intro s c hs
      unfold applyTopicChange
      split
      · exact ⟨hs.1, RMap.inv_associate hs.2 b _⟩
      · exact ⟨hs.1, RMap.inv_dissociate hs.2 b _⟩
  | partialUserSync => exact ⟨h1, h2⟩
  | partialTopicSync =>
    simp only [step, getPartialTopicSync]
    split <;> exact ⟨h1, h2⟩

theorem indexInv_run (s : Conns U B T H) (h : s.IndexInv) (ops : List (Op U B T H)) :
    (s.run ops).IndexInv := run_induction IndexInv indexInv_step s h ops

/-! ## Who is interested -/

theorem mem_interested (s : Conns U B T H) (ts : List T) (o : Bool) :
    (∀ u, u ∈ (s.getInterestedByTopic ts o).2 ↔ ∃ t ∈ ts, s.bcUsers.Bwd u t) ∧
    (∀ b, b ∈ (s.getInterestedByTopic ts o).1 ↔ o = false ∧ ∃ t ∈ ts, s.bcBrokers.Bwd b t) ∧
    (s.getInterestedByTopic ts o).1.Nodup ∧ (s.getInterestedByTopic ts o).2.Nodup := by
  have key : ∀ (ts : List T) (acc : FSet B × FSet U),
      (∀ u, u ∈ (ts.foldl (fun (acc : FSet B × FSet U) t =>
          ( if o then acc.1 else acc.1.insertMany (s.bcBrokers.getKeysByValue t),
            acc.2.insertMany (s.bcUsers.getKeysByValue t))) acc).2 ↔
          u ∈ acc.2 ∨ ∃ t ∈ ts, s.bcUsers.Bwd u t) ∧
      (∀ b, b ∈ (ts.foldl (fun (acc : FSet B × FSet U) t =>
          ( if o then acc.1 else acc.1.insertMany (s.bcBrokers.getKeysByValue t),
            acc.2.insertMany (s.bcUsers.getKeysByValue t))) acc).1 ↔
          b ∈ acc.1 ∨ (o = false ∧ ∃ t ∈ ts, s.bcBrokers.Bwd b t)) := by
    intro ts
    induction ts with
    | nil => intro acc; simp
    | cons t ts ih =>
      intro acc
      simp only [List.foldl_cons]
      obtain ⟨h1, h2⟩ := ih ( if o then acc.1 else acc.1.insertMany (s.bcBrokers.getKeysByValue t),
            acc.2.insertMany (s.bcUsers.getKeysByValue t))
      constructor
      · intro u
        rw [h1]
        simp only [FSet.mem_insertMany, RMap.mem_getKeysByValue, List.mem_cons]
        grind
      · intro b
        rw [h2]
        cases o with
        | true => simp
        | false =>
          simp only [Bool.false_eq_true, if_false, FSet.mem_insertMany, RMap.mem_getKeysByValue,
            List.mem_cons, true_and]
          grind
  obtain ⟨h1, h2⟩ := key ts (FSet.empty, FSet.empty)
  refine ⟨fun u => ?_, fun b => ?_, FSet.nodup _, FSet.nodup _⟩
  · have := h1 u
    simp only [FSet.mem_empty, false_or] at this
    exact this
  · have := h2 b
    simp only [FSet.mem_empty, false_or] at this
    exact this

end Verif.Conns

import Verif.Model.Sessions
import Verif.Props.Connections

/-! # The tasks of one broker: helper lemmas -/

set_option linter.unusedSectionVars false

namespace Verif.Conns
variable {U B T H : Type} [DecidableEq U] [DecidableEq B] [DecidableEq T] [DecidableEq H]
  [LT B] [DecidableLT B]

/-! ## The table -/

theorem aborted_removeUser (s : Conns U B T H) (u : U) {h : H} (hh : h ∈ s.aborted) :
    h ∈ (s.removeUser u).aborted := by
  rw [removeUser_aborted]
  split
  · exact List.mem_cons_of_mem _ hh
  · exact hh

theorem aborted_removeBroker (s : Conns U B T H) (b : B) {h : H} (hh : h ∈ s.aborted) :
    h ∈ (s.removeBroker b).aborted := by
  rw [removeBroker_aborted]
  split
  · exact List.mem_cons_of_mem _ hh
  · exact hh

/-- What was aborted stays aborted. -/
theorem aborted_step (s : Conns U B T H) (op : Op U B T H) {h : H} (hh : h ∈ s.aborted) :
    h ∈ (s.step op).aborted := by
  cases op with
  | addUser u x ts => exact aborted_removeUser { s with gaugeUsers := s.gaugeUsers + 1 } u hh
  | removeUser u => exact aborted_removeUser s u hh
  | addBroker b x => exact aborted_removeBroker { s with gaugeBrokers := s.gaugeBrokers + 1 } b hh
  | removeBroker b => exact aborted_removeBroker s b hh
  | subscribeUser u ts => exact hh
  | unsubscribeUser u ts => exact hh
  | subscribeBroker b ts => exact hh
  | unsubscribeBroker b ts => exact hh
  | applyUserSync m =>
    exact foldl_removeUser_preserves (fun s => h ∈ s.aborted) (fun s u hs => aborted_removeUser s u hs)
      Prod.fst _ _ hh
  | applyTopicSync b m =>
    simp only [step, applyTopicSync]
    cases hb : s.brokers.get b with
    | none => exact aborted_removeBroker s b hh
    | some e =>
      simp only []
      rw [(foldl_applyTopicChange_frame _ b _).2.2.2.2.2.2.2.1]
      exact hh
  | partialUserSync => exact hh
  | partialTopicSync =>
    simp only [step, getPartialTopicSync]
    split <;> exact hh

theorem aborted_run (s : Conns U B T H) (ops : List (Op U B T H)) {h : H} (hh : h ∈ s.aborted) :
    h ∈ (s.run ops).aborted :=
  run_induction (fun s => h ∈ s.aborted) (fun s op hs => aborted_step s op hs) s hh ops

/-- User `u` is on connection `i`, with subscriptions `R`. -/
def On (s : Conns U B T H) (u : U) (i : H) (R : T → Prop) : Prop :=
  s.users.get u = some i ∧ ∀ t, s.bcUsers.Bwd u t ↔ R t

/-- Removals of other users do not matter; removing `u` aborts. -/
theorem on_removeUser {s : Conns U B T H} {u : U} {i : H} {R : T → Prop} (hi : s.IndexInv)
    (h : On s u i R) (u' : U) : (u' = u ∧ i ∈ (s.removeUser u').aborted) ∨ (u' ≠ u ∧ On (s.removeUser u') u i R) := by
  by_cases hu : u' = u
  · left
    refine ⟨hu, ?_⟩
    rw [hu, removeUser_aborted, h.1]
    exact List.mem_cons_self
  · right
    refine ⟨hu, ?_, fun t => ?_⟩
    · rw [removeUser_users_get, if_neg hu]; exact h.1
    · rw [removeUser_bcUsers, RMap.bwd_removeKey hi.1]
      rw [h.2 t]
      exact ⟨fun h => h.2, fun h => ⟨fun e => hu e.symm, h⟩⟩

/-- One call: the connection of `u` is aborted, or it stays and its subscriptions change only by
subscribing and unsubscribing. -/
theorem on_step {s : Conns U B T H} {u : U} {i : H} {R : T → Prop} (hi : s.IndexInv) (h : On s u i R)
    (op : Op U B T H) :
    i ∈ (s.step op).aborted ∨
    On (s.step op) u i (fun t => (R t ∧ ¬ ∃ ts, op = .unsubscribeUser u ts ∧ t ∈ ts) ∨
      ∃ ts, op = .subscribeUser u ts ∧ t ∈ ts) := by
  have same : ∀ s' : Conns U B T H, s'.users.get u = s.users.get u → s'.bcUsers = s.bcUsers →
      (∀ ts, op ≠ .unsubscribeUser u ts) → (∀ ts, op ≠ .subscribeUser u ts) →
      On s' u i (fun t => (R t ∧ ¬ ∃ ts, op = .unsubscribeUser u ts ∧ t ∈ ts) ∨
        ∃ ts, op = .subscribeUser u ts ∧ t ∈ ts) := by
    intro s' h1 h2 h3 h4
    refine ⟨by rw [h1]; exact h.1, fun t => ?_⟩
    rw [h2, h.2 t]
    constructor
    · intro ht
      exact Or.inl ⟨ht, fun ⟨ts, e, _⟩ => h3 ts e⟩
    · rintro (ht | ⟨ts, e, _⟩)
      · exact ht.1
      · exact absurd e (h4 ts)
  cases op with
  | addUser u' x ts =>
    rcases on_removeUser (s := { s with gaugeUsers := s.gaugeUsers + 1 }) hi h u' with ⟨_, h1⟩ | ⟨hu, h1⟩
    · exact Or.inl h1
    · right
      refine ⟨?_, fun t => ?_⟩
      · simp only [step, addUser, AMap.get_insert, if_neg hu]; exact h1.1
      · simp only [step, addUser, RMap.bwd_associate]
        have := h1.2 t
        have hu' : ¬ u = u' := fun e => hu e.symm
        simp only [hu', false_and, false_or, this, reduceCtorEq, exists_false, not_false_eq_true, and_true,
          or_false]
  | removeUser u' =>
    rcases on_removeUser hi h u' with ⟨_, h1⟩ | ⟨hu, h1⟩
    · exact Or.inl h1
    · right
      refine ⟨h1.1, fun t => ?_⟩
      have := h1.2 t
      show (s.removeUser u').bcUsers.Bwd u t ↔ _
      simpa only [reduceCtorEq, false_and, exists_false, not_false_eq_true, and_true, or_false] using this
  | addBroker b x => exact Or.inr (same _ (by simp [step, addBroker]) (by simp [step, addBroker]) (by simp) (by simp))
  | removeBroker b => exact Or.inr (same _ (by simp [step]) (by simp [step]) (by simp) (by simp))
  | subscribeUser u' ts =>
    right
    refine ⟨h.1, fun t => ?_⟩
    simp only [step, subscribeUser, RMap.bwd_associate, h.2 t, reduceCtorEq, false_and, exists_false,
      not_false_eq_true, and_true, Op.subscribeUser.injEq]
    constructor
    · rintro (⟨rfl, ht⟩ | ht)
      · exact Or.inr ⟨ts, ⟨rfl, rfl⟩, ht⟩
      · exact Or.inl ht
    · rintro (ht | ⟨ts', ⟨rfl, rfl⟩, ht⟩)
      · exact Or.inr ht
      · exact Or.inl ⟨rfl, ht⟩
  | unsubscribeUser u' ts =>
    right
    refine ⟨h.1, fun t => ?_⟩
    simp only [step, unsubscribeUser, RMap.bwd_dissociate, h.2 t, reduceCtorEq, false_and, exists_false,
      or_false, Op.unsubscribeUser.injEq]
    constructor
    · rintro ⟨h1, h2⟩
      exact ⟨h2, fun ⟨ts', ⟨e1, e2⟩, ht⟩ => h1 ⟨e1.symm, e2 ▸ ht⟩⟩
    · rintro ⟨h1, h2⟩
      exact ⟨fun ⟨e1, e2⟩ => h2 ⟨ts, ⟨e1.symm, rfl⟩, e2⟩, h1⟩
  | subscribeBroker b ts => exact Or.inr (same _ rfl rfl (by simp) (by simp))
  | unsubscribeBroker b ts => exact Or.inr (same _ rfl rfl (by simp) (by simp))
  | applyUserSync m =>
    have key : ∀ (l : List (U × Option B)) (s : Conns U B T H), s.IndexInv → On s u i R →
        i ∈ (l.foldl (fun s c => s.removeUser c.1) s).aborted ∨
          On (l.foldl (fun s c => s.removeUser c.1) s) u i R := by
      intro l
      induction l with
      | nil => intro s _ h; exact Or.inr h
      | cons c l ih =>
        intro s hi h
        rw [List.foldl_cons]
        rcases on_removeUser hi h c.1 with ⟨_, h1⟩ | ⟨_, h1⟩
        · exact Or.inl (foldl_removeUser_preserves (fun s => i ∈ s.aborted)
            (fun s u hs => aborted_removeUser s u hs) Prod.fst l _ h1)
        · exact ih _ (indexInv_step s (.removeUser c.1) hi) h1
    rcases key (s.direct.merge m).2 { s with direct := (s.direct.merge m).1 } hi h with h1 | h1
    · exact Or.inl h1
    · right
      refine ⟨h1.1, fun t => ?_⟩
      have := h1.2 t
      simp only [reduceCtorEq, false_and, exists_false, not_false_eq_true, and_true, or_false]
      exact this
  | applyTopicSync b m =>
    right
    cases hb : s.brokers.get b with
    | none => exact same _ (by simp [step, applyTopicSync, hb]) (by simp [step, applyTopicSync, hb]) (by simp) (by simp)
    | some e =>
      refine same _ ?_ ?_ (by simp) (by simp)
      · simp only [step, applyTopicSync, hb]
        rw [(foldl_applyTopicChange_frame _ b _).2.1]
      · simp only [step, applyTopicSync, hb]
        rw [(foldl_applyTopicChange_frame _ b _).2.2.2.2.1]
  | partialUserSync => exact Or.inr (same _ rfl rfl (by simp) (by simp))
  | partialTopicSync =>
    right
    refine same _ ?_ ?_ (by simp) (by simp)
    · simp only [step, getPartialTopicSync]; split <;> rfl
    · simp only [step, getPartialTopicSync]; split <;> rfl

end Verif.Conns

namespace Verif.Sessions
open Verif Verif.Broker Verif.Conns Verif.Props.Connections

variable {B σ : Type} [DecidableEq B] [LT B] [DecidableLT B]

/-! ## Frames -/

/-- What the receive loop does with a frame (`Broker.userFrame`) is what `userAct` says. -/
theorem userFrame_act (cfg : Cfg B σ) (s : Table B Nat) (h : σ) (u raw : Bytes) (sch : Sched B Nat) :
    (userFrame cfg s h u raw sch).hook = (userAct cfg h u raw).1 ∧
    match (userAct cfg h u raw).2 with
    | .op o => (userFrame cfg s h u raw sch).ok = true ∧ (userFrame cfg s h u raw sch).table = s.step o
    | .idle => (userFrame cfg s h u raw sch).ok = true
    | .fail => (userFrame cfg s h u raw sch).ok = false ∧ (userFrame cfg s h u raw sch).table = s := by
  unfold userFrame userAct
  cases cfg.decode raw with
  | none => exact ⟨rfl, rfl, rfl⟩
  | some m =>
    dsimp only
    cases (cfg.userHook h m).2.2 with
    | skip => exact ⟨rfl, rfl⟩
    | error => exact ⟨rfl, rfl, rfl⟩
    | process =>
      dsimp only
      cases (cfg.userHook h m).2.1 with
      | direct r p => exact ⟨rfl, rfl⟩
      | broadcast ts p =>
        dsimp only
        by_cases hp : (prune cfg.valid ts).2 = true
        · simp [hp]
        · simp [hp]
      | subscribe ts =>
        dsimp only
        by_cases hp : (prune cfg.valid ts).2 = true
        · simp [hp, step]
        · simp [hp]
      | unsubscribe ts =>
        dsimp only
        by_cases hp : (prune cfg.valid ts).2 = true
        · simp [hp, step]
        · simp [hp]
      | _ => exact ⟨rfl, rfl, rfl⟩

/-- The same for brokers. -/
theorem brokerFrame_act (cfg : Cfg B σ) (s : Table B Nat) (h : σ) (b : B) (raw : Bytes) (sch : Sched B Nat) :
    (brokerFrame cfg s h b raw sch).hook = (brokerAct cfg h b raw).1 ∧
    match (brokerAct cfg h b raw).2 with
    | .op o => (brokerFrame cfg s h b raw sch).ok = true ∧ (brokerFrame cfg s h b raw sch).table = s.step o
    | .idle => (brokerFrame cfg s h b raw sch).ok = true
    | .fail => (brokerFrame cfg s h b raw sch).ok = false ∧ (brokerFrame cfg s h b raw sch).table = s := by
  unfold brokerFrame brokerAct
  cases cfg.decode raw with
  | none => exact ⟨rfl, rfl, rfl⟩
  | some m =>
    dsimp only
    cases (cfg.brokerHook h m).2.2 with
    | skip => exact ⟨rfl, rfl⟩
    | error => exact ⟨rfl, rfl, rfl⟩
    | process =>
      dsimp only
      cases (cfg.brokerHook h m).2.1 with
      | userSync d =>
        dsimp only
        cases cfg.decUserSync d with
        | none => exact ⟨rfl, rfl, rfl⟩
        | some m => exact ⟨rfl, rfl, rfl⟩
      | topicSync d =>
        dsimp only
        cases cfg.decTopicSync d with
        | none => exact ⟨rfl, rfl, rfl⟩
        | some m => exact ⟨rfl, rfl, rfl⟩
      | _ => exact ⟨rfl, rfl⟩

/-- A frame never adds or removes a user or broker directly, and its calls are about its own. -/
theorem act_op (cfg : Cfg B σ) (h : σ) (raw : Bytes) (w : Who B) (hk : σ) (o : TOp B Nat)
    (ha : act cfg h raw w = (hk, .op o)) :
    (∃ m, o = .applyUserSync m) ∨ (∃ b m, o = .applyTopicSync b m ∧ w = .broker b) ∨
    (∃ u ts topics, (o = .subscribeUser u ts ∨ o = .unsubscribeUser u ts) ∧ w = .user u topics) := by
  cases w with
  | user key topics =>
    right; right
    simp only [act, userAct] at ha
    split at ha
    · cases ha
    · split at ha
      · cases ha
      · cases ha
      · split at ha
        · cases ha
        · split at ha <;> cases ha
        · split at ha
          · cases ha; exact ⟨key, _, topics, Or.inl rfl, rfl⟩
          · cases ha
        · split at ha
          · cases ha; exact ⟨key, _, topics, Or.inr rfl, rfl⟩
          · cases ha
        · cases ha
  | broker id =>
    simp only [act, brokerAct] at ha
    split at ha
    · cases ha
    · split at ha
      · cases ha
      · cases ha
      · split at ha
        · split at ha
          · cases ha
          · cases ha; exact Or.inl ⟨_, rfl⟩
        · split at ha
          · cases ha
          · cases ha; exact Or.inr (Or.inl ⟨id, _, rfl, rfl⟩)
        · cases ha

/-! ## Runs -/

theorem step_table {cfg : Cfg B σ} {s s' : St B σ} {l : Lab B} {os : List (TOp B Nat)}
    (h : Step cfg s l os s') : s'.table = s.table.run os := by
  cases h <;> rfl

theorem run_table {cfg : Cfg B σ} {s s' : St B σ} {ls : List (Lab B)} {os : List (TOp B Nat)}
    (h : Run cfg s ls os s') : s'.table = s.table.run os := by
  induction h with
  | nil => rfl
  | snoc ls os s1 l o s2 _ hs ih => rw [step_table hs, ih, Conns.run_append]

theorem Run.trans {cfg : Cfg B σ} {s s1 s2 : St B σ} {l1 l2 : List (Lab B)} {o1 o2 : List (TOp B Nat)}
    (h1 : Run cfg s l1 o1 s1) (h2 : Run cfg s1 l2 o2 s2) : Run cfg s (l1 ++ l2) (o1 ++ o2) s2 := by
  induction h2 with
  | nil => simpa using h1
  | snoc ls os s1 l o s2 _ hs ih =>
    rw [← List.append_assoc, ← List.append_assoc]
    exact .snoc _ _ _ _ _ _ ih hs

theorem Run.then {cfg : Cfg B σ} {s s1 s2 : St B σ} {ls : List (Lab B)} {os : List (TOp B Nat)} {l : Lab B}
    {o : List (TOp B Nat)} (h : Run cfg s ls os s1) (hs : Step cfg s1 l o s2) :
    Run cfg s (ls ++ [l]) (os ++ o) s2 := .snoc _ _ _ _ _ _ h hs

/-- How a session changes in a step: not whose it is; a registered one stays so. -/
theorem sess_step {cfg : Cfg B σ} {s s' : St B σ} {l : Lab B} {os : List (TOp B Nat)}
    (h : Step cfg s l os s') {i : Nat} {x : Sess B σ} (hx : s.sess[i]? = some x) :
    ∃ x', s'.sess[i]? = some x' ∧ x'.who = x.who ∧ (x.h = .registered → x'.h = .registered) := by
  have set : ∀ (j : Nat) (y y' : Sess B σ), s.sess[j]? = some y → y'.who = y.who →
      (y.h = .registered → y'.h = .registered) →
      ∃ x', (s.sess.set j y')[i]? = some x' ∧ x'.who = x.who ∧ (x.h = .registered → x'.h = .registered) := by
    intro j y y' hy h1 h2
    by_cases hj : j = i
    · subst hj
      rw [hx] at hy
      cases hy
      refine ⟨y', ?_, h1, h2⟩
      have := (List.getElem?_eq_some_iff.1 hx).1
      simp [this]
    · exact ⟨x, by rw [List.getElem?_set_ne hj]; exact hx, rfl, id⟩
  cases h with
  | connect who hook =>
    refine ⟨x, ?_, rfl, id⟩
    have := (List.getElem?_eq_some_iff.1 hx).1
    simp only
    rw [List.getElem?_append_left this]; exact hx
  | spawn j y hy hf => exact set j y _ hy rfl (by simp [hf])
  | register j y hy hf => exact set j y _ hy rfl (fun _ => rfl)
  | wake j y hy hf _ => exact set j y _ hy rfl id
  | sleep j y hy hf => exact set j y _ hy rfl id
  | cancelled j y hy hf _ => exact set j y _ hy rfl id
  | frameOp j y hy => exact set j y _ hy rfl id
  | frameIdle j y hy => exact set j y _ hy rfl id
  | frameFail j y hy => exact set j y _ hy rfl id
  | recvErr j y hy => exact set j y _ hy rfl id
  | remove j y hy => exact set j y _ hy rfl id
  | sendErr => exact ⟨x, hx, rfl, id⟩
  | sendRemove => exact ⟨x, hx, rfl, id⟩
  | kick => exact ⟨x, hx, rfl, id⟩
  | userSync => exact ⟨x, hx, rfl, id⟩
  | topicSync => exact ⟨x, hx, rfl, id⟩

/-- The calls of a step that add a connection are those of registering. -/
theorem tokens_step {cfg : Cfg B σ} {s s' : St B σ} {l : Lab B} {os : List (TOp B Nat)}
    (h : Step cfg s l os s') :
    (tokens os = [] ∧ ∀ (i : Nat) (x' : Sess B σ), s'.sess[i]? = some x' → x'.h = .registered →
        ∃ x, s.sess[i]? = some x ∧ x.h = .registered) ∨
    (∃ i x, s.sess[i]? = some x ∧ x.h = .spawned ∧ os = [x.who.add i] ∧ tokens os = [i] ∧
      s'.sess = s.sess.set i { x with h := .registered }) := by
  have set : ∀ (j : Nat) (y y' : Sess B σ), s.sess[j]? = some y →
      (y'.h = .registered → y.h = .registered) → ∀ (i : Nat) (x' : Sess B σ), (s.sess.set j y')[i]? = some x' → x'.h = .registered →
        ∃ x, s.sess[i]? = some x ∧ x.h = .registered := by
    intro j y y' hy h1 i x' hx' hr
    by_cases hj : j = i
    · subst hj
      have := (List.getElem?_eq_some_iff.1 hy).1
      simp only [List.getElem?_set_self this, Option.some.injEq] at hx'
      subst hx'
      exact ⟨y, hy, h1 hr⟩
    · rw [List.getElem?_set_ne hj] at hx'
      exact ⟨x', hx', hr⟩
  cases h with
  | connect who hook =>
    refine Or.inl ⟨rfl, fun i x' hx' hr => ?_⟩
    by_cases hi : i < s.sess.length
    · rw [List.getElem?_append_left hi] at hx'
      exact ⟨x', hx', hr⟩
    · rw [List.getElem?_append_right (by omega)] at hx'
      generalize i - s.sess.length = k at hx'
      cases k with
      | zero =>
        simp only [List.getElem?_cons_zero, Option.some.injEq] at hx'
        subst hx'; cases hr
      | succ k => simp at hx'
  | spawn j y hy hf => exact Or.inl ⟨rfl, set j y _ hy (by simp)⟩
  | register j y hy hf =>
    refine Or.inr ⟨j, y, hy, hf, rfl, ?_, rfl⟩
    cases y.who <;> rfl
  | wake j y hy hf _ => exact Or.inl ⟨rfl, set j y _ hy id⟩
  | sleep j y hy hf => exact Or.inl ⟨rfl, set j y _ hy id⟩
  | cancelled j y hy hf _ => exact Or.inl ⟨rfl, set j y _ hy id⟩
  | frameOp j y hy _ raw hk o ha =>
    refine Or.inl ⟨?_, set j y _ hy id⟩
    rcases act_op cfg _ _ _ _ _ ha with ⟨m, rfl⟩ | ⟨b, m, rfl, -⟩ | ⟨u, ts, topics, rfl | rfl, -⟩ <;> rfl
  | frameIdle j y hy => exact Or.inl ⟨rfl, set j y _ hy id⟩
  | frameFail j y hy => exact Or.inl ⟨rfl, set j y _ hy id⟩
  | recvErr j y hy => exact Or.inl ⟨rfl, set j y _ hy id⟩
  | remove j y hy =>
    refine Or.inl ⟨?_, set j y _ hy id⟩
    cases y.who <;> rfl
  | sendErr => exact Or.inl ⟨rfl, fun i x hx hr => ⟨x, hx, hr⟩⟩
  | sendRemove d =>
    refine Or.inl ⟨?_, fun i x hx hr => ⟨x, hx, hr⟩⟩
    cases d <;> rfl
  | kick => exact Or.inl ⟨rfl, fun i x hx hr => ⟨x, hx, hr⟩⟩
  | userSync => exact Or.inl ⟨rfl, fun i x hx hr => ⟨x, hx, hr⟩⟩
  | topicSync => exact Or.inl ⟨rfl, fun i x hx hr => ⟨x, hx, hr⟩⟩

theorem tokens_append {U T H : Type} (a b : List (Op U B T H)) : tokens (a ++ b) = tokens a ++ tokens b := by
  induction a with
  | nil => rfl
  | cons o a ih => cases o <;> simp [tokens, ih]

/-- Session `i` belongs to user `u`. -/
def OfUser (s : St B σ) (i : Nat) (u : Bytes) : Prop :=
  ∃ x ts, s.sess[i]? = some x ∧ x.who = .user u ts

/-- Session `i` belongs to broker `b`. -/
def OfBroker (s : St B σ) (i : Nat) (b : B) : Prop :=
  ∃ x, s.sess[i]? = some x ∧ x.who = .broker b

/-- Session `i` has been registered at some time. -/
def WasRegistered (s : St B σ) (i : Nat) : Prop := ∃ x, s.sess[i]? = some x ∧ x.h = .registered

/-- What holds in all reachable states. -/
structure Inv (id : B) (s : St B σ) (os : List (TOp B Nat)) : Prop where
  table : s.table = (Conns.new id).run os
  nodup : (tokens os).Nodup
  reg : ∀ i, i ∈ tokens os ↔ WasRegistered s i
  user : ∀ u i, s.table.getUserConnection u = some i → OfUser s i u
  broker : ∀ b i, s.table.getBrokerConnection b = some i → OfBroker s i b

theorem inv_run {id : B} {cfg : Cfg B σ} {s : St B σ} {ls : List (Lab B)} {os : List (TOp B Nat)}
    (h : Run cfg (St.new id) ls os s) : Inv id s os := by
  induction h with
  | nil =>
    refine ⟨rfl, List.nodup_nil, fun i => ?_, fun u i h => ?_, fun u i h => ?_⟩
    · constructor
      · intro h; cases h
      · rintro ⟨x, hx, -⟩; simp [St.new] at hx
    · simp [St.new, getUserConnection, Conns.new] at h
    · simp [St.new, getBrokerConnection, Conns.new] at h
  | snoc ls os s1 l o s2 h hs ih =>
    have htab : s2.table = (Conns.new id).run (os ++ o) := by rw [step_table hs, ih.table, Conns.run_append]
    have hstay : ∀ i, WasRegistered s1 i → WasRegistered s2 i := by
      rintro i ⟨x, hx, hr⟩
      obtain ⟨x', hx', -, h2⟩ := sess_step hs hx
      exact ⟨x', hx', h2 hr⟩
    have hu1 : ∀ i u, OfUser s1 i u → OfUser s2 i u := by
      rintro i u ⟨x, ts, hx, hw⟩
      obtain ⟨x', hx', h1, -⟩ := sess_step hs hx
      exact ⟨x', ts, hx', h1.trans hw⟩
    have hb1 : ∀ i b, OfBroker s1 i b → OfBroker s2 i b := by
      rintro i u ⟨x, hx, hw⟩
      obtain ⟨x', hx', h1, -⟩ := sess_step hs hx
      exact ⟨x', hx', h1.trans hw⟩
    have hone : o = [] ∨ ∃ o1, o = [o1] := by cases hs <;> simp
    have hus : ∀ u i, s2.table.getUserConnection u = some i →
        s1.table.getUserConnection u = some i ∨ ∃ ts, o = [.addUser u i ts] := by
      intro u i hl
      rw [step_table hs] at hl
      rcases hone with rfl | ⟨o1, rfl⟩
      · exact Or.inl hl
      · rcases users_step s1.table o1 u with h1 | h1 | ⟨h, ts, rfl, h1⟩
        · left; unfold getUserConnection; rw [← h1]; exact hl
        · have : (s1.table.step o1).users.get u = some i := hl
          rw [h1] at this; cases this
        · have : (s1.table.step (.addUser u h ts)).users.get u = some i := hl
          rw [h1] at this
          cases this
          exact Or.inr ⟨ts, rfl⟩
    have hbs : ∀ b i, s2.table.getBrokerConnection b = some i →
        s1.table.getBrokerConnection b = some i ∨ o = [.addBroker b i] := by
      intro u i hl
      rw [step_table hs] at hl
      rcases hone with rfl | ⟨o1, rfl⟩
      · exact Or.inl hl
      · rcases brokers_step s1.table o1 u with h1 | h1 | ⟨h, rfl, h1⟩
        · left; rw [← h1]; exact hl
        · have : (s1.table.step o1).getBrokerConnection u = some i := hl
          rw [h1] at this; cases this
        · have : (s1.table.step (.addBroker u h)).getBrokerConnection u = some i := hl
          rw [h1] at this
          cases this
          exact Or.inr rfl
    rcases tokens_step hs with ⟨ht, hreg⟩ | ⟨j, x, hx, hsp, ho, ht, hset⟩
    · refine ⟨htab, ?_, fun i => ?_, fun u i hl => ?_, fun b i hl => ?_⟩
      · rw [tokens_append, ht, List.append_nil]; exact ih.nodup
      · rw [tokens_append, ht, List.append_nil, ih.reg]
        exact ⟨hstay i, fun ⟨x', hx', hr⟩ => hreg i x' hx' hr⟩
      · rcases hus u i hl with h1 | ⟨ts, rfl⟩
        · exact hu1 i u (ih.user u i h1)
        · simp [tokens] at ht
      · rcases hbs b i hl with h1 | rfl
        · exact hb1 i b (ih.broker b i h1)
        · simp [tokens] at ht
    · have hj := (List.getElem?_eq_some_iff.1 hx).1
      have hnot : j ∉ tokens os := by
        rw [ih.reg]
        rintro ⟨y, hy, hr⟩
        rw [hx] at hy; cases hy
        rw [hsp] at hr; cases hr
      refine ⟨htab, ?_, fun i => ?_, fun u i hl => ?_, fun b i hl => ?_⟩
      · rw [tokens_append, ht]
        refine List.nodup_append.2 ⟨ih.nodup, by simp, ?_⟩
        intro a ha b hb
        simp only [List.mem_singleton] at hb
        rintro rfl
        exact hnot (hb ▸ ha)
      · rw [tokens_append, ht, List.mem_append, ih.reg, List.mem_singleton]
        constructor
        · rintro (h1 | rfl)
          · exact hstay i h1
          · exact ⟨_, by rw [hset]; exact List.getElem?_set_self hj, rfl⟩
        · rintro ⟨x', hx', hr⟩
          by_cases hij : i = j
          · exact Or.inr hij
          · rw [hset, List.getElem?_set_ne (fun e => hij e.symm)] at hx'
            exact Or.inl ⟨x', hx', hr⟩
      · rcases hus u i hl with h1 | ⟨ts, h1⟩
        · exact hu1 i u (ih.user u i h1)
        · rw [ho] at h1
          cases hw : x.who with
          | user key topics =>
            rw [hw] at h1
            simp only [Who.add, List.cons.injEq, Op.addUser.injEq, and_true] at h1
            obtain ⟨rfl, rfl, rfl⟩ := h1
            exact hu1 _ _ ⟨x, topics, hx, hw⟩
          | broker b => rw [hw] at h1; simp [Who.add] at h1
      · rcases hbs b i hl with h1 | h1
        · exact hb1 i b (ih.broker b i h1)
        · rw [ho] at h1
          cases hw : x.who with
          | user key topics => rw [hw] at h1; simp [Who.add] at h1
          | broker b' =>
            rw [hw] at h1
            simp only [Who.add, List.cons.injEq, Op.addBroker.injEq, and_true] at h1
            obtain ⟨rfl, rfl⟩ := h1
            exact hb1 _ _ ⟨x, hx, hw⟩

/-- A connection that is in the table has not been aborted. -/
theorem Inv.not_aborted {id : B} {s : St B σ} {os : List (TOp B Nat)} (h : Inv id s os) {i : Nat}
    (hr : Registered s.table i) : i ∉ s.table.aborted := by
  have h9 := C09_aborted_iff_replaced id os h.nodup
  rw [h.table] at hr ⊢
  exact fun ha => (h9.1 i (h9.2.1 i hr)).1 ha hr

/-- A connection that was registered and is no longer in the table has been aborted. -/
theorem Inv.aborted {id : B} {s : St B σ} {os : List (TOp B Nat)} (h : Inv id s os) {i : Nat}
    (hw : WasRegistered s i) (hr : ¬ Registered s.table i) : i ∈ s.table.aborted := by
  have h9 := C09_aborted_iff_replaced id os h.nodup
  rw [h.table] at hr ⊢
  exact (h9.1 i ((h.reg i).2 hw)).2 hr

theorem Inv.index {id : B} {s : St B σ} {os : List (TOp B Nat)} (h : Inv id s os) : s.table.IndexInv := by
  rw [h.table]
  exact indexInv_run _ ⟨RMap.inv_new, RMap.inv_new⟩ os

theorem aborted_of_run {cfg : Cfg B σ} {s s' : St B σ} {ls : List (Lab B)} {os : List (TOp B Nat)}
    (h : Run cfg s ls os s') {i : Nat} (hi : i ∈ s.table.aborted) : i ∈ s'.table.aborted := by
  rw [run_table h]
  exact aborted_run _ _ hi

/-- If user `u` is on connection `i` before and after a run, then it was all the time, and its
subscriptions changed only through the subscribe and unsubscribe calls for `u`. -/
theorem on_run {id : B} {cfg : Cfg B σ} {s s' : St B σ} {l0 ls : List (Lab B)} {o0 os : List (TOp B Nat)}
    (h0 : Run cfg (St.new id) l0 o0 s) (h : Run cfg s ls os s') {u : Bytes} {i : Nat}
    (hi : s.table.getUserConnection u = some i) (hi' : s'.table.getUserConnection u = some i)
    {t : Topic} (ht : s.table.bcUsers.Bwd u t)
    (hno : ∀ ts, Conns.Op.unsubscribeUser u ts ∈ os → t ∉ ts) : s'.table.bcUsers.Bwd u t := by
  induction h with
  | nil => exact ht
  | snoc ls os s1 l o s2 h hs ih =>
    have hinv1 := inv_run (h0.trans h)
    have hinv2 := inv_run ((h0.trans h).then hs)
    have hna : i ∉ s2.table.aborted := hinv2.not_aborted (Or.inl ⟨u, hi'⟩)
    have hone : o = [] ∨ ∃ o1, o = [o1] := by cases hs <;> simp
    have hi1 : s1.table.getUserConnection u = some i := by
      refine Decidable.byContradiction fun hn => ?_
      have hw : WasRegistered s1 i := by
        have hw0 : WasRegistered s i := by
          rw [← (inv_run h0).reg]
          have := (C09_aborted_iff_replaced id o0 (inv_run h0).nodup).2.1 i
          exact this (by rw [← (inv_run h0).table]; exact Or.inl ⟨u, hi⟩)
        have : i ∈ tokens (o0 ++ os) := by
          rw [tokens_append]; exact List.mem_append_left _ (((inv_run h0).reg i).2 hw0)
        exact (hinv1.reg i).1 this
      have hnr : ¬ Registered s1.table i := by
        rintro (⟨u', hu'⟩ | ⟨b, hb⟩)
        · obtain ⟨x, ts, hx, hwx⟩ := hinv1.user u' i hu'
          obtain ⟨y, ts', hy, hwy⟩ := hinv2.user u i hi'
          obtain ⟨x', hx', hww, -⟩ := sess_step hs hx
          rw [hy] at hx'
          cases hx'
          rw [hwy, hwx] at hww
          cases hww
          exact hn hu'
        · obtain ⟨x, hx, hwx⟩ := hinv1.broker b i hb
          obtain ⟨y, ts', hy, hwy⟩ := hinv2.user u i hi'
          obtain ⟨x', hx', hww, -⟩ := sess_step hs hx
          rw [hy] at hx'
          cases hx'
          rw [hwy, hwx] at hww
          cases hww
      have := hinv1.aborted hw hnr
      exact hna (by rw [step_table hs]; exact aborted_run _ _ this)
    have ht1 := ih hi1 (fun ts hts => hno ts (List.mem_append_left _ hts))
    rcases hone with rfl | ⟨o1, rfl⟩
    · rw [step_table hs]; exact ht1
    · rw [step_table hs] at hna ⊢
      rcases on_step hinv1.index (R := fun t => s1.table.bcUsers.Bwd u t) ⟨hi1, fun _ => Iff.rfl⟩ o1 with h1 | h1
      · exact absurd h1 hna
      · refine (h1.2 t).2 (Or.inl ⟨ht1, ?_⟩)
        rintro ⟨ts, rfl, hts⟩
        exact hno ts (by simp) hts

end Verif.Sessions

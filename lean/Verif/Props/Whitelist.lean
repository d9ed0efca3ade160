import Verif.Model.Whitelist
import Verif.Model.Discovery
import Verif.Lemmas.Isolation
import Verif.Props.Connections
import Verif.Props.Discovery

/-!
# Properties C44, C67: the whitelist task; users do not affect each other
-/

set_option linter.unusedSectionVars false

namespace Verif.Props.Whitelist
open Verif Verif.Conns Verif.Whitelist

variable {U B T H : Type} [DecidableEq U] [DecidableEq B] [DecidableEq T] [DecidableEq H]
  [LT B] [DecidableLT B]

/-- Two tables show the same for user `u`: on which connection it is, which broker it is routed to, and which
topics it gets. -/
def Alike (u : U) (s s' : Conns U B T H) : Prop :=
  s.getUserConnection u = s'.getUserConnection u ∧ s.getBrokerOfUser u = s'.getBrokerOfUser u ∧
  ∀ t, u ∈ (s.getInterestedByTopic [t] true).2 ↔ u ∈ (s'.getInterestedByTopic [t] true).2

theorem alike_of_same {u : U} {s s' : Conns U B T H} (h : SameAt u s s') : Alike u s s' := by
  refine ⟨h.users, h.route, fun t => ?_⟩
  rw [(mem_interested s [t] true).1 u, (mem_interested s' [t] true).1 u]
  simp only [List.mem_singleton, exists_eq_left, h.subs]

/-! ## C67 -/

/-- The call is made for a user other than `u`. -/
def ForOther (u : U) : Op U B T H → Bool
  | .addUser u' _ _ => decide (u' ≠ u)
  | .removeUser u' => decide (u' ≠ u)
  | .subscribeUser u' _ => decide (u' ≠ u)
  | .unsubscribeUser u' _ => decide (u' ≠ u)
  | _ => false

theorem forOther_same {u : U} {s : Conns U B T H} (hi : s.IndexInv) {op : Op U B T H}
    (h : ForOther u op = true) : SameAt u (s.step op) s := by
  cases op with
  | addUser u' x ts =>
    have hu : u' ≠ u := by simpa [ForOther] using h
    have hu' : ¬ u = u' := fun e => hu e.symm
    have g := SameAt.removeOther (s := { s with gaugeUsers := s.gaugeUsers + 1 }) hu hi
    refine ⟨g.1, g.2, ?_, ?_, ?_, fun t => ?_⟩
    · simp only [step, addUser, AMap.get_insert, if_neg hu]; exact g.users
    · simp only [step, addUser, VMap.insert, VMap.map_modifyLocal, if_neg hu]; exact g.entry
    · simp only [step, addUser, VMap.insert, VMap.modified_modifyLocal, FSet.mem_insert, hu', false_or]
      exact g.modified
    · simp only [step, addUser, RMap.bwd_associate, hu', false_and, false_or]; exact g.subs t
  | removeUser u' =>
    exact SameAt.removeOther (by simpa [ForOther] using h) hi
  | subscribeUser u' ts =>
    have hu : ¬ u = u' := fun e => (by simpa [ForOther] using h : u' ≠ u) e.symm
    exact ⟨rfl, rfl, rfl, rfl, Iff.rfl, fun t => by simp [step, subscribeUser, RMap.bwd_associate, hu]⟩
  | unsubscribeUser u' ts =>
    have hu : ¬ u = u' := fun e => (by simpa [ForOther] using h : u' ≠ u) e.symm
    exact ⟨rfl, rfl, rfl, rfl, Iff.rfl, fun t => by simp [step, unsubscribeUser, RMap.bwd_dissociate, hu]⟩
  | _ => simp [ForOther] at h

/-- **C67.** What the table shows for a user is not influenced by other users: it is the same as if all calls
for other users (connecting, leaving, being removed, subscribing, unsubscribing) had never been made. -/
theorem C67_isolation (id : B) (ops : List (Op U B T H)) (u : U) :
    Alike u ((Conns.new id).run ops) ((Conns.new id).run (ops.filter (fun op => !ForOther u op))) := by
  refine alike_of_same ?_
  have key : ∀ (ops : List (Op U B T H)) (s s' : Conns U B T H), SameAt u s s' → s.IndexInv → s'.IndexInv →
      SameAt u (s.run ops) (s'.run (ops.filter (fun op => !ForOther u op))) := by
    intro ops
    induction ops with
    | nil => intro s s' h _ _; exact h
    | cons op ops ih =>
      intro s s' h hi hi'
      rw [run_cons]
      cases hf : ForOther u op with
      | true =>
        rw [List.filter_cons_of_neg (by simp [hf])]
        exact ih _ _ ((forOther_same hi hf).trans h) (indexInv_step _ _ hi) hi'
      | false =>
        rw [List.filter_cons_of_pos (by simp [hf]), run_cons]
        exact ih _ _ (h.step hi hi' op) (indexInv_step _ _ hi) (indexInv_step _ _ hi')
  exact key ops _ _ (SameAt.refl u _) ⟨RMap.inv_new, RMap.inv_new⟩ ⟨RMap.inv_new, RMap.inv_new⟩

/-- Non-trivial instance of C67: another user connects, subscribes to the same topic, is replaced and removed, and a
user sync takes it away; only two calls are left when its calls are dropped. -/
example :
    let m : DirectMap Nat Nat := ⟨AMap.ofList [(2, ⟨9, some 8⟩)], FSet.empty, 8⟩
    let ops : List (Op Nat Nat Nat Nat) :=
      [.addUser 2 100 [5], .addUser 1 101 [5], .subscribeUser 2 [6], .addUser 2 102 [7], .applyUserSync m,
       .removeUser 2]
    (ops.filter (fun op => !ForOther 1 op)).length = 2 ∧
    ((Conns.new 0).run ops).getUserConnection 1 = some 101 ∧
    (((Conns.new 0).run ops).getInterestedByTopic [5] true).2 = [1] := by
  refine ⟨by rfl, by rfl, by rfl⟩

/-! ## C44 -/

theorem visit_eq (s : Conns U B T H) (v : Visit U B T H) :
    visit s v = if v.answer = some false then (s.run v.meanwhile).removeUser v.user else s.run v.meanwhile := by
  unfold visit
  rcases v.answer with _ | _ | _ <;> simp

theorem visit_index {s : Conns U B T H} (hi : s.IndexInv) (v : Visit U B T H) : (visit s v).IndexInv := by
  have h := indexInv_run s hi v.meanwhile
  rw [visit_eq]
  split
  · exact indexInv_step _ (.removeUser v.user) h
  · exact h

theorem pass_index {s : Conns U B T H} (hi : s.IndexInv) (vs : List (Visit U B T H)) : (pass s vs).IndexInv := by
  induction vs generalizing s with
  | nil => exact hi
  | cons v vs ih => exact ih (visit_index hi v)

/-- **C44, with everything else going on.** Whatever other tasks do while the task waits for the store, and whatever
the store answers:
* a user for whom the store says "not whitelisted" is disconnected, loses its subscriptions and its connection's
  task is told to stop, at the moment the answer is there;
* for a user for whom the store says nothing of the kind (it says "whitelisted", fails, or is not asked because
  the user connected later), everything is as if the task had not run. -/
theorem C44_kicks_exactly (id : B) (ops : List (Op U B T H)) (vs : List (Visit U B T H)) :
    let s := (Conns.new id).run ops
    (∀ a v b, vs = a ++ v :: b → v.answer = some false →
      let s1 := (pass s a).run v.meanwhile
      let s2 := pass s (a ++ [v])
      s2.getUserConnection v.user = none ∧ (∀ t, v.user ∉ (s2.getInterestedByTopic [t] true).2) ∧
      s2.getBrokerOfUser v.user ≠ some id ∧
      ∀ h, s1.getUserConnection v.user = some h → h ∈ s2.aborted) ∧
    (∀ u, (∀ v ∈ vs, v.user = u → v.answer ≠ some false) →
      Alike u (pass s vs) (s.run (vs.flatMap Visit.meanwhile))) := by
  intro s
  have hi : s.IndexInv := indexInv_run _ ⟨RMap.inv_new, RMap.inv_new⟩ ops
  constructor
  · intro a v b _ hans
    have e : pass s (a ++ [v]) = ((pass s a).run v.meanwhile).removeUser v.user := by
      simp only [pass, List.foldl_append, List.foldl_cons, List.foldl_nil]
      rw [visit_eq, if_pos hans]
    have hi1 : ((pass s a).run v.meanwhile).IndexInv := indexInv_run _ (pass_index hi a) _
    have hid : ((pass s a).run v.meanwhile).identity = id := by
      rw [identity_run]
      have key : ∀ (vs : List (Visit U B T H)) (s : Conns U B T H), (pass s vs).identity = s.identity := by
        intro vs
        induction vs with
        | nil => intro s; rfl
        | cons v vs ih =>
          intro s
          show (pass (visit s v) vs).identity = _
          rw [ih, visit_eq]
          split <;> simp
      rw [key, identity_run]; rfl
    dsimp only
    rw [e]
    refine ⟨?_, fun t => ?_, ?_, fun h hh => ?_⟩
    · simp [getUserConnection, removeUser_users_get]
    · rw [(mem_interested _ [t] true).1]
      rintro ⟨t', _, h⟩
      rw [removeUser_bcUsers, RMap.bwd_removeKey hi1.1] at h
      exact h.1 rfl
    · simp only [getBrokerOfUser, removeUser_direct_get, hid]
      intro h
      split at h
      · cases h
      · rename_i hn
        exact hn ⟨trivial, h⟩
    · have hh : ((pass s a).run v.meanwhile).users.get v.user = some h := hh
      rw [removeUser_aborted, hh]
      exact List.mem_cons_self
  · intro u hu
    refine alike_of_same ?_
    have key : ∀ (vs : List (Visit U B T H)) (s s' : Conns U B T H), SameAt u s s' → s.IndexInv → s'.IndexInv →
        (∀ v ∈ vs, v.user = u → v.answer ≠ some false) →
        SameAt u (pass s vs) (s'.run (vs.flatMap Visit.meanwhile)) := by
      intro vs
      induction vs with
      | nil => intro s s' h _ _ _; exact h
      | cons v vs ih =>
        intro s s' h hi hi' hv
        rw [List.flatMap_cons, run_append]
        show SameAt u (pass (visit s v) vs) _
        refine ih _ _ ?_ (visit_index hi v) (indexInv_run _ hi' _) (fun w hw => hv w (List.mem_cons_of_mem _ hw))
        have h1 := h.run hi hi' v.meanwhile
        rw [visit_eq]
        split
        · rename_i hans
          have hne : v.user ≠ u := fun e => hv v List.mem_cons_self e hans
          exact (SameAt.removeOther hne (indexInv_run _ hi _)).trans h1
        · exact h1
    exact key vs s s (SameAt.refl u s) hi hi hu

/-- The users visited in an undisturbed pass, with the answers of the store. -/
def quiet (ans : U → Option Bool) (us : List U) : List (Visit U B T H) := us.map (fun u => ⟨u, [], ans u⟩)

/-- **C44.** If nothing else happens during the pass: a user is connected afterwards iff it was before and the store
did not say "not whitelisted"; it is on the same connection. -/
theorem C44_undisturbed (id : B) (ops : List (Op U B T H)) (ans : U → Option Bool) (u : U) :
    let s := (Conns.new id).run ops
    let s' := pass s (quiet ans s.allUsers)
    s'.getUserConnection u = if ans u = some false then none else s.getUserConnection u := by
  intro s s'
  have key : ∀ (us : List U) (s : Conns U B T H),
      (pass s (quiet ans us)).users.get u = if u ∈ us ∧ ans u = some false then none else s.users.get u := by
    intro us
    induction us with
    | nil => intro s; simp [pass, quiet]
    | cons a us ih =>
      intro s
      show (pass (visit s ⟨a, [], ans a⟩) (quiet ans us)).users.get u = _
      rw [ih, visit_eq]
      by_cases h1 : ans u = some false
      · by_cases h2 : u ∈ us
        · simp [h1, h2]
        · by_cases h3 : u = a
          · subst h3
            simp [h1, run, removeUser_users_get]
          · have h4 : ¬ a = u := fun e => h3 e.symm
            simp only [h2, h1, List.mem_cons, h3, false_or, false_and, if_false]
            split
            · simp [run, removeUser_users_get, h4]
            · simp [run]
      · simp only [h1, and_false, if_false]
        split
        · rename_i h5
          have h4 : ¬ a = u := fun e => h1 (by rw [← e]; exact h5)
          simp [run, removeUser_users_get, h4]
        · simp [run]
  have h := key s.allUsers s
  show (pass s (quiet ans s.allUsers)).users.get u = _
  rw [h]
  by_cases hm : u ∈ s.allUsers
  · simp only [hm, true_and]; rfl
  · have : s.users.get u = none := by
      rw [Option.eq_none_iff_forall_ne_some]
      intro x hx
      exact hm (AMap.mem_keys.2 (by rw [hx]; rfl))
    simp only [hm, false_and, if_false, this]
    split
    · rfl
    · exact this.symm

/-- **C44 with the stores of the project.** After an undisturbed pass against a store with whitelist `ks` (not empty),
exactly the whitelisted among the users that were connected are connected, with either backend. -/
theorem C44_stores (id : B) (ops : List (Op Bytes B T H)) (r : Disc.Redis) (e : Disc.Emb) (ks : List Bytes) (hks : ks ≠ [])
    (hemb : (e.setWhitelist ks).2 = true) (u : Bytes) :
    let s := (Conns.new id).run ops
    (let s' := pass s (quiet (fun k => some ((r.setWhitelist ks).checkWhitelist k)) s.allUsers)
     s'.getUserConnection u = if u ∈ ks then s.getUserConnection u else none) ∧
    (let s' := pass s (quiet (fun k => some ((e.setWhitelist ks).1.checkWhitelist k)) s.allUsers)
     s'.getUserConnection u = if u ∈ ks then s.getUserConnection u else none) := by
  intro s
  have hr : ∀ k, (r.setWhitelist ks).checkWhitelist k = true ↔ k ∈ ks :=
    fun k => Props.Discovery.C41_redis_partial false r ks hks [] (by simp) k
  have he : ∀ k, (e.setWhitelist ks).1.checkWhitelist k = true ↔ k ∈ ks :=
    fun k => Props.Discovery.C41_embedded false e ks hemb [] (by simp) k
  have key : ∀ f : Bytes → Bool, (∀ k, f k = true ↔ k ∈ ks) →
      (pass s (quiet (fun k => some (f k)) s.allUsers)).getUserConnection u =
        if u ∈ ks then s.getUserConnection u else none := by
    intro f hf
    rw [C44_undisturbed id ops (fun k => some (f k)) u]
    by_cases hu : u ∈ ks
    · simp [hu, (hf u).2 hu, s]
    · have : f u = false := by
        rw [← Bool.not_eq_true, hf]; exact hu
      simp [hu, this]
  exact ⟨key _ hr, key _ he⟩

/-- Non-trivial instance: three users, one of them no longer whitelisted; the store fails for another one; in between
a user that is not whitelisted connects and stays until the next pass. -/
example :
    let s : Conns Nat Nat Nat Nat := (Conns.new 0).run [.addUser 1 101 [5], .addUser 2 102 [5], .addUser 3 103 [5]]
    let vs : List (Visit Nat Nat Nat Nat) := [⟨1, [], some true⟩, ⟨2, [.addUser 4 104 [5]], some false⟩, ⟨3, [], none⟩]
    (pass s vs).getUserConnection 1 = some 101 ∧ (pass s vs).getUserConnection 2 = none ∧
    (pass s vs).getUserConnection 3 = some 103 ∧ (pass s vs).getUserConnection 4 = some 104 ∧
    (pass s vs).aborted = [102] := by
  refine ⟨by rfl, by rfl, by rfl, by rfl, by rfl⟩

/-- The hypotheses of `C44_stores` can be met. -/
example : (Disc.Emb.new.setWhitelist [[1], [2]]).2 = true := by rfl

end Verif.Props.Whitelist

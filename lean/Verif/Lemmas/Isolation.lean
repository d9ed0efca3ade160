import Verif.Lemmas.Connections

/-! # What happens to one user does not depend on the others: helper lemmas -/

set_option linter.unusedSectionVars false

namespace Verif.Conns
variable {U B T H : Type} [DecidableEq U] [DecidableEq B] [DecidableEq T] [DecidableEq H]
  [LT B] [DecidableLT B]

/-- Two tables agree on everything that concerns user `u`. -/
structure SameAt (u : U) (s s' : Conns U B T H) : Prop where
  identity : s.identity = s'.identity
  ident : s.direct.ident = s'.direct.ident
  users : s.users.get u = s'.users.get u
  entry : s.direct.map.get u = s'.direct.map.get u
  modified : u ∈ s.direct.modified ↔ u ∈ s'.direct.modified
  subs : ∀ t, s.bcUsers.Bwd u t ↔ s'.bcUsers.Bwd u t

namespace SameAt

theorem refl (u : U) (s : Conns U B T H) : SameAt u s s :=
  ⟨rfl, rfl, rfl, rfl, Iff.rfl, fun _ => Iff.rfl⟩

theorem symm {u : U} {s s' : Conns U B T H} (h : SameAt u s s') : SameAt u s' s :=
  ⟨h.1.symm, h.2.symm, h.3.symm, h.4.symm, h.5.symm, fun t => (h.6 t).symm⟩

theorem trans {u : U} {s s' s'' : Conns U B T H} (h : SameAt u s s') (h' : SameAt u s' s'') : SameAt u s s'' :=
  ⟨h.1.trans h'.1, h.2.trans h'.2, h.3.trans h'.3, h.4.trans h'.4, h.5.trans h'.5, fun t => (h.6 t).trans (h'.6 t)⟩

theorem route {u : U} {s s' : Conns U B T H} (h : SameAt u s s') : s.direct.get u = s'.direct.get u := by
  unfold VMap.get; rw [h.entry]

/-- Removing another user. -/
theorem removeOther {u u' : U} (hu : u' ≠ u) {s : Conns U B T H} (hi : s.IndexInv) :
    SameAt u (s.removeUser u') s := by
  refine ⟨by simp, ?_, ?_, ?_, ?_, fun t => ?_⟩
  · rw [removeUser_direct, VMap.removeIfEquals_eq]; split <;> rfl
  · rw [removeUser_users_get, if_neg hu]
  · rw [removeUser_direct, VMap.removeIfEquals_eq]
    split
    · rw [VMap.remove, VMap.map_modifyLocal, if_neg hu]
    · rfl
  · rw [removeUser_direct, VMap.removeIfEquals_eq]
    split
    · rw [VMap.remove, VMap.modified_modifyLocal, FSet.mem_insert]
      exact ⟨fun h => h.resolve_left (fun e => hu e.symm), Or.inr⟩
    · exact Iff.rfl
  · rw [removeUser_bcUsers, RMap.bwd_removeKey hi.1]
    exact ⟨fun h => h.2, fun h => ⟨fun e => hu e.symm, h⟩⟩

/-- Removing `u` on both sides. -/
theorem removeSame {u : U} {s s' : Conns U B T H} (h : SameAt u s s') (hi : s.IndexInv) (hi' : s'.IndexInv) :
    SameAt u (s.removeUser u) (s'.removeUser u) := by
  have hr := h.route
  have hc : s.direct.get u = some s.identity ↔ s'.direct.get u = some s'.identity := by rw [hr, h.identity]
  refine ⟨by simp [h.identity], ?_, ?_, ?_, ?_, fun t => ?_⟩
  · rw [removeUser_direct, removeUser_direct, VMap.removeIfEquals_eq, VMap.removeIfEquals_eq]
    split <;> split <;> exact h.ident
  · rw [removeUser_users_get, removeUser_users_get, if_pos rfl, if_pos rfl]
  · rw [removeUser_direct, removeUser_direct, VMap.removeIfEquals_eq, VMap.removeIfEquals_eq]
    by_cases hd : s.direct.get u = some s.identity
    · rw [if_pos hd, if_pos (hc.1 hd), VMap.remove, VMap.remove, VMap.map_modifyLocal, VMap.map_modifyLocal,
        if_pos rfl, if_pos rfl, h.entry]
      simp only [h.modified]
    · rw [if_neg hd, if_neg (fun x => hd (hc.2 x))]; exact h.entry
  · rw [removeUser_direct, removeUser_direct, VMap.removeIfEquals_eq, VMap.removeIfEquals_eq]
    by_cases hd : s.direct.get u = some s.identity
    · rw [if_pos hd, if_pos (hc.1 hd), VMap.remove, VMap.remove, VMap.modified_modifyLocal,
        VMap.modified_modifyLocal, FSet.mem_insert, FSet.mem_insert]
      simp
    · rw [if_neg hd, if_neg (fun x => hd (hc.2 x))]; exact h.modified
  · rw [removeUser_bcUsers, removeUser_bcUsers, RMap.bwd_removeKey hi.1, RMap.bwd_removeKey hi'.1, h.subs t]

/-- Removing any user on both sides. -/
theorem removeBoth {u : U} {s s' : Conns U B T H} (h : SameAt u s s') (hi : s.IndexInv) (hi' : s'.IndexInv)
    (u' : U) : SameAt u (s.removeUser u') (s'.removeUser u') := by
  by_cases hu : u' = u
  · subst hu; exact h.removeSame hi hi'
  · exact ((removeOther hu hi).trans h).trans (removeOther hu hi').symm

/-- Removing `u` twice is removing it once. -/
theorem removeTwice {u : U} {s : Conns U B T H} (hi : s.IndexInv) :
    SameAt u ((s.removeUser u).removeUser u) (s.removeUser u) := by
  have hd : (s.removeUser u).direct.get u ≠ some (s.removeUser u).identity := by
    rw [removeUser_direct_get, removeUser_identity]
    intro h
    split at h
    · cases h
    · rename_i h'
      exact h' ⟨rfl, h⟩
  have he : ((s.removeUser u).removeUser u).direct = (s.removeUser u).direct := by
    rw [removeUser_direct (s.removeUser u), VMap.removeIfEquals_eq, if_neg hd]
  refine ⟨by simp, by rw [he], ?_, by rw [he], by rw [he], fun t => ?_⟩
  · simp [removeUser_users_get]
  · have hi2 := indexInv_step s (.removeUser u) hi
    have e : s.step (.removeUser u) = s.removeUser u := rfl
    rw [e] at hi2
    rw [removeUser_bcUsers (s.removeUser u), RMap.bwd_removeKey hi2.1, removeUser_bcUsers, RMap.bwd_removeKey hi.1]
    simp

/-- Removing a list of users: for `u` only its own removal matters. -/
theorem removeList {A : Type} (f : A → U) (l : List A) (u : U) {s : Conns U B T H} (hi : s.IndexInv) :
    SameAt u (l.foldl (fun s c => s.removeUser (f c)) s) (if u ∈ l.map f then s.removeUser u else s) := by
  induction l generalizing s with
  | nil => exact refl u s
  | cons c l ih =>
    have hi2 : (s.removeUser (f c)).IndexInv := indexInv_step s (.removeUser (f c)) hi
    rw [List.foldl_cons]
    refine (ih hi2).trans ?_
    by_cases hc : f c = u
    · rw [if_pos (show u ∈ (c :: l).map f by simp [hc])]
      rw [hc]
      split
      · exact removeTwice hi
      · exact refl _ _
    · by_cases hl : u ∈ l.map f
      · rw [if_pos hl, if_pos (show u ∈ (c :: l).map f by simp only [List.map_cons, List.mem_cons, hl, or_true])]
        exact removeSame (removeOther hc hi) hi2 hi
      · rw [if_neg hl, if_neg (show u ∉ (c :: l).map f by
          simp only [List.map_cons, List.mem_cons, hl, or_false]; exact fun e => hc e.symm)]
        exact removeOther hc hi

/-- The same call on both sides. -/
theorem step {u : U} {s s' : Conns U B T H} (h : SameAt u s s') (hi : s.IndexInv) (hi' : s'.IndexInv)
    (op : Op U B T H) : SameAt u (s.step op) (s'.step op) := by
  cases op with
  | addUser u' x ts =>
    have g : SameAt u { s with gaugeUsers := s.gaugeUsers + 1 } { s' with gaugeUsers := s'.gaugeUsers + 1 } :=
      ⟨h.1, h.2, h.3, h.4, h.5, h.6⟩
    have g2 := g.removeBoth hi hi' u'
    have hx : ∀ (a a' : Conns U B T H), SameAt u a a' →
        SameAt u { a with users := a.users.insert u' x, direct := a.direct.insert u' a.identity,
                          bcUsers := a.bcUsers.associate u' ts }
                 { a' with users := a'.users.insert u' x, direct := a'.direct.insert u' a'.identity,
                           bcUsers := a'.bcUsers.associate u' ts } := by
      intro a a' g
      refine ⟨g.1, g.2, ?_, ?_, ?_, fun t => ?_⟩
      · simp only [AMap.get_insert, g.users]
      · simp only [VMap.insert, VMap.map_modifyLocal, g.identity]
        by_cases e : u' = u
        · subst e; simp only [if_true, g.entry, g.modified]
        · simp only [if_neg e]; exact g.entry
      · simp only [VMap.insert, VMap.modified_modifyLocal, FSet.mem_insert, g.modified]
      · simp only [RMap.bwd_associate, g.subs]
    exact hx _ _ g2
  | removeUser u' => exact h.removeBoth hi hi' u'
  | addBroker b x =>
    refine ⟨?_, ?_, ?_, ?_, ?_, fun t => ?_⟩ <;>
      simp only [Conns.step, addBroker, removeBroker_identity, removeBroker_direct, removeBroker_users,
        removeBroker_bcUsers]
    · exact h.1
    · exact h.2
    · exact h.3
    · exact h.4
    · exact h.5
    · exact h.6 t
  | removeBroker b =>
    refine ⟨?_, ?_, ?_, ?_, ?_, fun t => ?_⟩ <;>
      simp only [Conns.step, removeBroker_identity, removeBroker_direct, removeBroker_users,
        removeBroker_bcUsers]
    · exact h.1
    · exact h.2
    · exact h.3
    · exact h.4
    · exact h.5
    · exact h.6 t
  | subscribeUser u' ts =>
    exact ⟨h.1, h.2, h.3, h.4, h.5, fun t => by simp only [Conns.step, subscribeUser, RMap.bwd_associate, h.subs]⟩
  | unsubscribeUser u' ts =>
    exact ⟨h.1, h.2, h.3, h.4, h.5, fun t => by simp only [Conns.step, unsubscribeUser, RMap.bwd_dissociate, h.subs]⟩
  | subscribeBroker b ts => exact ⟨h.1, h.2, h.3, h.4, h.5, h.6⟩
  | unsubscribeBroker b ts => exact ⟨h.1, h.2, h.3, h.4, h.5, h.6⟩
  | applyUserSync m =>
    have g : SameAt u { s with direct := (s.direct.merge m).1 } { s' with direct := (s'.direct.merge m).1 } := by
      refine ⟨h.1, ?_, h.3, ?_, ?_, h.6⟩
      · simp only [VMap.ident_merge]; exact h.ident
      · simp only [VMap.map_merge, h.entry, h.ident]
      · simp only [VMap.modified_merge, h.entry, h.ident, h.modified]
    have hmem : u ∈ (s.direct.merge m).2.map Prod.fst ↔ u ∈ (s'.direct.merge m).2.map Prod.fst := by
      have key : ∀ a : Conns U B T H, u ∈ (a.direct.merge m).2.map Prod.fst ↔
          ∃ e, m.map.get u = some e ∧ VMap.takes a.direct.ident m.ident (a.direct.map.get u) e := by
        intro a
        rw [List.mem_map]
        constructor
        · rintro ⟨⟨k, v⟩, hm, rfl⟩
          obtain ⟨e, h1, h2, -⟩ := (VMap.mem_changes_merge _ _ _ _).1 hm
          exact ⟨e, h1, h2⟩
        · rintro ⟨e, h1, h2⟩
          exact ⟨(u, e.value), (VMap.mem_changes_merge _ _ _ _).2 ⟨e, h1, h2, rfl⟩, rfl⟩
      rw [key, key, h.ident, h.entry]
    have l1 := removeList Prod.fst (s.direct.merge m).2 u (s := { s with direct := (s.direct.merge m).1 }) hi
    have l2 := removeList Prod.fst (s'.direct.merge m).2 u (s := { s' with direct := (s'.direct.merge m).1 }) hi'
    refine (l1.trans ?_).trans l2.symm
    by_cases hu : u ∈ (s.direct.merge m).2.map Prod.fst
    · rw [if_pos hu, if_pos (hmem.1 hu)]
      exact g.removeSame hi hi'
    · rw [if_neg hu, if_neg (fun x => hu (hmem.2 x))]
      exact g
  | applyTopicSync b m =>
    have key : ∀ a : Conns U B T H, SameAt u (a.applyTopicSync b m) a := by
      intro a
      unfold applyTopicSync
      cases a.brokers.get b with
      | none =>
        simp only
        exact ⟨by simp, by simp, by simp, by simp, by simp, fun t => by simp⟩
      | some e =>
        simp only
        obtain ⟨f1, f2, f3, f4, f5, -⟩ := foldl_applyTopicChange_frame
          { a with brokers := a.brokers.insert b { e with topicSync := (e.topicSync.merge m).1 } } b (e.topicSync.merge m).2
        exact ⟨f1, by rw [f4], by rw [f2], by rw [f4], by rw [f4], fun t => by rw [f5]⟩
    exact ((key s).trans h).trans (key s').symm
  | partialUserSync =>
    refine ⟨h.1, h.2, h.3, ?_, ?_, h.6⟩
    · simp only [Conns.step, getPartialUserSync, VMap.map_diff_self, h.entry, h.modified]
    · simp [Conns.step, getPartialUserSync]
  | partialTopicSync =>
    have key : ∀ a : Conns U B T H, SameAt u a.getPartialTopicSync.1 a := by
      intro a
      unfold getPartialTopicSync
      dsimp only
      split
      · exact refl u a
      · exact ⟨rfl, rfl, rfl, rfl, Iff.rfl, fun _ => Iff.rfl⟩
    exact ((key s).trans h).trans (key s').symm

theorem run {u : U} {s s' : Conns U B T H} (h : SameAt u s s') (hi : s.IndexInv) (hi' : s'.IndexInv)
    (ops : List (Op U B T H)) : SameAt u (s.run ops) (s'.run ops) := by
  induction ops generalizing s s' with
  | nil => exact h
  | cons op ops ih =>
    rw [run_cons, run_cons]
    exact ih (h.step hi hi' op) (indexInv_step _ _ hi) (indexInv_step _ _ hi')

end SameAt
end Verif.Conns

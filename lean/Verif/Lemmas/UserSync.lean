import Verif.Model.UserSync
import Verif.Lemmas.VersionedMap
import Verif.Lemmas.Connections

/-! Helper lemmas: what each step of the user sync model does to one user. -/

set_option linter.unusedSectionVars false

namespace Verif.UNet
open Verif Verif.Conns

variable {U B T H : Type} [DecidableEq U] [DecidableEq B] [DecidableEq T] [DecidableEq H]
  [LT B] [DecidableLT B]

/-- What a table holds about one user: routing entry, pending flag, connected or not. -/
structure View (B : Type) where
  e : Option (VV B)
  m : Bool
  c : Bool

def view (s : Conns U B T H) (u : U) : View B :=
  ⟨s.direct.map.get u, decide (u ∈ s.direct.modified), (s.users.get u).isSome⟩

/-- Version of the next local change. -/
def nextVer (v : View B) : Nat :=
  match v.e with
  | some e => if v.m then e.version else VMap.bump e.version
  | none => 1

def remV (b : B) (v : View B) : View B :=
  if v.e.bind VV.value = some b then ⟨some ⟨nextVer v, none⟩, true, false⟩ else { v with c := false }

def addV (b : B) (v : View B) : View B := ⟨some ⟨nextVer v, some b⟩, true, true⟩

theorem view_removeUser (s : Conns U B T H) (u : U) :
    view (s.removeUser u) u = remV s.identity (view s u) := by
  unfold view remV
  rw [removeUser_users_get, removeUser_direct, VMap.removeIfEquals_eq]
  simp only [if_true]
  by_cases h : s.direct.get u = some s.identity
  · have h' : (s.direct.map.get u).bind VV.value = some s.identity := h
    rw [if_pos h, if_pos h']
    simp only [VMap.remove, VMap.map_modifyLocal, VMap.modified_modifyLocal, if_true, nextVer,
      FSet.mem_insert]
    cases he : s.direct.map.get u with
    | none => rw [he] at h'; simp at h'
    | some e => simp
  · have h' : ¬ (s.direct.map.get u).bind VV.value = some s.identity := h
    rw [if_neg h, if_neg h']; rfl

theorem view_removeUser_other (s : Conns U B T H) (u u' : U) (h : u' ≠ u) :
    view (s.removeUser u') u = view s u := by
  unfold view
  rw [removeUser_users_get, removeUser_direct, VMap.removeIfEquals_eq, if_neg h]
  split
  · simp only [VMap.remove, VMap.map_modifyLocal, VMap.modified_modifyLocal, if_neg h,
      FSet.mem_insert]
    have : ¬ u = u' := fun e => h e.symm
    simp [this]
  · rfl

theorem view_addUser (s : Conns U B T H) (u : U) (hd : H) (ts : List T) :
    view (s.addUser u hd ts) u = addV s.identity (view s u) := by
  have hr : ∀ x : Int, view ({ s with gaugeUsers := x }.removeUser u) u =
      remV s.identity (view s u) := fun x => view_removeUser { s with gaugeUsers := x } u
  have h1 := hr (s.gaugeUsers + 1)
  simp only [addUser]
  generalize hS : ({ s with gaugeUsers := s.gaugeUsers + 1 } : Conns U B T H).removeUser u = S at h1
  have hid : S.identity = s.identity := by rw [← hS]; simp
  unfold view at h1 ⊢
  simp only [AMap.get_insert, if_true, VMap.insert, VMap.map_modifyLocal, VMap.modified_modifyLocal,
    FSet.mem_insert, Option.isSome_some, addV, hid]
  unfold remV at h1
  by_cases hv : ((⟨s.direct.map.get u, decide (u ∈ s.direct.modified),
      (s.users.get u).isSome⟩ : View B).e.bind VV.value = some s.identity)
  · rw [if_pos hv] at h1
    injection h1 with e1 e2 e3
    rw [e1]
    have : u ∈ S.direct.modified := by simpa using e2
    simp [this]
  · rw [if_neg hv] at h1
    injection h1 with e1 e2 e3
    rw [e1]
    simp only at e2
    have e2' : (u ∈ S.direct.modified) ↔ (u ∈ s.direct.modified) := by simpa using e2
    simp only [nextVer, e2']
    cases s.direct.map.get u <;> simp

theorem view_addUser_other (s : Conns U B T H) (u u' : U) (hd : H) (ts : List T) (h : u' ≠ u) :
    view (s.addUser u' hd ts) u = view s u := by
  have h1 := view_removeUser_other { s with gaugeUsers := s.gaugeUsers + 1 } u u' h
  have h2 : view ({ s with gaugeUsers := s.gaugeUsers + 1 } : Conns U B T H) u = view s u := rfl
  rw [h2] at h1
  rw [← h1]
  simp only [addUser]
  generalize ({ s with gaugeUsers := s.gaugeUsers + 1 } : Conns U B T H).removeUser u' = S
  unfold view
  have h' : ¬ u = u' := fun e => h e.symm
  simp only [AMap.get_insert, if_neg h, VMap.insert, VMap.map_modifyLocal,
    VMap.modified_modifyLocal, FSet.mem_insert, h', false_or]

/-- Calls that say nothing about user `u`. -/
def Unrelated (u : U) : Op U B T H → Prop
  | .addUser u' _ _ => u' ≠ u
  | .removeUser u' => u' ≠ u
  | .applyUserSync _ => False
  | .partialUserSync => False
  | _ => True

theorem view_unrelated (s : Conns U B T H) (u : U) (op : Op U B T H) (h : Unrelated u op) :
    view (s.step op) u = view s u := by
  cases op with
  | addUser u' hd ts => exact view_addUser_other s u u' hd ts h
  | removeUser u' => exact view_removeUser_other s u u' h
  | addBroker b hd => simp [view, Conns.step, addBroker]
  | removeBroker b => simp [view, Conns.step]
  | subscribeUser => rfl
  | unsubscribeUser => rfl
  | subscribeBroker => rfl
  | unsubscribeBroker => rfl
  | applyUserSync => exact h.elim
  | partialUserSync => exact h.elim
  | applyTopicSync b m =>
    simp only [Conns.step, applyTopicSync]
    cases hb : s.brokers.get b with
    | none => simp [view]
    | some e =>
      obtain ⟨_, h2, _, h4, _⟩ := foldl_applyTopicChange_frame
        ({ s with brokers := s.brokers.insert b { e with topicSync := (e.topicSync.merge m).1 } } :
          Conns U B T H) b (e.topicSync.merge m).2
      simp only [view, h2, h4]
  | partialTopicSync =>
    simp only [Conns.step, getPartialTopicSync]
    split <;> rfl

theorem view_sync (s : Conns U B T H) (u : U) :
    view s.getPartialUserSync.1 u =
      ⟨if (view s u).m then (view s u).e.bind VMap.adopted else (view s u).e, false, (view s u).c⟩ := by
  simp only [getPartialUserSync, view, VMap.map_diff_self, VMap.modified_diff_self]
  by_cases h : u ∈ s.direct.modified
  · rcases hm : s.direct.map.get u with _ | ⟨ver, _ | v⟩ <;> simp [h, VMap.adopted, FSet.mem_def, FSet.empty]
  · simp [h, FSet.mem_def, FSet.empty]

/-- What the sync message says about `u`. -/
theorem sync_msg (s : Conns U B T H) (u : U) :
    (s.getPartialUserSync.2.bind (fun m => m.map.get u)) =
      if (view s u).m then (view s u).e else none := by
  simp only [getPartialUserSync, view]
  have h := VMap.map_diff_out s.direct u
  by_cases he : s.direct.diff.2.isEmpty = true
  · rw [if_pos he]
    have : s.direct.diff.2.map.get u = none := AMap.isEmpty_iff.1 he u
    rw [this] at h
    by_cases hm : u ∈ s.direct.modified
    · simp [hm] at h ⊢; exact h
    · simp [hm]
  · rw [if_neg he]
    simp only [Option.bind_some, h]
    by_cases hm : u ∈ s.direct.modified <;> simp [hm]

theorem foldl_removeUser_view (l : List (U × Option B)) (s : Conns U B T H) (u : U)
    (hv : (view s u).e.bind VV.value ≠ some s.identity) :
    view (l.foldl (fun s c => s.removeUser c.1) s) u =
      { view s u with c := if u ∈ l.map Prod.fst then false else (view s u).c } := by
  induction l generalizing s with
  | nil => simp
  | cons a l ih =>
    rw [List.foldl_cons]
    by_cases h : a.1 = u
    · have h1 : view (s.removeUser a.1) u = { view s u with c := false } := by
        rw [h, view_removeUser, remV, if_neg hv]
      rw [ih (s.removeUser a.1) (by rw [h1, removeUser_identity]; exact hv), h1]
      simp [h]
    · have h1 : view (s.removeUser a.1) u = view s u := view_removeUser_other s u a.1 h
      have h' : ¬ u = a.1 := fun e => h e.symm
      rw [ih (s.removeUser a.1) (by rw [h1, removeUser_identity]; exact hv), h1, List.map_cons]
      simp only [List.mem_cons, h', false_or]

/-- Applying a message that says nothing about `u`. -/
theorem view_apply_none (s : Conns U B T H) (u : U) (r : DirectMap U B) (h : r.map.get u = none) :
    view (s.applyUserSync r) u = view s u := by
  have hm : ∀ x ∈ (s.direct.merge r).2, x.1 ≠ u := by
    rintro ⟨k, v⟩ hx rfl
    obtain ⟨e, he, _⟩ := (VMap.mem_changes_merge _ _ _ _).1 hx
    rw [h] at he; simp at he
  have h0 : view { s with direct := (s.direct.merge r).1 } u = view s u := by
    have h2 := VMap.modified_merge s.direct r u
    rw [h] at h2
    simp only [view, VMap.map_merge, h]
    simp [h2]
  simp only [applyUserSync]
  rw [← h0]
  generalize ({ s with direct := (s.direct.merge r).1 } : Conns U B T H) = S
  generalize (s.direct.merge r).2 = l at hm
  induction l generalizing S with
  | nil => rfl
  | cons a l ih =>
    rw [List.foldl_cons, ih (S.removeUser a.1) (fun x hx => hm x (List.mem_cons_of_mem _ hx)),
      view_removeUser_other S u a.1 (hm a (by simp))]

/-- Applying a message with a winning entry for `u` that does not name this broker. -/
theorem view_apply_taken (s : Conns U B T H) (u : U) (r : DirectMap U B) (e : VV B)
    (h : r.map.get u = some e) (ht : VMap.takes s.direct.ident r.ident (view s u).e e)
    (hne : e.value ≠ some s.identity) (hmod : (view s u).m = true → (view s u).e.isSome) :
    view (s.applyUserSync r) u = ⟨VMap.adopted e, false, false⟩ := by
  have hmem : u ∈ (s.direct.merge r).2.map Prod.fst :=
    List.mem_map.2 ⟨(u, e.value), (VMap.mem_changes_merge _ _ _ _).2 ⟨e, h, ht, rfl⟩, rfl⟩
  have h2 := VMap.modified_merge s.direct r u
  have hm' : u ∉ (s.direct.merge r).1.modified := by
    rw [h2]
    rintro ⟨h3, h4⟩
    apply h4
    exact ⟨hmod (by simp [view, h3]), e, h, ht⟩
  have hv : view { s with direct := (s.direct.merge r).1 } u =
      ⟨VMap.adopted e, false, (s.users.get u).isSome⟩ := by
    have ht' : VMap.takes s.direct.ident r.ident (s.direct.map.get u) e := ht
    simp only [view, VMap.map_merge, h, if_pos ht']
    simp [hm']
  have hval : ((VMap.adopted e).bind VV.value) ≠ some s.identity := by
    unfold VMap.adopted
    split
    · exact hne
    · simp
  simp only [applyUserSync]
  rw [foldl_removeUser_view _ _ _ (by rw [hv]; exact hval), hv, if_pos hmem]

/-- Applying a message with a losing entry for `u`. -/
theorem view_apply_lost (s : Conns U B T H) (u : U) (r : DirectMap U B) (e : VV B)
    (h : r.map.get u = some e) (ht : ¬ VMap.takes s.direct.ident r.ident (view s u).e e) :
    view (s.applyUserSync r) u = view s u := by
  have hm : ∀ x ∈ (s.direct.merge r).2, x.1 ≠ u := by
    rintro ⟨k, v⟩ hx rfl
    obtain ⟨e', he, ht', _⟩ := (VMap.mem_changes_merge _ _ _ _).1 hx
    rw [h] at he
    cases he
    exact ht ht'
  have h0 : view { s with direct := (s.direct.merge r).1 } u = view s u := by
    have h2 := VMap.modified_merge s.direct r u
    have ht' : ¬ VMap.takes s.direct.ident r.ident (s.direct.map.get u) e := ht
    have h3 : u ∈ (s.direct.merge r).1.modified ↔ u ∈ s.direct.modified := by
      rw [h2]
      constructor
      · exact fun h => h.1
      · intro hx
        refine ⟨hx, ?_⟩
        rintro ⟨_, e', he, h4⟩
        rw [h] at he; cases he; exact ht' h4
    simp only [view, VMap.map_merge, h, if_neg ht']
    simp [h3]
  simp only [applyUserSync]
  rw [← h0]
  generalize ({ s with direct := (s.direct.merge r).1 } : Conns U B T H) = S
  generalize (s.direct.merge r).2 = l at hm
  induction l generalizing S with
  | nil => rfl
  | cons a l ih =>
    rw [List.foldl_cons, ih (S.removeUser a.1) (fun x hx => hm x (List.mem_cons_of_mem _ hx)),
      view_removeUser_other S u a.1 (hm a (by simp))]

@[simp] theorem applyUserSync_identity (s : Conns U B T H) (r : DirectMap U B) :
    (s.applyUserSync r).identity = s.identity := (foldl_removeUser_frame _ Prod.fst _).1

end Verif.UNet

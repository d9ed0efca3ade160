import Verif.Props.MeshHistory
import Verif.Props.VersionedMap

/-!
# Property C126, continued: syncs alone make a user known to a broker linked to theirs
-/

set_option linter.unusedSectionVars false

namespace Verif.Props.MeshHistory
open Verif Verif.Conns Verif.MNet Verif.Props.Mesh Verif.Props.MeshUsers Verif.Props.MeshTurn Verif.Props.MeshEpochs

section
variable {U B T H : Type} [DecidableEq U] [DecidableEq B] [DecidableEq T] [DecidableEq H]
  [LT B] [DecidableLT B]

/-- A step of a sync, initial user syncs included: nobody connects or leaves, no link comes or goes, nothing is lost. -/
def Sync (l : MLabel U B T H) : Prop := SyncOnly l ∨ ∃ b b', l = .fullUser b b'

theorem fullU_step (n : MNet U B T H) (l : MLabel U B T H) (hl : SyncOnly l) : (n.step l).fullU = n.fullU := by
  cases l with
  | startTopic b => simp only [MNet.step]; split <;> rfl
  | startUser b => simp only [MNet.step]; split <;> rfl
  | readDests i => simp only [MNet.step]; split <;> rfl
  | fullTopic b b' =>
    simp only [MNet.step]; split
    · split <;> rfl
    · rfl
  | deliver b b' =>
    simp only [MNet.step]; split
    · split <;> rfl
    · rfl
  | send i ok =>
    have hl' : ok = true := hl
    subst hl'
    simp only [MNet.step]
    repeat' split
    all_goals rfl
  | _ => exact hl.elim

theorem fullU_run (ls : List (MLabel U B T H)) (n : MNet U B T H) (hl : ∀ l ∈ ls, SyncOnly l) : (n.run ls).fullU = n.fullU := by
  induction ls generalizing n with
  | nil => rfl
  | cons l ls ih =>
    exact (ih (n.step l) (fun l' h => hl l' (List.mem_cons_of_mem _ h))).trans (fullU_step n l (hl l List.mem_cons_self))

/-- All initial user syncs of `b` for `b'` are started. -/
theorem start_fullU (b b' : B) (k : Nat) (n : MNet U B T H) (hk : n.fullU.count (b, b') = k) :
    ∃ ls : List (MLabel U B T H), (∀ l ∈ ls, Sync l) ∧ (n.run ls).st = n.st ∧ (b, b') ∉ (n.run ls).fullU := by
  induction k generalizing n with
  | zero => exact ⟨[], by simp, rfl, List.count_eq_zero.1 hk⟩
  | succ k ih =>
    have hmem : (b, b') ∈ n.fullU := List.count_pos_iff.1 (by omega)
    have h1 : (n.step (.fullUser b b')).st = n.st ∧ (n.step (.fullUser b b')).fullU = n.fullU.erase (b, b') := by
      simp only [MNet.step, if_pos hmem]
      split
      · exact ⟨rfl, rfl⟩
      · exact ⟨rfl, rfl⟩
    obtain ⟨ls, h2, h3, h4⟩ := ih (n.step (.fullUser b b')) (by rw [h1.2, List.count_erase_self]; omega)
    refine ⟨.fullUser b b' :: ls, ?_, h3.trans h1.1, h4⟩
    intro l hl
    rcases List.mem_cons.1 hl with rfl | hl
    · exact Or.inr ⟨b, b', rfl⟩
    · exact h2 l hl

/-- Whenever `b` and `b'` are linked, syncs alone lead to a state in which they still are and `b` has told `b'` everything about
users. -/
theorem users_can_settle (n : MNet U B T H) (b b' : B) (hne : b ≠ b') (hlink : Linked n b b') :
    ∃ ls : List (MLabel U B T H), (∀ l ∈ ls, Sync l) ∧ Linked (n.run ls) b b' ∧ UsersSettled (n.run ls) b b' := by
  have hst1 : (n.step (.startUser b)).st = (n.act b .partialUserSync).st := by
    simp only [MNet.step]; split <;> rfl
  have hb1 : (n.step (.startUser b)).st b = (n.st b).getPartialUserSync.1 := by
    rw [hst1, st_act_self]; rfl
  have hann : ((n.step (.startUser b)).st b).getPartialUserSync.2 = none := by
    rw [hb1]
    exact if_pos (e := some (n.st b).direct.diff.1.diff.2)
      (Verif.Props.VersionedMap.C05_second_diff_empty (n.st b).direct)
  have hl1 : Linked (n.step (.startUser b)) b b' := by
    have key : ∀ x y, ((n.step (.startUser b)).st x).brokers.get y = (n.st x).brokers.get y := by
      intro x y
      rw [hst1, st_act]; split
      · rename_i e; subst e; rfl
      · rfl
    unfold Linked; rw [knows_iff, knows_iff, key, key, ← knows_iff, ← knows_iff]; exact hlink
  generalize hn1 : n.step (.startUser b) = n1 at *
  obtain ⟨l2, a1, a2, a3⟩ := start_fullU b b' _ n1 rfl
  obtain ⟨l3, c1, c2, c3, c4, c5⟩ := finish_all (n1.run l2) _ (Nat.le_refl _)
  have hl3 : Linked ((n1.run l2).run l3) b b' := (linked_congr c2 b b').2 ((linked_congr a2 b b').2 hl1)
  obtain ⟨l4, d1, d2, d3, d4, d5, d6⟩ := drain b b' hne _ ((n1.run l2).run l3) rfl hl3
  have hend : n.run (.startUser b :: (l2 ++ l3 ++ l4)) = ((n1.run l2).run l3).run l4 := by
    show (n.step (.startUser b)).run _ = _
    rw [hn1, Mesh.run_append, Mesh.run_append]
  have hstb : (((n1.run l2).run l3).run l4).st b = n1.st b := by rw [d2, c2, a2]
  refine ⟨.startUser b :: (l2 ++ l3 ++ l4), ?_, by rw [hend]; exact d6, ?_⟩
  · intro l hl
    simp only [List.mem_cons, List.mem_append] at hl
    rcases hl with rfl | (hl | hl) | hl
    · exact Or.inl trivial
    · exact a1 l hl
    · exact Or.inl (c1 l hl)
    · exact Or.inl (d1 l hl)
  · rw [hend]
    refine ⟨by rw [hstb]; exact hann, by rw [fullU_run l4 _ d1, fullU_run l3 _ c1]; exact a3, ?_, by rw [d5]; simp⟩
    intro τ hτ _ _
    rw [d4] at hτ
    obtain ⟨i, hi⟩ := List.mem_iff_getElem?.1 hτ
    refine ⟨[], c5 i τ ?_ hi, by simp⟩
    rw [← c4]; exact (List.getElem?_eq_some_iff.1 hi).1

theorem calm_sync (u : U) (loc : Option B) (ls : List (MLabel U B T H)) (h : ∀ l ∈ ls, Sync l) : Calm u loc ls := by
  intro l hl
  rcases h l hl with h | ⟨b, b', rfl⟩
  · cases l with
    | startTopic | startUser | readDests | fullTopic | deliver | send =>
      exact ⟨id, fun y _ => ⟨trivial, by simp, by simp⟩⟩
    | _ => exact h.elim
  · exact ⟨id, fun y _ => ⟨trivial, by simp, by simp⟩⟩

/-- **C126, the premise can always be met.** After any such history, if the user is at `y`, and `x` is linked to `y`, syncs alone lead to
a state in which `x` is still linked to `y`, has been told everything by it, and routes the user there; the user is still
connected. -/
theorem C126_can_settle (u : U) (ps : List (Part U B T H)) (hes : History u (start : MNet U B T H) none ps)
    (hlen : 2 * (labels u ps).length + 2 < 2 ^ 64) (y x : B) (hne : y ≠ x)
    (hloc : whereabouts u (labels u ps) none = some y) (hlink : Linked ((start : MNet U B T H).run (labels u ps)) y x) :
    ∃ ls : List (MLabel U B T H), (∀ l ∈ ls, Sync l) ∧
      let m := (start : MNet U B T H).run (labels u ps ++ ls)
      At m y u ∧ Linked m y x ∧ UsersSettled m y x ∧ (m.st x).getBrokerOfUser u = some y := by
  obtain ⟨ls, h1, h2, h3⟩ := users_can_settle _ y x hne hlink
  have hb := between_calm (between_end u ps hes hlen y) ls (calm_sync u _ ls h1)
  rw [hloc] at hb
  obtain ⟨c1, _, c3, _⟩ := between_concl hb
  refine ⟨ls, h1, ?_⟩
  simp only [Mesh.run_append]
  exact ⟨(c1 y).2 rfl, h2, h3, c3 y x rfl h2 h3⟩

end

/-- `[7]` is at broker 2, and everybody knows; broker 1 restarts and is linked to
broker 2 again, but has not been told yet: the user is at broker 2,
broker 1 is linked to it and does not know. (`C126_can_settle` applies.) -/
example : let ps : List (Part Bytes (Fin 3) Topic Nat) :=
      [.calm toyLinks, .moves [.connect 2 [7] 110 [], .startUser 2, .readDests 0, .send 0 true, .send 0 true, .deliver 2 0, .deliver 2 1],
       .calm [.restart 1, .drop 0 1, .drop 2 1, .linkUp 1 2 120 121]]
    let m := (MNet.start : MNet Bytes (Fin 3) Topic Nat).run (labels [7] ps)
    History [7] (MNet.start : MNet Bytes (Fin 3) Topic Nat) none ps ∧ whereabouts [7] (labels [7] ps) none = some 2 ∧
    Linked m 2 1 ∧ ((m.st 1).getBrokerOfUser [7]) = none := by
  refine ⟨⟨calmB_sound _ _ _ (by decide +kernel),
    ⟨?_, by decide +kernel, nothingB_sound _ _ (by decide +kernel), ?_⟩, inTurnB_sound _ _ _ (by decide +kernel),
      nothingB_sound _ _ (by decide +kernel), ?_, calmB_sound _ _ _ (by decide +kernel), trivial⟩, by decide +kernel,
    ⟨by decide +kernel, by decide +kernel⟩, by decide +kernel⟩
  · unfold Linked; decide +kernel
  · unfold MeshTurn.Unannounced; decide +kernel
  · unfold MeshTurn.Unannounced; decide +kernel

end Verif.Props.MeshHistory

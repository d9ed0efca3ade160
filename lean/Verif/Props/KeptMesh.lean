import Verif.Props.Kept
import Verif.Props.MeshTurn

/-!
# Property C123 in the mesh: a user who has left leaves nothing behind

`Props/Kept` is about one table. Here every broker of a mesh: for all schedules, with links that come and go and brokers that are
restarted; and together with C74, for users whose changes come in turn.
-/

set_option linter.unusedSectionVars false

namespace Verif.Props.KeptMesh
open Verif Verif.Conns Verif.MNet Verif.Props.Kept Verif.Props.MeshTurn Verif.Props.MeshUsers Verif.Props.Mesh

variable {U B T H : Type} [DecidableEq U] [DecidableEq B] [DecidableEq T] [DecidableEq H]
  [LT B] [DecidableLT B]

/-- Every tombstone of every broker will be announced. -/
def AllDead (n : MNet U B T H) : Prop := ∀ b, Dead (fun _ => True) (n.st b).direct

theorem allDead_act {n : MNet U B T H} (h : AllDead n) (b : B) (op : Op U B T H) : AllDead (n.act b op) := by
  intro x
  simp only [MNet.act]
  split
  · exact dead_step (n.st b).identity (n.st b) op rfl (fun _ _ => trivial) (h b)
  · exact h x

theorem allDead_congr {n n' : MNet U B T H} (h : AllDead n) (e : n'.st = n.st) : AllDead n' := by
  intro b
  rw [e]
  exact h b

theorem allDead_step {n : MNet U B T H} (h : AllDead n) (l : MLabel U B T H) : AllDead (MNet.step n l) := by
  cases l with
  | connect b u hd ts => exact allDead_act h b _
  | disconnect b u => exact allDead_act h b _
  | subscribe b u ts => exact allDead_act h b _
  | unsubscribe b u ts => exact allDead_act h b _
  | startTopic b =>
    simp only [MNet.step]
    split
    · exact allDead_act h b _
    · exact allDead_congr (allDead_act h b .partialTopicSync) rfl
  | startUser b =>
    simp only [MNet.step]
    split
    · exact allDead_act h b _
    · exact allDead_congr (allDead_act h b .partialUserSync) rfl
  | readDests i =>
    simp only [MNet.step]
    split
    · exact allDead_congr h rfl
    · exact h
  | send i ok =>
    simp only [MNet.step]
    split
    · rename_i b m d ds _
      split
      · split
        · exact allDead_congr h rfl
        · have h' : AllDead ({ n with tasks := n.tasks.set i ⟨b, m, some ds⟩ } : MNet U B T H) := allDead_congr h rfl
          exact allDead_congr (allDead_act h' b (.removeBroker d)) rfl
      · exact allDead_congr h rfl
    · exact h
  | linkUp b b' h1 h2 =>
    simp only [MNet.step]
    split
    · exact h
    · exact allDead_congr (allDead_act (allDead_act h b (.addBroker b' h1)) b' (.addBroker b h2)) rfl
  | fullTopic b b' =>
    simp only [MNet.step]
    split
    · split <;> exact allDead_congr h rfl
    · exact h
  | fullUser b b' =>
    simp only [MNet.step]
    split
    · split <;> exact allDead_congr h rfl
    · exact h
  | drop b b' => exact allDead_congr (allDead_act h b (.removeBroker b')) rfl
  | deliver b b' =>
    simp only [MNet.step]
    split
    · split
      · exact h
      · rename_i m _ _
        exact allDead_congr (allDead_act h b' (.applyUserSync m)) rfl
      · rename_i m _ _
        exact allDead_congr (allDead_act h b' (.applyTopicSync b m)) rfl
    · exact h
  | restart b =>
    intro x
    simp only [MNet.step]
    split
    · exact dead_new _ b
    · exact h x

theorem allDead_run (ls : List (MLabel U B T H)) : AllDead ((start : MNet U B T H).run ls) :=
  foldl_preserves AllDead MNet.step (fun _ l h => allDead_step h l) ls _ (fun b => dead_new _ b)

/-- **C123.** In any mesh, after any schedule (with links that come and go, and restarts): a broker that has nothing left to announce
about a user has an entry about them only if it finds them. -/
theorem C123_mesh (ls : List (MLabel U B T H)) (b : B) (u : U)
    (hann : ¬ Unannounced u ((start : MNet U B T H).run ls) b) :
    (((start : MNet U B T H).run ls).st b).direct.map.get u = none ↔
    (((start : MNet U B T H).run ls).st b).getBrokerOfUser u = none := by
  have h := allDead_run ls b u
  unfold Unannounced at hann
  unfold getBrokerOfUser VMap.get
  rcases hg : (((start : MNet U B T H).run ls).st b).direct.map.get u with _ | ⟨v, _ | x⟩
  · simp
  · exact absurd (h v hg).1 hann
  · simp

/-- **C123, C74.** If the changes of a user come in turn (as in `C74_in_turn_partial`) and the last of them was to leave, then once
nothing about the user is unannounced or under way no broker of the mesh has any entry about them: the user has left
nothing behind. -/
theorem C123_nothing_left (u : U) (l1 l2 : List (MLabel U B T H)) (hno : ∀ l ∈ l1, ¬ Connects u l)
    (hlinks : ∀ b b', b ≠ b' → Linked ((start : MNet U B T H).run l1) b b')
    (hinit : ((start : MNet U B T H).run l1).fullU = [])
    (hturn : InTurn u ((start : MNet U B T H).run l1) l2)
    (hlen1 : 2 * l1.length < 2 ^ 64) (hlen : l2.length + 1 < 2 ^ 64)
    (hway : NothingUnderWay u ((start : MNet U B T H).run (l1 ++ l2)))
    (hann : ∀ b, ¬ Unannounced u ((start : MNet U B T H).run (l1 ++ l2)) b)
    (hleft : whereabouts u l2 none = none) (b : B) :
    (((start : MNet U B T H).run (l1 ++ l2)).st b).direct.map.get u = none := by
  rw [C123_mesh (l1 ++ l2) b u (hann b),
    (C74_in_turn_partial u l1 l2 hno hlinks hinit hturn hlen1 hlen hway hann b).1]
  exact hleft

/-! ### A case

After `demoUsers` (user 7 is at broker 2, everybody knows) the user leaves, and broker 2 tells the others. -/

theorem inTurn_append (u : U) (a c : List (MLabel U B T H)) (n : MNet U B T H) (ha : InTurn u n a) (hc : InTurn u (n.run a) c) :
    InTurn u n (a ++ c) := by
  induction a generalizing n with
  | nil => exact hc
  | cons l a ih => exact ⟨ha.1, ih _ ha.2 hc⟩

def demoLeave : List (MLabel Nat (Fin 3) Nat Nat) :=
  [.disconnect 2 7, .startUser 2, .readDests 8, .send 8 true, .send 8 true, .deliver 2 0, .deliver 2 1]

example : InTurn 7 ((start : MNet Nat (Fin 3) Nat Nat).run demoLinks) (demoUsers ++ demoLeave) ∧
    NothingUnderWay 7 ((start : MNet Nat (Fin 3) Nat Nat).run (demoLinks ++ (demoUsers ++ demoLeave))) ∧
    (∀ b, ¬ Unannounced 7 ((start : MNet Nat (Fin 3) Nat Nat).run (demoLinks ++ (demoUsers ++ demoLeave))) b) ∧
    whereabouts 7 (demoUsers ++ demoLeave) none = none := by
  refine ⟨inTurn_append _ _ _ _ (inTurnB_sound _ _ _ (by decide +kernel)) ⟨fun _ _ => ⟨nothingB_sound _ _ (by decide +kernel), ?_⟩,
    trivial, trivial, rfl, rfl, trivial, trivial, trivial⟩, nothingB_sound _ _ (by decide +kernel), ?_, by decide +kernel⟩
  · unfold Unannounced; decide +kernel
  · unfold Unannounced; decide +kernel

/-- Before the last message is handled, broker 1 still has its entry; afterwards nobody has one, and user 8 is still known. -/
example : ((((start : MNet Nat (Fin 3) Nat Nat).run (demoLinks ++ (demoUsers ++ demoLeave.take 6))).st 1).direct.map.get 7).isSome = true ∧
    ∀ b, (((start : MNet Nat (Fin 3) Nat Nat).run (demoLinks ++ (demoUsers ++ demoLeave))).st b).direct.map.keys = [8] := by
  decide +kernel

end Verif.Props.KeptMesh

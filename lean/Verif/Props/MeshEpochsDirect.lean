import Verif.Props.MeshEpochs

/-!
# Property C125: direct messages for users who move, while links come and go in between
-/

set_option linter.unusedSectionVars false

namespace Verif.Props.MeshEpochsDirect
open Verif Verif.Conns Verif.MNet Verif.Props.Mesh Verif.Props.MeshUsers Verif.Props.MeshTurn
  Verif.Props.MeshEpochs Verif.Props.MeshFound Verif.Props.Network Verif.Broker Verif.Net

variable {B H σ : Type} [DecidableEq B] [DecidableEq H] [LT B] [DecidableLT B]

/-- A direct message, given where the user is. -/
theorem direct_between (cfg : Cfg B σ) (hT : Transparent cfg) (r : Bytes) (pre : List (MLabel Bytes B Topic H)) (kv : Nat)
    (loc : Option B) (hbet : Between ((MNet.start : MNet Bytes B Topic H).run pre) r kv loc) (x : B)
    (hook : B → Dest B → σ) (ls : List (Label B H)) (hl : ∀ l ∈ ls, Static cfg l) (k : Nat)
    (a raw payload : Bytes) (hdec : cfg.decode raw = some (.direct r payload))
    (honce : ls.filter (publishes k) = [.publish x a k raw]) :
    let m := (MNet.start : MNet Bytes B Topic H).run pre
    let n := (Net.start m.st hook).run cfg ls
    copiesReceived n r k ≤ 1 ∧ (∀ u, u ≠ r → copiesReceived n u k = 0) ∧
    (∀ y, loc = some y → (x = y ∨ Linked m y x ∧ UsersSettled m y x) →
      Quiescent n → copiesReceived n r k = 1) ∧
    (loc = none → copiesReceived n r k = 0) := by
  intro m n
  obtain ⟨hat, hany, hfound, _⟩ := between_concl hbet
  have hid : ∀ z, (m.st z).identity = z := ident_run _ _ (fun _ => rfl)
  have hcon := fun u => conservation cfg hT m.st hook ls hl k x a raw honce u
  have hnone : (m.st x).getBrokerOfUser r = none → ∀ u, wWire cfg m.st u x (.user a) raw = 0 := by
    intro hrx u
    have : dests cfg (m.st x) (.user a) raw = [] := by simp [dests, hdec, directDests, hrx]
    simp [wWire, this]
  have hyy : ∀ y, loc = some y → (m.st y).getBrokerOfUser r = some y := by
    intro y hy
    have h := hbet
    rw [hy] at h
    obtain ⟨v, _, hk⟩ := h
    exact (MeshBack.known_concl hk).2.1
  have hone : ∀ y, loc = some y → (m.st x).getBrokerOfUser r = some y →
      (x ≠ y → ((m.st x).getBrokerConnection y).isSome = true) → ∀ u,
      wWire cfg m.st u x (.user a) raw = if u = r then 1 else 0 := fun y hy hrx hlk u =>
    weight_one (cfg := cfg) (hid x) (hid y) hrx (hyy y hy) ((hat y).2 hy) hlk a u raw payload hdec
  have hle : ∀ u, wWire cfg m.st u x (.user a) raw ≤ if u = r then 1 else 0 := by
    intro u
    rcases hany x with h | h
    · cases hy : loc with
      | none => rw [hy] at h; rw [hnone h u]; exact Nat.zero_le _
      | some y =>
        rw [hy] at h
        change (m.st x).getBrokerOfUser r = some y at h
        by_cases hlk : x ≠ y → ((m.st x).getBrokerConnection y).isSome = true
        · rw [hone y hy h hlk u]; exact Nat.le_refl _
        · obtain ⟨hne, hlk⟩ := Classical.not_imp.1 hlk
          have hne' : ¬ y = x := fun h => hne h.symm
          have h1 : dests cfg (m.st x) (.user a) raw = [.broker y] := by
            simp [dests, hdec, directDests, h, hid x, hne']
          simp [wWire, h1, wPend, hlk]
    · rw [hnone h u]; exact Nat.zero_le _
  refine ⟨?_, fun u hu => ?_, fun y hy hx hq => ?_, fun hn => ?_⟩
  · have := Nat.le_trans (hcon r).1 (hle r)
    rwa [if_pos rfl] at this
  · have := Nat.le_trans (hcon u).1 (hle u)
    rw [if_neg hu] at this
    exact Nat.le_zero.1 this
  · rw [(hcon r).2 hq, hone y hy ?_ ?_ r, if_pos rfl]
    · rcases hx with rfl | ⟨h1, h2⟩
      · exact hyy x hy
      · exact hfound y x hy h1 h2
    · intro hne
      rcases hx with rfl | ⟨h1, _⟩
      · exact absurd rfl hne
      · exact h1.2
  · have h1 : (m.st x).getBrokerOfUser r = none := by
      rcases hany x with h | h
      · rw [hn] at h; exact h
      · exact h
    have h2 := (hcon r).1
    rw [hnone h1 r] at h2
    exact Nat.le_zero.1 h2

/-- **C125.** The history of user `r` is a sequence of epochs, and after it links come and go again (`c`) while the user stays. A
direct message for `r` is published once, at broker `x`. Nobody else ever receives it, and `r` at most once. If `r` is at `y`
according to the history, and `x` is `y`, or is linked to `y` and has been told everything by it, then `r` has received the message
once nothing is in flight. If `r` is nowhere, nobody receives it. -/
theorem C125_direct_after_epochs (cfg : Cfg B σ) (hT : Transparent cfg) (r : Bytes)
    (es : List (List (MLabel Bytes B Topic H) × List (MLabel Bytes B Topic H))) (c : List (MLabel Bytes B Topic H))
    (hes : Epochs r (MNet.start : MNet Bytes B Topic H) none es) (hc : Calm r (whereabouts r (flat es) none) c)
    (hlen : 2 * (flat es).length + 2 < 2 ^ 64) (x : B)
    (hook : B → Dest B → σ) (ls : List (Label B H)) (hl : ∀ l ∈ ls, Static cfg l) (k : Nat)
    (a raw payload : Bytes) (hdec : cfg.decode raw = some (.direct r payload))
    (honce : ls.filter (publishes k) = [.publish x a k raw]) :
    let m := (MNet.start : MNet Bytes B Topic H).run (flat es ++ c)
    let n := (Net.start m.st hook).run cfg ls
    copiesReceived n r k ≤ 1 ∧ (∀ u, u ≠ r → copiesReceived n u k = 0) ∧
    (∀ y, whereabouts r (flat es ++ c) none = some y → (x = y ∨ Linked m y x ∧ UsersSettled m y x) →
      Quiescent n → copiesReceived n r k = 1) ∧
    (whereabouts r (flat es ++ c) none = none → copiesReceived n r k = 0) :=
  direct_between cfg hT r (flat es ++ c) _ _ (between_end r es c hes hc hlen x) x hook ls hl k a raw payload hdec honce

/-! ### A case

All are linked (`toyLinks`); `[7]` connects to broker 2 and everybody is told. The link between brokers 0 and 1 fails and comes
back, and broker 0 is told again; the user moves to broker 1. Then broker 2 is lost to the others, and `[8]` writes to `[7]` at
broker 0. -/

def toyFirst : List (MLabel Bytes (Fin 3) Topic Nat) :=
  [.connect 2 [7] 110 [], .startUser 2, .readDests 0, .send 0 true, .send 0 true, .deliver 2 0, .deliver 2 1]

def toyBreak : List (MLabel Bytes (Fin 3) Topic Nat) :=
  [.drop 0 1, .drop 1 0, .linkUp 0 1 120 121, .fullUser 0 1, .fullUser 1 0, .send 2 true, .send 1 true, .deliver 0 1, .deliver 1 0]

def toyMove : List (MLabel Bytes (Fin 3) Topic Nat) :=
  [.connect 1 [7] 111 [], .startUser 1, .readDests 3, .send 3 true, .send 3 true, .deliver 1 0, .deliver 1 2]

def toyLost : List (MLabel Bytes (Fin 3) Topic Nat) := [.drop 0 2, .drop 1 2, .restart 2]

def toyEpochs : List (List (MLabel Bytes (Fin 3) Topic Nat) × List (MLabel Bytes (Fin 3) Topic Nat)) :=
  [(toyLinks, toyFirst), (toyBreak, toyMove)]

def toyAfter : MNet Bytes (Fin 3) Topic Nat := (MNet.start : MNet Bytes (Fin 3) Topic Nat).run (flat toyEpochs ++ toyLost)

theorem toy_epochs : Epochs [7] (MNet.start : MNet Bytes (Fin 3) Topic Nat) none toyEpochs := by
  refine ⟨calmB_sound _ _ _ (by decide +kernel), ⟨?_, by decide +kernel, nothingB_sound _ _ (by decide +kernel), ?_⟩,
    inTurnB_sound _ _ _ (by decide +kernel), nothingB_sound _ _ (by decide +kernel), ?_,
    calmB_sound _ _ _ (by decide +kernel), ⟨?_, by decide +kernel, nothingB_sound _ _ (by decide +kernel), ?_⟩,
    inTurnB_sound _ _ _ (by decide +kernel), nothingB_sound _ _ (by decide +kernel), ?_, trivial⟩
  · unfold Linked; decide +kernel
  · unfold Unannounced; decide +kernel
  · unfold Unannounced; decide +kernel
  · unfold Linked; decide +kernel
  · unfold Unannounced; decide +kernel
  · unfold Unannounced; decide +kernel

/-- `[8]` writes to `[7]` at broker 0. -/
def toyTo : List (Label (Fin 3) Nat) :=
  [.publish 0 [8] 5 [3, 7], .take 0 (.user [8]), .send 0 (.user [8]) true, .take 1 (.broker 0), .send 1 (.broker 0) true]

example : Transparent toyCfg ∧ Calm [7] (whereabouts [7] (flat toyEpochs) none) toyLost ∧
    whereabouts [7] (flat toyEpochs ++ toyLost) none = some 1 ∧ Linked toyAfter 1 0 ∧ UsersSettled toyAfter 1 0 ∧
    (∀ l ∈ toyTo, Static toyCfg l) ∧ toyTo.filter (publishes 5) = [.publish 0 [8] 5 [3, 7]] := by
  refine ⟨fun _ _ => ⟨rfl, rfl⟩, calmB_sound _ _ _ (by decide +kernel), by decide +kernel, ⟨by decide +kernel, by decide +kernel⟩,
    ⟨by decide +kernel, by decide +kernel, ?_, ?_⟩, ?_, rfl⟩
  · have : ∀ τ ∈ toyAfter.tasks, τ.here = 1 → τ.dests = some [] := by decide +kernel
    intro τ hτ h1 _
    exact ⟨[], this τ hτ h1, by simp⟩
  · have : toyAfter.ch 1 0 = [] := List.isEmpty_iff.1 (by decide +kernel)
    rw [this]; simp
  · intro l hl
    simp only [toyTo, List.mem_cons, List.not_mem_nil, or_false] at hl
    rcases hl with rfl | rfl | rfl | rfl | rfl
    all_goals first | rfl | trivial

/-- The message reaches `[7]` once; nothing is in flight. -/
example : let n := (Net.start toyAfter.st (fun _ _ => 0)).run toyCfg toyTo
    n.wire.length = 0 ∧ n.pend.length = 0 ∧ copiesReceived n [7] 5 = 1 ∧ copiesReceived n [8] 5 = 0 := by
  decide +kernel

end Verif.Props.MeshEpochsDirect

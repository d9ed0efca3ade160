import Verif.Props.MeshHistoryTime

/-!
# Property C128, continued: the bound is exact
-/

set_option linter.unusedSectionVars false

namespace Verif.Props.MeshHistoryTimeBound
open Verif Verif.Conns Verif.MNet Verif.TNet Verif.Props.Mesh Verif.Props.MeshUsers Verif.Props.MeshTurn Verif.Props.MeshEpochs
  Verif.Props.MeshHistory Verif.Props.MeshHistoryTime Verif.Props.MeshFailover
open Verif.Props.MeshTime (NewLink While δ0 next next_spec run? run?_spec)
open Verif.Props.MeshPatience (wait)
open Verif.Props.MeshHistoryTime.Case (Net3 Label3 kept?.isLinkUp3)

/-- `[7]` connects to broker 2, and everybody is told. Brokers 0 and 1 crash and are linked to each other; only broker 1 is linked to
broker 2 again, and told where `[7]` is, after it has told broker 0 that it knows nobody. Broker 2 crashes, and `[7]` connects to broker 1. -/
def parts : List (Part Bytes (Fin 3) Topic Nat) :=
  [.calm toyLinks,
   .moves [.connect 2 [7] 110 [], .startUser 2, .readDests 0, .send 0 true, .send 0 true, .deliver 2 0, .deliver 2 1],
   .calm [.restart 0, .restart 1, .drop 2 0, .drop 2 1, .linkUp 0 1 120 121, .fullUser 0 1, .fullUser 1 0, .linkUp 1 2 122 123,
     .fullUser 2 1, .send 1 true, .deliver 2 1],
   .crash 2 [.drop 1 2] 1 111 [] []]

def before : List (TLabel Bytes (Fin 3) Topic Nat) := (labels [7] parts).map .ev

/-- Broker 1 starts the sync that announces `[7]` after ten seconds, sends it fifty milliseconds later; it arrives two hundred
milliseconds later and is about to be handled. -/
def later : List (TLabel Bytes (Fin 3) Topic Nat) :=
  ([.fullTopic 0 1, .fullTopic 1 0, .fullTopic 1 2] : List Label3).map .ev ++ [.tick 10000] ++
  ([.startTopic 0, .startUser 0, .startTopic 1, .startUser 1, .startTopic 2, .startUser 2, .readDests 0] : List Label3).map .ev ++
  [.tick 50, .ev (.send 0 true), .tick 200]

def s1 : Net3 := (run? (TNet.start δ0) before).getD (TNet.start δ0)

/-- The steps while brokers 1 and 0 are linked, computed. -/
def kept? (s : Net3) : List (TLabel Bytes (Fin 3) Topic Nat) → Option Net3
  | [] => some s
  | l :: ls => (next s l).bind fun s' =>
      if s'.n.knows 1 0 && s'.n.knows 0 1 && !kept?.isLinkUp3 l then kept? s' ls else none

theorem kept?_spec {ls : List (TLabel Bytes (Fin 3) Topic Nat)} {s0 s s' : Net3} {l0 : List (TLabel Bytes (Fin 3) Topic Nat)}
    (h0 : While δ0 1 0 (fun _ => True) s0 l0 s) (h : kept? s ls = some s') :
    While δ0 1 0 (fun _ => True) s0 (l0 ++ ls) s' := by
  induction ls generalizing s l0 with
  | nil => cases h; rw [List.append_nil]; exact h0
  | cons l ls ih =>
    simp only [kept?, Option.bind_eq_some_iff] at h
    obtain ⟨s2, h1, h2⟩ := h
    split at h2
    · rename_i hw
      simp only [Bool.and_eq_true, Bool.not_eq_true'] at hw
      have hl : ¬ NewLink (1 : Fin 3) 0 l := by
        intro h3
        cases l with
        | tick => exact h3
        | ev l => cases l <;> first | exact h3 | (exact absurd hw.2 (by simp [Case.kept?.isLinkUp3]))
      have := ih (.snoc h0 (next_spec h1) hl ⟨hw.1.1, hw.1.2⟩ trivial) h2
      rwa [List.append_assoc] at this
    · cases h2

def s2 : Net3 := (kept? s1 later).getD s1

theorem parts_history : History [7] (MNet.start : MNet Bytes (Fin 3) Topic Nat) none parts := by
  refine ⟨calmB_sound _ _ _ (by decide +kernel),
    ⟨?_, by decide +kernel, nothingB_sound _ _ (by decide +kernel), ?_⟩, inTurnB_sound _ _ _ (by decide +kernel),
      nothingB_sound _ _ (by decide +kernel), ?_, calmB_sound _ _ _ (by decide +kernel),
      by decide +kernel, by decide, ?_, by decide +kernel, by decide +kernel, by simp, ⟨by decide +kernel, ?_, ?_⟩, trivial⟩
  · unfold Linked; decide +kernel
  · unfold MeshTurn.Unannounced; decide +kernel
  · unfold MeshTurn.Unannounced; decide +kernel
  · intro l hl
    simp only [List.mem_cons, List.not_mem_nil, or_false] at hl
    subst hl; exact ⟨id, trivial⟩
  · unfold MeshBack.Says; decide +kernel
  · unfold MeshBack.Says; decide +kernel

theorem run_before : Run δ0 (TNet.start δ0) before s1 := by
  have h : (run? (TNet.start δ0 : Net3) before).isSome = true := by decide +kernel
  obtain ⟨x, hx⟩ := Option.isSome_iff_exists.1 h
  have e : s1 = x := by unfold s1; rw [hx]; rfl
  rw [e]; exact run?_spec (l0 := []) (.nil _) hx

theorem while_later : While δ0 1 0 (fun _ => True) s1 later s2 := by
  have h : (kept? s1 later).isSome = true := by decide +kernel
  obtain ⟨x, hx⟩ := Option.isSome_iff_exists.1 h
  have e : s2 = x := by unfold s2; rw [hx]; rfl
  rw [e]; exact kept?_spec (l0 := []) (.nil _ ⟨by decide +kernel, by decide +kernel⟩ trivial) hx

/-- **C128, the bound is exact.** All conditions of `C128_found_in_time` are met, except that the time that has passed equals the bound
and does not exceed it: the user is connected to broker 1, and broker 0 does not know where they are. -/
theorem C128_bound_reached : History [7] (MNet.start : MNet Bytes (Fin 3) Topic Nat) none parts ∧
    Run δ0 (TNet.start δ0) before s1 ∧ events before = labels [7] parts ∧
    whereabouts [7] (labels [7] parts) none = some (1 : Fin 3) ∧ ((1 : Fin 3), (0 : Fin 3)) ∉ s1.n.fullU ∧
    While δ0 1 0 (fun _ => True) s1 later s2 ∧ Calm [7] (some (1 : Fin 3)) (events later) ∧ s2.now = s1.now + wait δ0 ∧
    At s2.n 1 [7] ∧ (s2.n.st 0).getBrokerOfUser [7] = none := by
  refine ⟨parts_history, run_before, events_map _, by decide +kernel, by decide +kernel, while_later,
    calmB_sound _ _ _ (by decide +kernel), by decide +kernel, ?_, by decide +kernel⟩
  unfold At; decide +kernel

end Verif.Props.MeshHistoryTimeBound

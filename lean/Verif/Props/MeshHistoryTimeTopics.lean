import Verif.Props.MeshHistoryTime
import Verif.Props.MeshHistoryTopics

/-!
# Property C129: how soon broadcasts reach a user, whatever else fails
-/

set_option linter.unusedSectionVars false

namespace Verif.Props.MeshHistoryTimeTopics
open Verif Verif.Conns Verif.MNet Verif.TNet Verif.Props.Mesh Verif.Props.MeshUsers Verif.Props.MeshEpochs Verif.Props.MeshHistory
  Verif.Props.MeshHistoryTime Verif.Props.Network Verif.Broker Verif.Net
open Verif.Props.MeshTime (NewLink While Wanted Forwards delay C98_known_in_time)
open Verif.Props.MeshTurn (whereabouts)

/-! ## Specification -/

/-- Broker `y` hands messages on `t` to its user `r`. -/
def Asks {B H : Type} [DecidableEq B] [DecidableEq H] (y : B) (r : Bytes) (t : Topic) (s : TNet Bytes B Topic H) : Prop :=
  r ∈ ((s.n.st y).getInterestedByTopic [t] true).2

section
variable {B H σ : Type} [DecidableEq B] [DecidableEq H] [LT B] [DecidableLT B]

theorem asks_iff (y : B) (r : Bytes) (t : Topic) (s : TNet Bytes B Topic H) :
    Asks y r t s ↔ r ∈ (s.n.st y).bcUsers.getKeysByValue t := by
  unfold Asks
  rw [(mem_interested _ [t] true).1 r, RMap.mem_getKeysByValue]
  simp only [List.mem_singleton, exists_eq_left]

theorem while_mono {δ : Delays} {b b' : B} {Q Q' : TNet Bytes B Topic H → Prop} {s s' : TNet Bytes B Topic H}
    {ls : List (TLabel Bytes B Topic H)} (h : While δ b b' Q s ls s') (hQ : ∀ s, Q s → Q' s) : While δ b b' Q' s ls s' := by
  induction h with
  | nil hl hq => exact .nil _ hl (hQ _ hq)
  | snoc _ hs hl hk hq ih => exact .snoc ih hs hl hk (hQ _ hq)

theorem while_last {δ : Delays} {b b' : B} {Q : TNet Bytes B Topic H → Prop} {s s' : TNet Bytes B Topic H}
    {ls : List (TLabel Bytes B Topic H)} (h : While δ b b' Q s ls s') : Linked s'.n b b' ∧ Q s' := by
  cases h with
  | nil hl hq => exact ⟨hl, hq⟩
  | snoc _ _ _ hk hq => exact ⟨hk, hq⟩

/-- **C129 (C127, C98).** After any history of user `r` as in C126, in which time passes, `r` is at `y` and gets messages on `t` there.
From then on `r` stays and stays subscribed, and `y` and `x` keep their link; all other links may come and go, all other brokers
may crash, and all other users may do as they like. Once the time until the next periodic topic sync, or until the full sync for a
new link, and until a message has been sent and handled, has passed, a broadcast on topics among which is `t`, published at
`x` while the tables do not change, is received by `r` at most once, and has been received once nothing is in flight. -/
theorem C129_broadcast_in_time (cfg : Cfg B σ) (hT : Transparent cfg) {δ : Delays} (r : Bytes) (ps : List (Part Bytes B Topic H))
    (hes : History r (MNet.start : MNet Bytes B Topic H) none ps) {s s' : TNet Bytes B Topic H}
    {l0 ls : List (TLabel Bytes B Topic H)} (hrun : Run δ (TNet.start δ) l0 s) (hev : events l0 = labels r ps)
    (hlen : 2 * (l0 ++ ls).length + 2 < 2 ^ 64) {y x : B} (t : Topic)
    (hloc : whereabouts r (labels r ps) none = some y)
    (hw : While δ y x (Asks y r t) s ls s') (hcalm : Calm r (some y) (events ls)) (hnow : s.now + delay δ < s'.now)
    (hook : B → Dest B → σ) (ms : List (Label B H)) (hl : ∀ l ∈ ms, Static cfg l) (k : Nat)
    (a raw : Bytes) (ts : List Topic) (payload : Bytes) (hdec : cfg.decode raw = some (.broadcast ts payload))
    (ht : t ∈ ts) (hv : cfg.valid t = true) (honce : ms.filter (publishes k) = [.publish x a k raw]) :
    let n := (Net.start s'.n.st hook).run cfg ms
    copiesReceived n r k ≤ 1 ∧ (Quiescent n → copiesReceived n r k = 1) := by
  intro n
  have hl0 := events_length l0
  rw [List.length_append] at hlen
  have hb := MeshHistory.between_end r ps hes (by rw [← hev]; omega) y
  rw [hloc, ← hev] at hb
  have hb' := between_calm hb (events ls) hcalm
  have hn : s'.n = ((MNet.start : MNet Bytes B Topic H).run (events l0)).run (events ls) := by
    have h1 := run_net (while_run hrun hw)
    have h2 : events (l0 ++ ls) = events l0 ++ events ls := List.filterMap_append ..
    rw [h2, Mesh.run_append] at h1
    exact h1
  rw [← hn] at hb'
  have hat : ∀ b, ((s'.n.st b).getUserConnection r).isSome ↔ some y = some b := (between_concl hb').1
  obtain ⟨v, _, hk⟩ := hb'
  have hirr : (s'.n.st x).getBrokerConnection x = none := by
    simp [getBrokerConnection, hk.irr x]
  obtain ⟨hlk, hask⟩ := while_last hw
  have hfw : Forwards x y t s' := C98_known_in_time hrun (while_mono hw (fun s1 h1 =>
    (TopicSync.subscribed_iff _ _).2 ⟨r, (RMap.mem_getKeysByValue _ _ _).1 ((asks_iff _ _ _ _).1 h1)⟩)) (by omega) hnow
  have hint : y ∈ (s'.n.st x).bcBrokers.getKeysByValue t := by
    have h5 := hfw
    unfold Forwards at h5
    rw [(mem_interested _ [t] false).2.1 y] at h5
    simp only [true_and, List.mem_singleton, exists_eq_left] at h5
    rw [RMap.mem_getKeysByValue]
    exact h5
  obtain ⟨w1, _, _, w4⟩ := MeshHistoryTopics.weight_at (cfg := cfg) hat hirr a raw ts payload hdec
  obtain ⟨c1, c2⟩ := conservation cfg hT s'.n.st hook ms hl k x a raw honce r
  refine ⟨Nat.le_trans c1 w1, fun hq => ?_⟩
  rw [c2 hq]
  exact w4 y t rfl ht hv ((asks_iff _ _ _ _).1 hask) (Or.inr ⟨hlk.2, hint⟩)

end

/-! ### A case -/

namespace Case
open Verif.Props.MeshTurn Verif.Props.MeshHistoryTopics Verif.Props.MeshHistoryTime.Case
open Verif.Props.MeshTime (δ0 next next_spec run? run?_spec)

/-- `[7]` connects to broker 2, asking for topic 5, and everybody is told where they are; broker 1 crashes and is linked to broker 2
again. -/
def parts : List (Part Bytes (Fin 3) Topic Nat) :=
  [.calm toyLinks,
   .moves [.connect 2 [7] 110 [5], .startUser 2, .readDests 0, .send 0 true, .send 0 true, .deliver 2 0, .deliver 2 1],
   .calm [.restart 1, .drop 0 1, .drop 2 1, .linkUp 1 2 120 121]]

def before : List (TLabel Bytes (Fin 3) Topic Nat) := (labels [7] parts).map .ev

/-- The initial topic syncs are started, and have nothing to say yet; broker 0 crashes; the periodic syncs take place, and broker 2
tells broker 1 of topic 5; 10.251 seconds pass. -/
def later : List (TLabel Bytes (Fin 3) Topic Nat) :=
  ([.fullTopic 0 1, .fullTopic 0 1, .fullTopic 2 1, .fullTopic 0 2, .fullTopic 2 0, .fullTopic 1 2, .fullTopic 2 1] : List Label3).map .ev ++
  [.tick 50] ++ ([.restart 0, .drop 2 0] : List Label3).map .ev ++ [.tick 9950] ++
  ([.startTopic 0, .startUser 0, .startTopic 1, .startUser 1, .startTopic 2, .startUser 2, .readDests 1] : List Label3).map .ev ++
  [.tick 50, .ev (.send 1 true), .tick 200, .ev (.deliver 2 1), .tick 1]

def s1 : Net3 := (run? (TNet.start δ0) before).getD (TNet.start δ0)

/-- The steps while brokers 2 and 1 are linked and `[7]` gets messages on topic 5 at broker 2, computed. -/
def asked? (s : Net3) : List (TLabel Bytes (Fin 3) Topic Nat) → Option Net3
  | [] => some s
  | l :: ls => (next s l).bind fun s' =>
      if s'.n.knows 2 1 && s'.n.knows 1 2 && !kept?.isLinkUp3 l && decide ([7] ∈ ((s'.n.st 2).getInterestedByTopic [5] true).2)
      then asked? s' ls else none

theorem asked?_spec {ls : List (TLabel Bytes (Fin 3) Topic Nat)} {s0 s s' : Net3} {l0 : List (TLabel Bytes (Fin 3) Topic Nat)}
    (h0 : While δ0 2 1 (Asks 2 [7] 5) s0 l0 s) (h : asked? s ls = some s') :
    While δ0 2 1 (Asks 2 [7] 5) s0 (l0 ++ ls) s' := by
  induction ls generalizing s l0 with
  | nil => cases h; rw [List.append_nil]; exact h0
  | cons l ls ih =>
    simp only [asked?, Option.bind_eq_some_iff] at h
    obtain ⟨s2, h1, h2⟩ := h
    split at h2
    · rename_i hw
      simp only [Bool.and_eq_true, Bool.not_eq_true', decide_eq_true_eq] at hw
      have hl : ¬ NewLink (2 : Fin 3) 1 l := by
        intro h3
        cases l with
        | tick => exact h3
        | ev l => cases l <;> first | exact h3 | (exact absurd hw.1.2 (by simp [kept?.isLinkUp3]))
      have := ih (.snoc h0 (next_spec h1) hl ⟨hw.1.1.1, hw.1.1.2⟩ hw.2) h2
      rwa [List.append_assoc] at this
    · cases h2

def s2 : Net3 := (asked? s1 later).getD s1

theorem parts_history : History [7] (MNet.start : MNet Bytes (Fin 3) Topic Nat) none parts := by
  refine ⟨calmB_sound _ _ _ (by decide +kernel),
    ⟨?_, by decide +kernel, nothingB_sound _ _ (by decide +kernel), ?_⟩, inTurnB_sound _ _ _ (by decide +kernel),
      nothingB_sound _ _ (by decide +kernel), ?_, calmB_sound _ _ _ (by decide +kernel), trivial⟩
  · unfold Linked; decide +kernel
  · unfold MeshTurn.Unannounced; decide +kernel
  · unfold MeshTurn.Unannounced; decide +kernel

theorem run_before : Run δ0 (TNet.start δ0) before s1 := by
  have h : (run? (TNet.start δ0 : Net3) before).isSome = true := by decide +kernel
  obtain ⟨x, hx⟩ := Option.isSome_iff_exists.1 h
  have e : s1 = x := by unfold s1; rw [hx]; rfl
  rw [e]; exact run?_spec (l0 := []) (.nil _) hx

theorem while_later : While δ0 2 1 (Asks 2 [7] 5) s1 later s2 := by
  have h : (asked? s1 later).isSome = true := by decide +kernel
  obtain ⟨x, hx⟩ := Option.isSome_iff_exists.1 h
  have e : s2 = x := by unfold s2; rw [hx]; rfl
  rw [e]; exact asked?_spec (l0 := []) (.nil _ ⟨by decide +kernel, by decide +kernel⟩ (by unfold Asks; decide +kernel)) hx

/-- `[8]` publishes on topics 5 and 9 at broker 1. -/
def write : List (Label (Fin 3) Nat) :=
  [.publish 1 [8] 5 [4, 5, 9], .take 1 (.user [8]), .send 1 (.user [8]) true, .take 2 (.broker 1), .send 2 (.broker 1) true]

/-- C129 applies. At first broker 1 would not pass the message on; 10.251 seconds later it does. -/
example : 2 ∉ ((s1.n.st 1).getInterestedByTopic [5] false).1 ∧
    let n := (Net.start s2.n.st (fun _ _ => 0)).run topicCfg write
    copiesReceived n [7] 5 = 1 := by
  refine ⟨by decide +kernel, ?_⟩
  refine (C129_broadcast_in_time topicCfg (fun _ _ => ⟨rfl, rfl⟩) (δ := δ0) [7] parts parts_history run_before (events_map _)
    (by decide +kernel) 5 (by decide +kernel) while_later (calmB_sound _ _ _ (by decide +kernel)) (by decide +kernel) (fun _ _ => 0) write ?_ 5
    [8] [4, 5, 9] [5, 9] [] rfl (by decide) (by decide) rfl).2 ?_
  · intro l hl
    simp only [write, List.mem_cons, List.not_mem_nil, or_false] at hl
    rcases hl with rfl | rfl | rfl | rfl | rfl
    · exact ⟨5, by decide, by decide⟩
    all_goals first | rfl | trivial
  · have h : ((Net.start s2.n.st (fun _ _ => 0)).run topicCfg write).wire.length = 0 ∧
      ((Net.start s2.n.st (fun _ _ => 0)).run topicCfg write).pend.length = 0 := by decide +kernel
    exact ⟨List.length_eq_zero_iff.1 h.1, List.length_eq_zero_iff.1 h.2⟩

end Case

end Verif.Props.MeshHistoryTimeTopics

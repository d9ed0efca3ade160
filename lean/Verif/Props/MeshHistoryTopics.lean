import Verif.Props.MeshHistory

/-!
# Property C127: broadcasts follow users who move, while links fail and brokers crash
-/

set_option linter.unusedSectionVars false

namespace Verif.Props.MeshHistoryTopics
open Verif Verif.Conns Verif.MNet Verif.Props.Mesh Verif.Props.MeshUsers Verif.Props.MeshTurn
  Verif.Props.MeshEpochs Verif.Props.MeshHistory Verif.Props.Network Verif.Broker Verif.Net

section
variable {B H σ : Type} [DecidableEq B] [DecidableEq H] [LT B] [DecidableLT B]

/-- Copies of a broadcast for a user who is connected to at most one broker. -/
theorem weight_at {cfg : Cfg B σ} {tab : B → Table B H} {r : Bytes} {loc : Option B}
    (hat : ∀ b, ((tab b).getUserConnection r).isSome ↔ loc = some b) {x : B} (hirr : (tab x).getBrokerConnection x = none)
    (a raw : Bytes) (ts : List Topic) (payload : Bytes) (hd : cfg.decode raw = some (.broadcast ts payload)) :
    wWire cfg tab r x (.user a) raw ≤ 1 ∧
    (loc = none → wWire cfg tab r x (.user a) raw = 0) ∧
    (∀ y, loc = some y → (∀ t ∈ ts, r ∉ (tab y).bcUsers.getKeysByValue t) → wWire cfg tab r x (.user a) raw = 0) ∧
    (∀ y t, loc = some y → t ∈ ts → cfg.valid t = true → r ∈ (tab y).bcUsers.getKeysByValue t →
      (x = y ∨ ((tab x).getBrokerConnection y).isSome ∧ y ∈ (tab x).bcBrokers.getKeysByValue t) →
      wWire cfg tab r x (.user a) raw = 1) := by
  have hdests : dests cfg (tab x) (.user a) raw = broadcastDests (tab x) (prune cfg.valid ts).1 false := by
    simp [dests, hd]
  have hnc : ∀ b, loc ≠ some b → (tab b).getUserConnection r = none := by
    intro b hb
    cases hc : (tab b).getUserConnection r with
    | none => rfl
    | some c => exact absurd ((hat b).1 (by rw [hc]; rfl)) hb
  have hz : ∀ d, (loc = some x → d ≠ .user r) → (∀ b, loc = some b → b ≠ x → d ≠ .broker b) →
      wPend cfg tab r x raw d = 0 := by
    intro d h1 h2
    cases d with
    | user u' =>
      simp only [wPend, wLast]
      rw [if_neg]
      rintro ⟨rfl, hc⟩
      exact h1 ((hat x).1 hc) rfl
    | broker b' =>
      simp only [wPend]
      split
      · rename_i hc
        apply wB_zero
        apply hnc
        intro h
        refine h2 b' h ?_ rfl
        rintro rfl
        rw [hirr] at hc; cases hc
      · rfl
  cases hloc : loc with
  | none =>
    have h0 : wWire cfg tab r x (.user a) raw = 0 := by
      apply sum_zero
      intro d _
      exact hz d (by rw [hloc]; exact fun h => nomatch h) (by rw [hloc]; exact fun b h => nomatch h)
    exact ⟨by rw [h0]; exact Nat.zero_le _, fun _ => h0, fun _ h => (nomatch h), fun _ _ h => (nomatch h)⟩
  | some y =>
    have hcy : ((tab y).getUserConnection r).isSome := (hat y).2 hloc
    by_cases hxy : x = y
    · subst hxy
      have hsum := sum_single (wPend cfg tab r x raw) (dests cfg (tab x) (.user a) raw) (nodup_dests _ _ _ _) (.user r) (by
        intro d _ hne
        refine hz d (fun _ => hne) (fun b h1 h2 => ?_)
        rw [hloc] at h1; exact absurd (Option.some.inj h1).symm h2)
      have hone : wPend cfg tab r x raw (.user r) = 1 := by
        simp only [wPend, wLast, true_and]; rw [if_pos hcy]
      have hmem : Dest.user r ∈ dests cfg (tab x) (.user a) raw ↔
          ∃ t ∈ (prune cfg.valid ts).1, r ∈ (tab x).bcUsers.getKeysByValue t := by
        rw [hdests, user_mem_broadcastDests]
      refine ⟨?_, fun h => (nomatch h), ?_, ?_⟩
      · by_cases hin : Dest.user r ∈ dests cfg (tab x) (.user a) raw
        · exact Nat.le_of_eq ((hsum.1 hin).trans hone)
        · exact Nat.le_trans (Nat.le_of_eq (hsum.2 hin)) (Nat.zero_le _)
      · intro y hy hno
        cases hy
        refine hsum.2 (fun hin => ?_)
        obtain ⟨t, h1, h2⟩ := hmem.1 hin
        exact hno t ((mem_prune _ _ _).1 h1).1 h2
      · intro y t hy h1 h2 h3 _
        cases hy
        exact (hsum.1 (hmem.2 ⟨t, (mem_prune _ _ _).2 ⟨h1, h2⟩, h3⟩)).trans hone
    · have hsum := sum_single (wPend cfg tab r x raw) (dests cfg (tab x) (.user a) raw) (nodup_dests _ _ _ _) (.broker y) (by
        intro d _ hne
        refine hz d (fun h => ?_) (fun b h1 _ => ?_)
        · rw [hloc] at h; exact absurd (Option.some.inj h).symm hxy
        · rw [hloc] at h1; cases h1; exact hne)
      have hsum2 := sum_single (wLast tab r y) (dests cfg (tab y) (.broker x) raw)
        (nodup_dests _ _ _ _) (.user r) (fun d _ hx => wLast_other hx)
      have hlast : wLast tab r y (.user r) = 1 := by simp only [wLast, true_and]; rw [if_pos hcy]
      have hmem2 : Dest.user r ∈ dests cfg (tab y) (.broker x) raw ↔ ∃ t ∈ ts, r ∈ (tab y).bcUsers.getKeysByValue t := by
        simp only [dests, hd]
        rw [user_mem_broadcastDests]
      have hB : wB cfg tab r y x raw ≤ 1 := by
        by_cases hin : Dest.user r ∈ dests cfg (tab y) (.broker x) raw
        · exact Nat.le_of_eq ((hsum2.1 hin).trans hlast)
        · exact Nat.le_trans (Nat.le_of_eq (hsum2.2 hin)) (Nat.zero_le _)
      have hle : wWire cfg tab r x (.user a) raw ≤ wB cfg tab r y x raw := by
        by_cases hin : Dest.broker y ∈ dests cfg (tab x) (.user a) raw
        · refine Nat.le_trans (Nat.le_of_eq (hsum.1 hin)) ?_
          simp only [wPend]
          split
          · exact Nat.le_refl _
          · exact Nat.zero_le _
        · exact Nat.le_trans (Nat.le_of_eq (hsum.2 hin)) (Nat.zero_le _)
      refine ⟨Nat.le_trans hle hB, fun h => (nomatch h), ?_, ?_⟩
      · intro y' hy hno
        cases hy
        have h0 : wB cfg tab r y x raw = 0 := hsum2.2 (fun hin => by
          obtain ⟨t, h1, h2⟩ := hmem2.1 hin
          exact hno t h1 h2)
        exact Nat.le_zero.1 (h0 ▸ hle)
      · intro y' t hy h1 h2 h3 h4
        cases hy
        obtain ⟨hc, hint⟩ := h4.resolve_left hxy
        have hin : Dest.broker y ∈ dests cfg (tab x) (.user a) raw := by
          rw [hdests, broker_mem_broadcastDests]
          exact ⟨rfl, t, (mem_prune _ _ _).2 ⟨h1, h2⟩, hint⟩
        refine (hsum.1 hin).trans ?_
        simp only [wPend]
        rw [if_pos hc]
        exact (hsum2.1 (hmem2.2 ⟨t, h1, h3⟩)).trans hlast

/-- **C127.** After any history of user `r` as in C126, a broadcast is published once, at broker `x`. `r` receives it at most once. If
`r` has left, or has asked for none of its topics where they are, they do not receive it. If `r` is at `y` according to the history and
has asked there for one of its valid topics, and `x` is `y`, or is linked to `y` and has been told all about topics by it, then `r` has received
it once nothing is in flight. -/
theorem C127_broadcast (cfg : Cfg B σ) (hT : Transparent cfg) (r : Bytes) (ps : List (Part Bytes B Topic H))
    (hes : History r (MNet.start : MNet Bytes B Topic H) none ps)
    (hlen : 2 * (labels r ps).length + 2 < 2 ^ 64) (x : B)
    (hook : B → Dest B → σ) (ls : List (Label B H)) (hl : ∀ l ∈ ls, Static cfg l) (k : Nat)
    (a raw : Bytes) (ts : List Topic) (payload : Bytes) (hdec : cfg.decode raw = some (.broadcast ts payload))
    (honce : ls.filter (publishes k) = [.publish x a k raw]) :
    let m := (MNet.start : MNet Bytes B Topic H).run (labels r ps)
    let n := (Net.start m.st hook).run cfg ls
    let loc := whereabouts r (labels r ps) none
    copiesReceived n r k ≤ 1 ∧
    (loc = none → copiesReceived n r k = 0) ∧
    (∀ y, loc = some y → (∀ t ∈ ts, t ∉ asked y r (labels r ps) []) → copiesReceived n r k = 0) ∧
    (∀ y t, loc = some y → t ∈ ts → cfg.valid t = true → t ∈ asked y r (labels r ps) [] →
      (x = y ∨ Linked m y x ∧ TopicsSettled m y x) → Quiescent n → copiesReceived n r k = 1) := by
  intro m n loc
  have hat : ∀ b, ((m.st b).getUserConnection r).isSome ↔ loc = some b := (C126_found r ps hes hlen).1
  have hinv := MNet.inv_run (MNet.inv_start (U := Bytes) (B := B) (T := Topic) (H := H)) (labels r ps) (by omega)
  have hirr : (m.st x).getBrokerConnection x = none := by
    have h := hinv.irrefl x
    change (m.st x).brokers.get x = none at h
    simp [getBrokerConnection, h]
  obtain ⟨w1, w2, w3, w4⟩ := weight_at (cfg := cfg) hat hirr a raw ts payload hdec
  obtain ⟨c1, c2⟩ := conservation cfg hT m.st hook ls hl k x a raw honce r
  have hsub : ∀ y t, loc = some y → (r ∈ (m.st y).bcUsers.getKeysByValue t ↔ t ∈ asked y r (labels r ps) []) := by
    intro y t hy
    rw [← C72_subscribed_iff_asked (labels r ps) y r ((hat y).2 hy) t, (mem_interested _ [t] true).1 r, RMap.mem_getKeysByValue]
    simp only [List.mem_singleton, exists_eq_left]
    rfl
  refine ⟨Nat.le_trans c1 w1, fun h => Nat.le_zero.1 (w2 h ▸ c1), fun y hy hno => ?_, fun y t hy h1 h2 h3 h4 hq => ?_⟩
  · have := w3 y hy (fun t ht hin => hno t ht ((hsub y t hy).1 hin))
    exact Nat.le_zero.1 (this ▸ c1)
  · rw [c2 hq]
    refine w4 y t hy h1 h2 ((hsub y t hy).2 h3) (h4.imp id (fun ⟨hk, hs⟩ => ⟨hk.2, ?_⟩))
    have h5 := C71_interest_exact (labels r ps) (by omega) y x hk hs t
    rw [(mem_interested _ [t] false).2.1 y] at h5
    simp only [true_and, List.mem_singleton, exists_eq_left] at h5
    rw [RMap.mem_getKeysByValue]
    exact h5.2 ((TopicSync.subscribed_iff _ _).2 ⟨r, (RMap.mem_getKeysByValue _ _ _).1 ((hsub y t hy).2 h3)⟩)

end

/-! ### A case

As in `MeshHistory`; `[7]` asks for topic 5 when connecting to broker 2 after the crash, and for topics 5 and 6 when moving to
broker 1, which tells the others. The link between brokers 0 and 2 fails. `[8]` publishes on topics 6 and 9 at broker 0. -/

def topicCfg : Cfg (Fin 3) Nat where
  decode
    | 4 :: ts => some (.broadcast ts [])
    | _ => none
  decUserSync _ := none
  decTopicSync _ := none
  valid t := t < 8
  userHook h m := (h, m, .process)
  brokerHook h m := (h, m, .process)

def topicParts : List (Part Bytes (Fin 3) Topic Nat) :=
  [.calm toyLinks, .moves toyAt0,
   .crash 0 [.drop 1 0, .drop 2 0] 2 111 [5] [.startUser 2, .readDests 0, .send 0 true, .deliver 2 1],
   .calm toyAgain,
   .moves [.connect 1 [7] 112 [5, 6], .startUser 1, .readDests 5, .send 5 true, .send 5 true, .deliver 1 0, .deliver 1 2],
   .calm [.fullTopic 1 0, .fullTopic 1 0, .fullTopic 1 0, .startTopic 1, .readDests 6, .send 6 true, .send 6 true, .deliver 1 0,
     .drop 0 2, .drop 2 0]]

def topicThen : MNet Bytes (Fin 3) Topic Nat := (MNet.start : MNet Bytes (Fin 3) Topic Nat).run (labels [7] topicParts)

def topicTo : List (Label (Fin 3) Nat) :=
  [.publish 0 [8] 5 [4, 6, 9], .take 0 (.user [8]), .send 0 (.user [8]) true, .take 1 (.broker 0), .send 1 (.broker 0) true]

theorem topic_history : History [7] (MNet.start : MNet Bytes (Fin 3) Topic Nat) none topicParts := by
  refine ⟨calmB_sound _ _ _ (by decide +kernel),
    ⟨?_, by decide +kernel, nothingB_sound _ _ (by decide +kernel), ?_⟩, inTurnB_sound _ _ _ (by decide +kernel),
      nothingB_sound _ _ (by decide +kernel), ?_,
    by decide +kernel, by decide, ?_, by decide +kernel, by decide +kernel, ?_, ⟨by decide +kernel, ?_, ?_⟩,
    calmB_sound _ _ _ (by decide +kernel),
    ⟨?_, by decide +kernel, nothingB_sound _ _ (by decide +kernel), ?_⟩, inTurnB_sound _ _ _ (by decide +kernel),
      nothingB_sound _ _ (by decide +kernel), ?_,
    calmB_sound _ _ _ (by decide +kernel), trivial⟩
  · unfold Linked; decide +kernel
  · unfold MeshTurn.Unannounced; decide +kernel
  · unfold MeshTurn.Unannounced; decide +kernel
  · intro l hl
    simp only [List.mem_cons, List.not_mem_nil, or_false] at hl
    rcases hl with rfl | rfl <;> exact ⟨id, trivial⟩
  · intro l hl
    simp only [List.mem_cons, List.not_mem_nil, or_false] at hl
    rcases hl with rfl | rfl | rfl | rfl <;>
      simp [Connects, MeshFailover.NoGreaterLink, MeshFailover.NoLinkOf, MeshFailover.Stays]
  · unfold MeshBack.Says; decide +kernel
  · unfold MeshBack.Says; decide +kernel
  · unfold Linked; decide +kernel
  · unfold MeshTurn.Unannounced; decide +kernel
  · unfold MeshTurn.Unannounced; decide +kernel

example : Transparent topicCfg ∧ 2 * (labels [7] topicParts).length + 2 < 2 ^ 64 ∧
    whereabouts [7] (labels [7] topicParts) none = some 1 ∧ Linked topicThen 1 0 ∧ TopicsSettled topicThen 1 0 ∧
    6 ∈ asked 1 [7] (labels [7] topicParts) [] ∧ topicCfg.valid 6 = true ∧
    (∀ l ∈ topicTo, Static topicCfg l) ∧ topicTo.filter (publishes 5) = [.publish 0 [8] 5 [4, 6, 9]] := by
  refine ⟨fun _ _ => ⟨rfl, rfl⟩, by decide +kernel, by decide +kernel, ⟨by decide +kernel, by decide +kernel⟩,
    ⟨by decide +kernel, by decide +kernel, ?_, ?_⟩, by decide +kernel, by decide +kernel, ?_, rfl⟩
  · have : ∀ τ ∈ topicThen.tasks, τ.here = 1 → τ.dests = some [] := by decide +kernel
    intro τ hτ h1 _
    exact ⟨[], this τ hτ h1, by simp⟩
  · have : topicThen.ch 1 0 = [] := List.isEmpty_iff.1 (by decide +kernel)
    rw [this]; simp
  · intro l hl
    simp only [topicTo, List.mem_cons, List.not_mem_nil, or_false] at hl
    rcases hl with rfl | rfl | rfl | rfl | rfl
    all_goals first | rfl | trivial | exact ⟨6, by decide, by decide⟩

/-- The message reaches `[7]` once; nothing is in flight. -/
example : let n := (Net.start topicThen.st (fun _ _ => 0)).run topicCfg topicTo
    n.wire.length = 0 ∧ n.pend.length = 0 ∧ copiesReceived n [7] 5 = 1 := by
  decide +kernel

end Verif.Props.MeshHistoryTopics

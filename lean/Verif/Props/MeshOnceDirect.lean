import Verif.Props.MeshOnce

/-!
# Property C122: direct messages for a user who stays, while links come and go
-/

set_option linter.unusedSectionVars false

namespace Verif.Props.MeshOnceDirect
open Verif Verif.Conns Verif.MNet Verif.Props.Mesh Verif.Props.MeshUsers Verif.Props.MeshTurn
  Verif.Props.MeshCrash Verif.Props.MeshFailover Verif.Props.MeshBack Verif.Props.MeshOnce Verif.Props.MeshFound
  Verif.Props.Network Verif.Broker Verif.Net

variable {B H σ : Type} [DecidableEq B] [DecidableEq H] [LT B] [DecidableLT B]

/-- The claim of C122: user `r` connects once, to `y`, and stays. A direct message for `r`, published at `y` or at a
broker linked to `y` when the two have nothing left to tell each other, is received by `r` exactly once, and by nobody
else, once nothing is in flight. -/
def ReachesWhoStays (cfg : Cfg B σ) (H : Type) [DecidableEq H] : Prop :=
  Transparent cfg → ∀ (l1 l2 : List (MLabel Bytes B Topic H)) (y x : B) (r : Bytes) (hd : H) (ts : List Topic),
    (∀ l ∈ l1, ¬ Connects r l) → (∀ l ∈ l2, Stays r y l) →
    (x = y ∨ AllSaid ((MNet.start : MNet Bytes B Topic H).run (l1 ++ .connect y r hd ts :: l2)) y x) →
    ∀ (hook : B → Dest B → σ) (ls : List (Label B H)), (∀ l ∈ ls, Static cfg l) →
    ∀ (k : Nat) (a raw payload : Bytes), cfg.decode raw = some (.direct r payload) →
    ls.filter (publishes k) = [.publish x a k raw] →
    let n := (Net.start ((MNet.start : MNet Bytes B Topic H).run (l1 ++ .connect y r hd ts :: l2)).st hook).run cfg ls
    Quiescent n → copiesReceived n r k = 1 ∧ ∀ u, u ≠ r → copiesReceived n u k = 0

/-- **C122, partial.** Before user `r` connects anything happens (`l1`), but no initial user sync of a broker greater than
`y` is due to `y`; after that (`l2`) links come and go, but no link of `y` to a greater broker comes up. It is enough that
`y` has said everything to the broker of publication. Missing from the full claim: new links of `y` to greater brokers,
for which it is false (`C122_false`). -/
theorem C122_reaches_partial (cfg : Cfg B σ) (hT : Transparent cfg) (l1 l2 : List (MLabel Bytes B Topic H)) (y x : B)
    (r : Bytes) (hd : H) (ts : List Topic)
    (hno : ∀ l ∈ l1, ¬ Connects r l)
    (hdue : ∀ x, y < x → (x, y) ∉ ((MNet.start : MNet Bytes B Topic H).run l1).fullU)
    (h2 : ∀ l ∈ l2, NoGreaterLink y l ∧ Stays r y l) (hlen : 2 * l1.length < 2 ^ 64)
    (hx : let m := (MNet.start : MNet Bytes B Topic H).run (l1 ++ .connect y r hd ts :: l2)
      x = y ∨ Linked m y x ∧ UsersSettled m y x)
    (hook : B → Dest B → σ) (ls : List (Label B H)) (hl : ∀ l ∈ ls, Static cfg l) (k : Nat)
    (a raw payload : Bytes) (hdec : cfg.decode raw = some (.direct r payload))
    (honce : ls.filter (publishes k) = [.publish x a k raw]) (u : Bytes) :
    let n := (Net.start ((MNet.start : MNet Bytes B Topic H).run (l1 ++ .connect y r hd ts :: l2)).st hook).run cfg ls
    copiesReceived n u k ≤ 1 ∧ (u ≠ r → copiesReceived n u k = 0) ∧
    (Quiescent n → copiesReceived n r k = 1) := by
  intro n
  obtain ⟨hat', hy, hfound, _⟩ := known_concl (once_known r y hd ts l1 l2 hno hdue h2 hlen)
  have hid : ∀ z, (((MNet.start : MNet Bytes B Topic H).run (l1 ++ .connect y r hd ts :: l2)).st z).identity = z :=
    ident_run _ _ (fun _ => rfl)
  have hrx : (((MNet.start : MNet Bytes B Topic H).run (l1 ++ .connect y r hd ts :: l2)).st x).getBrokerOfUser r =
      some y := by
    rcases hx with rfl | ⟨h1, h2⟩
    · exact hy
    · exact hfound x h1 h2
  have hlk : x ≠ y → ((((MNet.start : MNet Bytes B Topic H).run
      (l1 ++ .connect y r hd ts :: l2)).st x).getBrokerConnection y).isSome = true := by
    intro hne
    rcases hx with rfl | ⟨h1, _⟩
    · exact absurd rfl hne
    · exact h1.2
  have hw := fun u => weight_one (cfg := cfg) (hid x) (hid y) hrx hy hat' hlk a u raw payload hdec
  have hcon := fun u => conservation cfg hT
    ((MNet.start : MNet Bytes B Topic H).run (l1 ++ .connect y r hd ts :: l2)).st hook ls hl k x a raw honce u
  refine ⟨?_, ?_, ?_⟩
  · refine Nat.le_trans (hcon u).1 ?_
    rw [hw u]; split <;> omega
  · intro hne
    have h := (hcon u).1
    rw [hw u, if_neg hne] at h
    exact Nat.le_zero.1 h
  · intro hq
    rw [(hcon r).2 hq, hw r, if_pos rfl]

/-! ## The full claim -/

/-- All are linked. `[7]` connects to broker 0; broker 0's link to broker 1 fails and comes back, and broker 1, greater,
tells broker 0 where its user is. -/
def toyEcho : List (MLabel Bytes (Fin 3) Topic Nat) :=
  [.startUser 0, .readDests 0, .send 0 true, .send 0 true, .deliver 0 1, .deliver 0 2, .drop 0 1, .drop 1 0,
   .linkUp 0 1 120 121, .fullUser 1 0, .send 1 true, .deliver 1 0, .startUser 0, .readDests 2, .send 2 true,
   .send 2 true, .fullUser 0 1, .deliver 0 1, .deliver 0 2]

/-- `[8]` writes to `[7]` at their broker. -/
def toyToSame : List (Label (Fin 3) Nat) := [.publish 0 [8] 5 [3, 7], .take 0 (.user [8]), .send 0 (.user [8]) true]

/-- **C122 does not hold**: the user has been dropped. -/
theorem C122_false : ¬ ReachesWhoStays toyCfg Nat := by
  intro h
  have h1 := h (fun _ _ => ⟨rfl, rfl⟩) toyLinks toyEcho 0 0 [7] 110 [] (by
    intro l hl
    simp only [toyLinks, List.mem_cons, List.not_mem_nil, or_false] at hl
    rcases hl with rfl | rfl | rfl | rfl | rfl | rfl | rfl | rfl | rfl | rfl | rfl | rfl | rfl | rfl <;>
      simp [Connects]) (by
    intro l hl
    simp only [toyEcho, List.mem_cons, List.not_mem_nil, or_false] at hl
    rcases hl with rfl | rfl | rfl | rfl | rfl | rfl | rfl | rfl | rfl | rfl | rfl | rfl | rfl | rfl | rfl | rfl | rfl |
      rfl | rfl <;> simp [Connects, Stays]) (Or.inl rfl) (fun _ _ => 0) toyToSame (by
    intro l hl
    simp only [toyToSame, List.mem_cons, List.not_mem_nil, or_false] at hl
    rcases hl with rfl | rfl | rfl
    all_goals first | rfl | trivial) 5 [8] [3, 7] [] rfl rfl
    ⟨List.isEmpty_iff.1 (by decide +kernel), List.isEmpty_iff.1 (by decide +kernel)⟩
  exact absurd h1.1 (by decide +kernel)

/-! ### A case

`[7]` connects to broker 1. The link between brokers 0 and 1 fails before broker 0 is told, and comes back; broker 0
tells broker 1 where its user is, having heard it from broker 2. -/

def toyComeAndGo : List (MLabel Bytes (Fin 3) Topic Nat) :=
  [.drop 1 0, .drop 0 1, .startUser 1, .readDests 0, .send 0 true, .deliver 1 2, .drop 2 0, .drop 0 2,
   .linkUp 0 2 120 121, .fullUser 2 0, .send 1 true, .deliver 2 0, .linkUp 0 1 122 123, .fullUser 0 1, .send 2 true,
   .deliver 0 1, .fullUser 1 0, .send 3 true, .deliver 1 0]

def toyCame : MNet Bytes (Fin 3) Topic Nat :=
  (MNet.start : MNet Bytes (Fin 3) Topic Nat).run (toyLinks ++ .connect 1 [7] 110 [] :: toyComeAndGo)

example : Transparent toyCfg ∧ (∀ l ∈ toyLinks, ¬ Connects [7] l) ∧
    (∀ x, 1 < x → (x, 1) ∉ ((MNet.start : MNet Bytes (Fin 3) Topic Nat).run toyLinks).fullU) ∧
    (∀ l ∈ toyComeAndGo, NoGreaterLink 1 l ∧ Stays [7] 1 l) ∧ Linked toyCame 1 0 ∧ UsersSettled toyCame 1 0 ∧
    (∀ l ∈ toyWrite, Static toyCfg l) ∧ toyWrite.filter (publishes 5) = [.publish 0 [8] 5 [3, 7]] := by
  refine ⟨fun _ _ => ⟨rfl, rfl⟩, ?_, by decide +kernel, ?_, ⟨by decide +kernel, by decide +kernel⟩,
    ⟨by decide +kernel, by decide +kernel, ?_, ?_⟩, ?_, rfl⟩
  · intro l hl
    simp only [toyLinks, List.mem_cons, List.not_mem_nil, or_false] at hl
    rcases hl with rfl | rfl | rfl | rfl | rfl | rfl | rfl | rfl | rfl | rfl | rfl | rfl | rfl | rfl <;>
      simp [Connects]
  · intro l hl
    simp only [toyComeAndGo, List.mem_cons, List.not_mem_nil, or_false] at hl
    rcases hl with rfl | rfl | rfl | rfl | rfl | rfl | rfl | rfl | rfl | rfl | rfl | rfl | rfl | rfl | rfl | rfl | rfl |
      rfl | rfl <;> simp [Connects, NoGreaterLink, Stays]
  · have : ∀ τ ∈ toyCame.tasks, τ.here = 1 → τ.dests = some [] := by decide +kernel
    intro τ hτ h1 _
    exact ⟨[], this τ hτ h1, by simp⟩
  · have : toyCame.ch 1 0 = [] := List.isEmpty_iff.1 (by decide +kernel)
    rw [this]; simp
  · intro l hl
    simp only [toyWrite, List.mem_cons, List.not_mem_nil, or_false] at hl
    rcases hl with rfl | rfl | rfl | rfl | rfl
    all_goals first | rfl | trivial

/-- The message reaches `[7]` once; nothing is in flight. -/
example : let n := (Net.start toyCame.st (fun _ _ => 0)).run toyCfg toyWrite
    n.wire.length = 0 ∧ n.pend.length = 0 ∧ copiesReceived n [7] 5 = 1 ∧ copiesReceived n [8] 5 = 0 := by
  decide +kernel

end Verif.Props.MeshOnceDirect

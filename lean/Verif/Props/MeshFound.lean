import Verif.Props.MeshFailover

/-!
# Property C120, with messages: direct messages for a user whose broker crashed
-/

set_option linter.unusedSectionVars false

namespace Verif.Props.MeshFound
open Verif Verif.Conns Verif.MNet Verif.Props.Mesh Verif.Props.MeshUsers Verif.Props.MeshTurn
  Verif.Props.MeshCrash Verif.Props.MeshFailover Verif.Props.Network Verif.Broker Verif.Net

variable {B H σ : Type} [DecidableEq B] [DecidableEq H] [LT B] [DecidableLT B]

section
variable {U T : Type} [DecidableEq U] [DecidableEq T]

theorem ident_step (n : MNet U B T H) (h : ∀ z, (n.st z).identity = z) (l : MLabel U B T H) (z : B) :
    ((n.step l).st z).identity = z := by
  cases l with
  | connect => exact identity_act _ _ _ h z
  | disconnect => exact identity_act _ _ _ h z
  | subscribe => exact identity_act _ _ _ h z
  | unsubscribe => exact identity_act _ _ _ h z
  | startTopic b => simp only [MNet.step]; split <;> exact identity_act n b _ h z
  | startUser b => simp only [MNet.step]; split <;> exact identity_act n b _ h z
  | readDests i => simp only [MNet.step]; split <;> exact h z
  | send i ok =>
    simp only [MNet.step]; split
    · split
      · split
        · exact h z
        · exact identity_act n _ _ h z
      · exact h z
    · exact h z
  | linkUp b b' c c' =>
    simp only [MNet.step]; split
    · exact h z
    · exact identity_act _ b' _ (identity_act n b _ h) z
  | fullTopic => simp only [MNet.step]; split <;> (try split) <;> exact h z
  | fullUser => simp only [MNet.step]; split <;> (try split) <;> exact h z
  | drop b b' => exact identity_act n b _ h z
  | deliver b b' =>
    simp only [MNet.step]; split
    · split
      · exact h z
      · exact identity_act n b' _ h z
      · exact identity_act n b' _ h z
    · exact h z
  | restart b =>
    show (if z = b then Conns.new b else n.st z).identity = z
    split
    · rename_i e; subst e; rfl
    · exact h z

theorem ident_run (ls : List (MLabel U B T H)) (n : MNet U B T H) (h : ∀ z, (n.st z).identity = z) (z : B) :
    ((n.run ls).st z).identity = z := by
  induction ls generalizing n with
  | nil => exact h z
  | cons l ls ih => exact ih (n.step l) (ident_step n h l)

end

/-- Copies of a direct message, one recipient. -/
theorem weight_one {cfg : Cfg B σ} {tab : B → Table B H} {x y : B} {r : Bytes}
    (hx : (tab x).identity = x) (hy : (tab y).identity = y) (hrx : (tab x).getBrokerOfUser r = some y)
    (hry : (tab y).getBrokerOfUser r = some y) (hc : ((tab y).getUserConnection r).isSome = true)
    (hl : x ≠ y → ((tab x).getBrokerConnection y).isSome = true)
    (a u raw payload : Bytes) (hd : cfg.decode raw = some (.direct r payload)) :
    wWire cfg tab u x (.user a) raw = if u = r then 1 else 0 := by
  by_cases hxy : x = y
  · subst hxy
    have : dests cfg (tab x) (.user a) raw = [.user r] := by simp [dests, hd, directDests, hrx, hx]
    by_cases hu : u = r
    · subst hu; simp [wWire, this, wPend, wLast, hc]
    · have hu' : ¬ r = u := fun h => hu h.symm
      simp [wWire, this, wPend, wLast, hu, hu']
  · have hne : ¬ y = x := fun h => hxy h.symm
    have h1 : dests cfg (tab x) (.user a) raw = [.broker y] := by simp [dests, hd, directDests, hrx, hx, hne]
    have h2 : dests cfg (tab y) (.broker x) raw = [.user r] := by simp [dests, hd, directDests, hry, hy]
    by_cases hu : u = r
    · subst hu; simp [wWire, h1, wPend, hl hxy, wB, h2, wLast, hc]
    · have hu' : ¬ r = u := fun h => hu h.symm
      simp [wWire, h1, wPend, hl hxy, wB, h2, wLast, hu, hu']

/-- **C120, partial, with messages.** As in `C120_found_partial`: broker `b` ends, user `r` connects to `y`, and no link of
`y` to a greater broker comes up after that (nor has just come up). A
direct message for `r`, published at `y` or at a broker linked to `y` to which `y` has said everything, is never
received twice and never by anybody else, and once nothing is in flight any more it has been received by `r`. -/
theorem C120_delivered_partial (cfg : Cfg B σ) (hT : Transparent cfg) (r : Bytes) (b y : B) (hd : H) (ts : List Topic)
    (l1 l2 l3 l4 : List (MLabel Bytes B Topic H))
    (hno : ∀ l ∈ l1, ¬ Connects r l)
    (hlinks : ∀ x y, x ≠ y → Linked ((MNet.start : MNet Bytes B Topic H).run l1) x y)
    (hinit : ((MNet.start : MNet Bytes B Topic H).run l1).fullU = [])
    (hturn : InTurn r ((MNet.start : MNet Bytes B Topic H).run l1) l2) (hat : whereabouts r l2 none = some b)
    (hway : NothingUnderWay r ((MNet.start : MNet Bytes B Topic H).run (l1 ++ l2)))
    (hann : ∀ x, ¬ Unannounced r ((MNet.start : MNet Bytes B Topic H).run (l1 ++ l2)) x)
    (h3 : ∀ l ∈ l3, ¬ Connects r l ∧ NoLinkOf b l) (hyb : y ≠ b)
    (hknown : (((MNet.start : MNet Bytes B Topic H).run (l1 ++ l2 ++ .restart b :: l3)).st y).getBrokerOfUser r = some b)
    (hdue : ∀ x, y < x → (x, y) ∉ ((MNet.start : MNet Bytes B Topic H).run (l1 ++ l2 ++ .restart b :: l3)).fullU)
    (h4 : ∀ l ∈ l4, NoLinkOf b l ∧ NoGreaterLink y l ∧ Stays r y l)
    (hlen : 2 * (l1.length + l2.length + 1) < 2 ^ 64)
    (x : B)
    (hx : let m := (MNet.start : MNet Bytes B Topic H).run (l1 ++ l2 ++ .restart b :: l3 ++ .connect y r hd ts :: l4)
      x = y ∨ Linked m y x ∧ UsersSettled m y x)
    (hook : B → Dest B → σ) (ls : List (Label B H)) (hl : ∀ l ∈ ls, Static cfg l) (k : Nat)
    (a raw payload : Bytes) (hdec : cfg.decode raw = some (.direct r payload))
    (honce : ls.filter (publishes k) = [.publish x a k raw]) (u : Bytes) :
    let m := (MNet.start : MNet Bytes B Topic H).run (l1 ++ l2 ++ .restart b :: l3 ++ .connect y r hd ts :: l4)
    let n := (Net.start m.st hook).run cfg ls
    copiesReceived n u k ≤ 1 ∧ (u ≠ r → copiesReceived n u k = 0) ∧
    (Quiescent n → copiesReceived n r k = 1) := by
  intro m n
  have hf := found r b y hd ts l1 l2 l3 l4 hno hlinks hinit hturn hat hway hann h3 hyb hknown hdue h4 hlen
  obtain ⟨hat', hy, hfound, _⟩ := hf
  have hid : ∀ z, (m.st z).identity = z := ident_run _ _ (fun _ => rfl)
  have hrx : (m.st x).getBrokerOfUser r = some y := by
    rcases hx with rfl | ⟨h1, h2⟩
    · exact hy
    · exact hfound x h1 h2
  have hlk : x ≠ y → ((m.st x).getBrokerConnection y).isSome = true := by
    intro hne
    rcases hx with rfl | ⟨h1, _⟩
    · exact absurd rfl hne
    · exact h1.2
  have hw := fun u => weight_one (cfg := cfg) (hid x) (hid y) hrx hy hat' hlk a u raw payload hdec
  have hcon := fun u => conservation cfg hT m.st hook ls hl k x a raw honce u
  refine ⟨?_, ?_, ?_⟩
  · refine Nat.le_trans (hcon u).1 ?_
    rw [hw u]; split <;> omega
  · intro hne
    have h := (hcon u).1
    rw [hw u, if_neg hne] at h
    exact Nat.le_zero.1 h
  · intro hq
    rw [(hcon r).2 hq, hw r, if_pos rfl]

/-! ### A case -/

/-- Both others notice the end of broker 2; broker 1 keeps what it was told of `[7]`. -/
def toyNoticed : List (MLabel Bytes (Fin 3) Topic Nat) := [.drop 0 2, .drop 1 2]

/-- Broker 1 announces that `[7]` has connected there. -/
def toyFound : List (MLabel Bytes (Fin 3) Topic Nat) :=
  [.startUser 1, .readDests 2, .send 2 true, .deliver 1 0]

def toyCrashed : MNet Bytes (Fin 3) Topic Nat :=
  (MNet.start : MNet Bytes (Fin 3) Topic Nat).run (toyLinks ++ toyUsers ++ .restart 2 :: toyNoticed)

def toyMoved : MNet Bytes (Fin 3) Topic Nat :=
  (MNet.start : MNet Bytes (Fin 3) Topic Nat).run
    (toyLinks ++ toyUsers ++ .restart 2 :: toyNoticed ++ .connect 1 [7] 122 [2] :: toyFound)

/-- `[8]`, now at broker 0, writes to `[7]`. -/
def toyWrite : List (Label (Fin 3) Nat) :=
  [.publish 0 [8] 5 [3, 7], .take 0 (.user [8]), .send 0 (.user [8]) true,
   .take 1 (.broker 0), .send 1 (.broker 0) true]

/-- What `C120_delivered_partial` asks for beyond the hypotheses shown to be met in `Props/MeshTurn`, and that broker 0
routed `[7]` to the broker that is gone. -/
example : (∀ l ∈ toyNoticed, ¬ Connects [7] l ∧ NoLinkOf 2 l) ∧
    (toyCrashed.st 1).getBrokerOfUser [7] = some 2 ∧ (toyCrashed.st 0).getBrokerOfUser [7] = some 2 ∧
    (∀ l ∈ toyFound, NoLinkOf 2 l ∧ NoGreaterLink 1 l ∧ Stays [7] 1 l) ∧
    (∀ x, 1 < x → (x, 1) ∉ toyCrashed.fullU) ∧ Linked toyMoved 1 0 ∧ UsersSettled toyMoved 1 0 ∧
    (∀ l ∈ toyWrite, Static toyCfg l) ∧ toyWrite.filter (publishes 5) = [.publish 0 [8] 5 [3, 7]] := by
  refine ⟨?_, by decide +kernel, by decide +kernel, ?_, by decide +kernel,
    ⟨by decide +kernel, by decide +kernel⟩, ⟨by decide +kernel, by decide +kernel, ?_, ?_⟩, ?_, rfl⟩
  · intro l hl
    simp only [toyNoticed, List.mem_cons, List.not_mem_nil, or_false] at hl
    rcases hl with rfl | rfl <;> simp [Connects, NoLinkOf]
  · intro l hl
    simp only [toyFound, List.mem_cons, List.not_mem_nil, or_false] at hl
    rcases hl with rfl | rfl | rfl | rfl <;> simp [Connects, NoLinkOf, NoGreaterLink, Stays]
  · have : ∀ τ ∈ toyMoved.tasks, τ.here = 1 → τ.dests = some [] := by decide +kernel
    intro τ hτ h1 _
    exact ⟨[], this τ hτ h1, by simp⟩
  · have : toyMoved.ch 1 0 = [] := List.isEmpty_iff.1 (by decide +kernel)
    rw [this]; simp
  · intro l hl
    simp only [toyWrite, List.mem_cons, List.not_mem_nil, or_false] at hl
    rcases hl with rfl | rfl | rfl | rfl | rfl
    all_goals first | rfl | trivial

/-- Before the announcement the message goes nowhere, afterwards it reaches `[7]` once; nothing is in flight. -/
example : let n := (Net.start toyMoved.st (fun _ _ => 0)).run toyCfg toyWrite
    let n' := (Net.start toyCrashed.st (fun _ _ => 0)).run toyCfg toyWrite
    n.wire.length = 0 ∧ n.pend.length = 0 ∧ copiesReceived n [7] 5 = 1 ∧ copiesReceived n [8] 5 = 0 ∧
    n'.wire.length = 0 ∧ n'.pend.length = 0 ∧ copiesReceived n' [7] 5 = 0 := by decide +kernel

end Verif.Props.MeshFound

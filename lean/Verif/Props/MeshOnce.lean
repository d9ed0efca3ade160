import Verif.Props.MeshBack

/-!
# Properties C73 and C74: a user who connects once, while links come and go
-/

set_option linter.unusedSectionVars false

namespace Verif.Props.MeshOnce
open Verif Verif.Conns Verif.MNet Verif.Props.Mesh Verif.Props.MeshUsers Verif.Props.MeshTurn
  Verif.Props.MeshCrash Verif.Props.MeshFailover Verif.Props.MeshBack

variable {U B T H : Type} [DecidableEq U] [DecidableEq B] [DecidableEq T] [DecidableEq H]
  [LT B] [DecidableLT B]

theorem dident_step (n : MNet U B T H) (h : ∀ z, (n.st z).direct.ident = z) (l : MLabel U B T H) (z : B) :
    ((n.step l).st z).direct.ident = z := by
  cases l with
  | connect => exact dident_act _ _ _ h z
  | disconnect => exact dident_act _ _ _ h z
  | subscribe => exact dident_act _ _ _ h z
  | unsubscribe => exact dident_act _ _ _ h z
  | startTopic b => simp only [MNet.step]; split <;> exact dident_act n b _ h z
  | startUser b => simp only [MNet.step]; split <;> exact dident_act n b _ h z
  | readDests i => simp only [MNet.step]; split <;> exact h z
  | send i ok =>
    simp only [MNet.step]; split
    · split
      · split
        · exact h z
        · exact dident_act n _ _ h z
      · exact h z
    · exact h z
  | linkUp b b' c c' =>
    simp only [MNet.step]; split
    · exact h z
    · exact dident_act _ b' _ (dident_act n b _ h) z
  | fullTopic => simp only [MNet.step]; split <;> (try split) <;> exact h z
  | fullUser => simp only [MNet.step]; split <;> (try split) <;> exact h z
  | drop b b' => exact dident_act n b _ h z
  | deliver b b' =>
    simp only [MNet.step]; split
    · split
      · exact h z
      · exact dident_act n b' _ h z
      · exact dident_act n b' _ h z
    · exact h z
  | restart b =>
    show (if z = b then Conns.new b else n.st z).direct.ident = z
    split
    · rename_i e; subst e; rfl
    · exact h z

theorem dident_run (ls : List (MLabel U B T H)) (n : MNet U B T H) (h : ∀ z, (n.st z).direct.ident = z) (z : B) :
    ((n.run ls).st z).direct.ident = z := by
  induction ls generalizing n with
  | nil => exact h z
  | cons l ls ih => exact ih (n.step l) (dident_step n h l)

/-- The user's first connection. -/
theorem known_connect {n : MNet U B T H} {u : U} (h : Unknown n u) (hdid : ∀ z, (n.st z).direct.ident = z)
    (hirr : ∀ x, (n.st x).brokers.get x = none) (y : B) (hfull : ∀ x, y < x → (x, y) ∉ n.fullU) (hd : H) (ts : List T) :
    Known (n.step (.connect y u hd ts)) y u 0 := by
  have hview : UNet.view ((n.st y).step (.addUser u hd ts)) u = ⟨new y 0, true, true⟩ := by
    show UNet.view ((n.st y).addUser u hd ts) u = _
    rw [UNet.view_addUser, h.tab, h.ident]
    simp [UNet.addV, UNet.nextVer]
  have hk0 : ∀ a z, (n.st a).brokers.get z = none → ((n.step (.connect y u hd ts)).st a).brokers.get z = none := by
    intro a z h0
    refine Classical.byContradiction fun h1 => ?_
    revert h1
    show ((n.act y (.addUser u hd ts)).st a).brokers.get z ≠ none → _
    rw [st_act]; split
    · rename_i e; subst e; exact fun h1 => (known_call _ (.addUser u hd ts) trivial z).1 h1 h0
    · exact fun h1 => h1 h0
  have hst : ∀ a, a ≠ y → (n.step (.connect y u hd ts)).st a = n.st a := fun a ha => st_act_ne _ _ _ ha
  have hsty : (n.step (.connect y u hd ts)).st y = (n.st y).step (.addUser u hd ts) := st_act_self _ _ _
  refine ⟨identity_act n y _ h.ident, dident_act n y _ hdid, fun a => hk0 _ _ (hirr a),
    ⟨true, by rw [hsty]; exact hview⟩, fun x hx => by rw [hst x hx]; exact Or.inl (h.tab x), ?_,
    fun τ hτ => Or.inl (h.task τ hτ), fun x z m hm => Or.inl (h.ch x z m hm), ?_⟩
  · intro p hp e hlt
    obtain ⟨p1, p2⟩ := p
    simp only at e hlt
    subst e
    exact hfull p1 hlt hp
  · intro x _ _ _
    right; left
    rw [hsty, hview]

/-- The invariant after a user's only connection. -/
theorem once_known (u : U) (y : B) (hd : H) (ts : List T) (l1 l2 : List (MLabel U B T H))
    (hno : ∀ l ∈ l1, ¬ Connects u l)
    (hdue : ∀ x, y < x → (x, y) ∉ ((start : MNet U B T H).run l1).fullU)
    (h2 : ∀ l ∈ l2, NoGreaterLink y l ∧ Stays u y l) (hlen : 2 * l1.length < 2 ^ 64) :
    Known ((start : MNet U B T H).run (l1 ++ .connect y u hd ts :: l2)) y u 0 := by
  have hunk := unknown_run l1 _ (unknown_start (U := U) (B := B) (T := T) (H := H) u) hno
  have hirr := (MNet.inv_run (inv_start (U := U) (B := B) (T := T) (H := H)) l1 (by omega)).irrefl
  have hdid := dident_run l1 (start : MNet U B T H) (fun _ => rfl)
  rw [Mesh.run_append]
  exact known_run l2 _ (known_connect hunk hdid hirr y hdue hd ts) h2

/-- **C73, partial.** A user connects once, to broker `y`. Before that anything happens (`l1`), but no initial user sync
of a broker greater than `y` is due to `y`; after that (`l2`) links come and go, but no link of `y` to a greater broker
comes up. Then the user stays connected until their connection ends or the broker is restarted. Links to greater
brokers that are up already, and links of the others, are free. Missing: new links to greater brokers, for which the
claim is false (`C73_false`). -/
theorem C73_lesser_links_partial (u : U) (y : B) (hd : H) (ts : List T) (l1 l2 : List (MLabel U B T H))
    (hno : ∀ l ∈ l1, ¬ Connects u l)
    (hdue : ∀ x, y < x → (x, y) ∉ ((start : MNet U B T H).run l1).fullU)
    (h2 : ∀ l ∈ l2, NoGreaterLink y l ∧ ¬ Connects u l ∧ l ≠ .disconnect y u ∧ l ≠ .restart y)
    (hlen : 2 * l1.length < 2 ^ 64) :
    At ((start : MNet U B T H).run (l1 ++ .connect y u hd ts :: l2)) y u :=
  (known_concl (once_known u y hd ts l1 l2 hno hdue h2 hlen)).1

/-- **C74, partial.** In the same situation every broker linked to `y` to which `y` has said everything routes the user
to `y`, whatever links have failed and come back; everybody routes the user to `y` or to nobody, and nobody else has the
user connected. Missing: users who connect elsewhere, or leave, while links come and go (`C74_false`); new links of `y`
to greater brokers (`C73_false`). -/
theorem C74_once_partial (u : U) (y : B) (hd : H) (ts : List T) (l1 l2 : List (MLabel U B T H))
    (hno : ∀ l ∈ l1, ¬ Connects u l)
    (hdue : ∀ x, y < x → (x, y) ∉ ((start : MNet U B T H).run l1).fullU)
    (h2 : ∀ l ∈ l2, NoGreaterLink y l ∧ ¬ Connects u l ∧ l ≠ .disconnect y u ∧ l ≠ .restart y)
    (hlen : 2 * l1.length < 2 ^ 64) :
    let n := (start : MNet U B T H).run (l1 ++ .connect y u hd ts :: l2)
    (∀ x, At n x u ↔ x = y) ∧ (n.st y).getBrokerOfUser u = some y ∧
    (∀ x, Linked n y x → UsersSettled n y x → (n.st x).getBrokerOfUser u = some y) ∧
    ∀ x, (n.st x).getBrokerOfUser u = some y ∨ (n.st x).getBrokerOfUser u = none := by
  intro n
  have h := once_known u y hd ts l1 l2 hno hdue h2 hlen
  change Known n y u 0 at h
  obtain ⟨c1, c2, c3, c4⟩ := known_concl h
  refine ⟨fun x => ⟨fun hx => ?_, by rintro rfl; exact c1⟩, c2, c3, c4⟩
  refine Classical.byContradiction fun hne => ?_
  have hx' : (UNet.view (n.st x) u).c = true := hx
  rcases h.atO x hne with h1 | h1 <;> rw [h1] at hx' <;> cases hx'

/-! ### A case

Three brokers, all linked; user 7 connects to broker 1. Broker 1's link to broker 0 fails before broker 0 is told, and
comes back, twice; broker 2, greater than broker 1, tells broker 0 first, and broker 0 tells broker 1. Broker 2 is
restarted and linked to broker 0 only. -/

def demoComeAndGo : List (MLabel Nat (Fin 3) Nat Nat) :=
  [.drop 1 0, .drop 0 1, .startUser 1, .readDests 4, .send 4 true, .deliver 1 2, .drop 2 0, .drop 0 2,
   .linkUp 0 2 120 121, .fullUser 2 0, .send 5 true, .deliver 2 0, .linkUp 0 1 122 123, .fullUser 0 1, .send 6 true,
   .deliver 0 1, .fullUser 1 0, .drop 0 1, .drop 1 0, .linkUp 1 0 124 125, .fullUser 1 0, .send 7 true, .send 8 true,
   .deliver 1 0, .deliver 1 0, .fullUser 1 0, .send 9 true, .deliver 1 0, .restart 2, .linkUp 0 2 126 127]

def demoCame : MNet Nat (Fin 3) Nat Nat :=
  (start : MNet Nat (Fin 3) Nat Nat).run (demoLinks ++ .connect 1 7 110 [] :: demoComeAndGo)

example : (∀ l ∈ demoLinks, ¬ Connects 7 l) ∧
    (∀ x, 1 < x → (x, 1) ∉ ((start : MNet Nat (Fin 3) Nat Nat).run demoLinks).fullU) ∧
    (∀ l ∈ demoComeAndGo, NoGreaterLink 1 l ∧ ¬ Connects 7 l ∧ l ≠ .disconnect 1 7 ∧ l ≠ .restart 1) ∧
    Linked demoCame 1 0 ∧ UsersSettled demoCame 1 0 ∧ (demoCame.st 0).getBrokerOfUser 7 = some 1 := by
  refine ⟨?_, by decide +kernel, ?_, ⟨by decide +kernel, by decide +kernel⟩,
    ⟨by decide +kernel, by decide +kernel, ?_, ?_⟩, by decide +kernel⟩
  · intro l hl
    simp only [demoLinks, List.mem_cons, List.not_mem_nil, or_false] at hl
    rcases hl with rfl | rfl | rfl | rfl | rfl | rfl | rfl | rfl | rfl | rfl | rfl | rfl | rfl | rfl | rfl | rfl | rfl <;>
      simp [Connects]
  · intro l hl
    simp only [demoComeAndGo, List.mem_cons, List.not_mem_nil, or_false] at hl
    rcases hl with rfl | rfl | rfl | rfl | rfl | rfl | rfl | rfl | rfl | rfl | rfl | rfl | rfl | rfl | rfl | rfl | rfl |
      rfl | rfl | rfl | rfl | rfl | rfl | rfl | rfl | rfl | rfl | rfl | rfl | rfl <;> simp [Connects, NoGreaterLink]
  · have : ∀ τ ∈ demoCame.tasks, τ.here = 1 → τ.dests = some [] := by decide +kernel
    intro τ hτ h1 _
    exact ⟨[], this τ hτ h1, by simp⟩
  · have : demoCame.ch 1 0 = [] := List.isEmpty_iff.1 (by decide +kernel)
    rw [this]; simp

end Verif.Props.MeshOnce

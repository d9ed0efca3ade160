import Verif.Props.MeshEpochs

/-!
# Property C124: a broker that joins learns where the users are
-/

set_option linter.unusedSectionVars false

namespace Verif.Props.MeshJoin
open Verif Verif.Conns Verif.MNet Verif.Props.Mesh Verif.Props.MeshUsers Verif.Props.MeshTurn
  Verif.Props.MeshCrash Verif.Props.MeshFailover Verif.Props.MeshBack Verif.Props.MeshOnce
  Verif.Props.MeshEpochs

variable {U B T H : Type} [DecidableEq U] [DecidableEq B] [DecidableEq T] [DecidableEq H]
  [LT B] [DecidableLT B]

/-! ## Specification -/

/-- User `u` is connected to `y`, and to nobody else. All brokers but `x` have the same entry about them, which says so;
`x` is linked to nobody and has never heard of the user. Nothing about the user is unannounced or under way, and no
initial sync is due. -/
structure Before (n : MNet U B T H) (x y : B) (u : U) : Prop where
  other : x ≠ y
  only : ∀ b, At n b u ↔ b = y
  same : ∃ v, ∀ b, b ≠ x → (n.st b).direct.map.get u = some ⟨v + 1, some y⟩
  fresh : (n.st x).direct.map.get u = none
  alone : ∀ b, n.knows x b = false ∧ n.knows b x = false
  quiet : NothingUnderWay u n
  told : ∀ b, ¬ Unannounced u n b
  initial : n.fullU = []

/-- Every sync of a broker is sent to everybody it is for before the broker starts the next. -/
def Orderly : MNet U B T H → List (MLabel U B T H) → Prop
  | _, [] => True
  | n, l :: ls =>
    (match l with
     | .startUser b => ∀ τ ∈ n.tasks, τ.here = b → τ.dests = some []
     | .fullUser b _ => ∀ τ ∈ n.tasks, τ.here = b → τ.dests = some []
     | _ => True) ∧ Orderly (n.step l) ls

/-- All brokers are linked, and nothing about users is left to be said. -/
def AllSaid (n : MNet U B T H) : Prop := ∀ b b', b ≠ b' → Linked n b b' ∧ UsersSettled n b b'

/-- The claim of C124: a broker `x` joins a mesh in which everybody knows that user `u` is at `y`; no link fails, each
broker's syncs are sent in order, and `u` does not connect again. Once all are linked and everything is said, `x` forwards
messages for `u` to `y` if the user is still there, and only then. -/
def JoinLearns (U B T H : Type) [DecidableEq U] [DecidableEq B] [DecidableEq T] [DecidableEq H]
    [LT B] [DecidableLT B] : Prop :=
  ∀ (l1 l2 : List (MLabel U B T H)) (x y : B) (u : U),
    Before ((start : MNet U B T H).run l1) x y u →
    NoLinkFails l2 → Orderly ((start : MNet U B T H).run l1) l2 → (∀ l ∈ l2, ¬ Connects u l) →
    AllSaid ((start : MNet U B T H).run (l1 ++ l2)) →
    ((((start : MNet U B T H).run (l1 ++ l2)).st x).getBrokerOfUser u = some y ↔
      At ((start : MNet U B T H).run (l1 ++ l2)) y u)

/-! ## The claim is false -/

section
variable {U T H : Type} [DecidableEq U] [DecidableEq T] [DecidableEq H]

/-- `AllSaid`, as a computation. -/
def allSaidB (n : MNet U (Fin 3) T H) : Bool :=
  ((List.finRange 3).all fun b => (List.finRange 3).all fun b' => b == b' || (n.knows b b' && n.knows b' b &&
    (n.st b).getPartialUserSync.2.isNone && (n.ch b b').isEmpty)) &&
  n.fullU.isEmpty && n.tasks.all (fun τ => τ.dests == some [])

theorem allSaidB_sound (n : MNet U (Fin 3) T H) (h : allSaidB n = true) : AllSaid n := by
  simp only [allSaidB, Bool.and_eq_true, List.all_eq_true, List.mem_finRange, forall_const, Bool.or_eq_true, beq_iff_eq,
    Option.isNone_iff_eq_none, List.isEmpty_iff] at h
  obtain ⟨⟨h1, h2⟩, h3⟩ := h
  intro b b' hne
  rcases h1 b b' with e | ⟨⟨⟨k1, k2⟩, k3⟩, k4⟩
  · exact absurd e hne
  · exact ⟨⟨k1, k2⟩, k3, by rw [h2]; simp, fun τ hτ _ _ => ⟨[], h3 τ hτ, by simp⟩, by rw [k4]; simp⟩

/-- `Orderly`, as a computation. -/
def orderlyB : MNet U (Fin 3) T H → List (MLabel U (Fin 3) T H) → Bool
  | _, [] => true
  | n, l :: ls =>
    (match l with
     | .startUser b => n.tasks.all fun τ => τ.here != b || τ.dests == some []
     | .fullUser b _ => n.tasks.all fun τ => τ.here != b || τ.dests == some []
     | _ => true) && orderlyB (n.step l) ls

theorem orderlyB_sound (ls : List (MLabel U (Fin 3) T H)) (n : MNet U (Fin 3) T H) (h : orderlyB n ls = true) :
    Orderly n ls := by
  induction ls generalizing n with
  | nil => trivial
  | cons l ls ih =>
    simp only [orderlyB, Bool.and_eq_true] at h
    refine ⟨?_, ih _ h.2⟩
    have h1 := h.1
    cases l <;> first
      | trivial
      | (intro τ hτ e
         have := List.all_eq_true.1 h1 τ hτ
         simpa [e] using this)

end

/-- Brokers 0 and 2 are linked, user 7 is at broker 2, and broker 0 has been told. -/
def beforeJoin : List (MLabel Nat (Fin 3) Nat Nat) :=
  [.linkUp 0 2 100 101, .fullUser 0 2, .fullUser 2 0, .connect 2 7 102 [], .startUser 2, .readDests 0, .send 0 true,
   .deliver 2 0]

/-- Broker 1 joins. Broker 0's initial sync, which says that the user is at broker 2, is sent but not handled yet. Broker 2's
initial sync is handled; the user leaves, broker 2 tells both, and both forget the user. Then broker 1 handles broker 0's
initial sync. -/
def joins : List (MLabel Nat (Fin 3) Nat Nat) :=
  [.linkUp 1 2 103 104, .linkUp 1 0 105 106, .fullUser 1 0, .fullUser 1 2, .fullUser 0 1, .send 1 true,
   .fullUser 2 1, .send 2 true, .deliver 2 1, .disconnect 2 7, .startUser 2, .readDests 3, .send 3 true, .send 3 true,
   .deliver 2 1, .deliver 2 0, .deliver 0 1]

/-- Later the user connects to broker 0, which tells both others. -/
def returns : List (MLabel Nat (Fin 3) Nat Nat) :=
  [.connect 0 7 107 [], .startUser 0, .readDests 4, .send 4 true, .send 4 true, .deliver 0 1, .deliver 0 2]

theorem before_join : Before ((start : MNet Nat (Fin 3) Nat Nat).run beforeJoin) 1 2 7 where
  other := by decide
  only := by unfold At; decide +kernel
  same := ⟨0, by decide +kernel⟩
  fresh := by decide +kernel
  alone := by decide +kernel
  quiet := nothingB_sound _ _ (by decide +kernel)
  told := by unfold Unannounced; decide +kernel
  initial := by decide +kernel

theorem joins_fine (l : MLabel Nat (Fin 3) Nat Nat) (hl : l ∈ joins ++ returns) :
    (∀ b b', l ≠ .drop b b') ∧ (∀ i, l ≠ .send i false) ∧ ∀ b, l ≠ .restart b := by
  simp only [joins, returns, List.cons_append, List.nil_append, List.mem_cons, List.not_mem_nil, or_false] at hl
  rcases hl with rfl | rfl | rfl | rfl | rfl | rfl | rfl | rfl | rfl | rfl | rfl | rfl | rfl | rfl | rfl | rfl | rfl |
    rfl | rfl | rfl | rfl | rfl | rfl | rfl <;> simp

theorem joins_nobody (l : MLabel Nat (Fin 3) Nat Nat) (hl : l ∈ joins) : ¬ Connects 7 l := by
  simp only [joins, List.mem_cons, List.not_mem_nil, or_false] at hl
  rcases hl with rfl | rfl | rfl | rfl | rfl | rfl | rfl | rfl | rfl | rfl | rfl | rfl | rfl | rfl | rfl | rfl | rfl <;>
    exact id

/-- **C124 does not hold**: after `joins` the new broker has the user at broker 2, which the user has left; nothing is left
to be said, so this stays so. -/
theorem C124_false : ¬ JoinLearns Nat (Fin 3) Nat Nat := by
  intro h
  have := h beforeJoin joins 1 2 7 before_join (fun l hl => joins_fine l (by simp [hl]))
    (orderlyB_sound _ _ (by decide +kernel)) joins_nobody (allSaidB_sound _ (by decide +kernel))
  unfold At at this
  exact absurd this (by decide +kernel)

/-- **C124, the consequence.** From the same state, in which everything is said, the user connects to broker 0, which tells
both others: no link has failed, each broker's syncs were sent in order, everything is said again, the user is at broker 0 —
and the broker that joined still forwards their messages to broker 2, which is not where they are. -/
theorem C124_unreachable : ∃ (l1 l2 l3 : List (MLabel Nat (Fin 3) Nat Nat)) (x y z : Fin 3) (u : Nat),
    Before ((start : MNet Nat (Fin 3) Nat Nat).run l1) x y u ∧
    NoLinkFails (l2 ++ l3) ∧ Orderly ((start : MNet Nat (Fin 3) Nat Nat).run l1) (l2 ++ l3) ∧
    AllSaid ((start : MNet Nat (Fin 3) Nat Nat).run (l1 ++ l2)) ∧
    (∀ b, ¬ At ((start : MNet Nat (Fin 3) Nat Nat).run (l1 ++ l2)) b u) ∧
    l3.head? = some (.connect z u 107 []) ∧
    AllSaid ((start : MNet Nat (Fin 3) Nat Nat).run (l1 ++ (l2 ++ l3))) ∧
    (∀ b, At ((start : MNet Nat (Fin 3) Nat Nat).run (l1 ++ (l2 ++ l3))) b u ↔ b = z) ∧
    z ≠ y ∧ (((start : MNet Nat (Fin 3) Nat Nat).run (l1 ++ (l2 ++ l3))).st x).getBrokerOfUser u = some y := by
  refine ⟨beforeJoin, joins, returns, 1, 2, 0, 7, before_join, joins_fine, orderlyB_sound _ _ (by decide +kernel),
    allSaidB_sound _ (by decide +kernel), ?_, rfl, allSaidB_sound _ (by decide +kernel), ?_, by decide, by decide +kernel⟩
  · unfold At; decide +kernel
  · unfold At; decide +kernel

/-! ## The part that holds -/

theorem before_known {n : MNet U B T H} {x y : B} {u : U} (h : Before n x y u)
    (hid : ∀ z, (n.st z).identity = z) (hdid : ∀ z, (n.st z).direct.ident = z)
    (hirr : ∀ z, (n.st z).brokers.get z = none) :
    ∃ v, Known n y u v ∧ (n.st y).direct.map.get u = some ⟨v + 1, some y⟩ := by
  obtain ⟨v, hv⟩ := h.same
  have hc : ∀ b, b ≠ y → ((n.st b).users.get u).isSome = false := by
    intro b hb
    have := mt (h.only b).1 hb
    exact Bool.eq_false_iff.2 this
  have hm : ∀ b, decide (u ∈ (n.st b).direct.modified) = false := fun b => decide_eq_false (h.told b)
  refine ⟨v, ⟨hid, hdid, hirr, ⟨false, ?_⟩, ?_, ?_, ?_, ?_, ?_⟩, hv y h.other.symm⟩
  · show UNet.View.mk _ _ _ = _
    rw [hv y h.other.symm, hm]
    have : ((n.st y).users.get u).isSome = true := (h.only y).2 rfl
    rw [this]
  · intro b hb
    unfold UNet.view
    rw [hm, hc b hb]
    by_cases e : b = x
    · subst e; rw [h.fresh]; exact Or.inl rfl
    · rw [hv b e]; exact Or.inr rfl
  · rw [h.initial]; intro p hp; exact absurd hp List.not_mem_nil
  · intro τ hτ
    rcases h.quiet.2 τ hτ with h1 | h1
    · exact Or.inl h1
    · exact Or.inr (Or.inl h1)
  · intro a b m hm'; exact Or.inl (h.quiet.1 a b m hm')
  · intro b hb k1 _
    left
    have hne : b ≠ x := by
      rintro rfl
      have := (knows_iff n y b).2 k1
      rw [(h.alone y).2] at this
      cases this
    exact hv b hne

/-- **C124, partial.** A broker `x` joins a mesh in which everybody knows that user `u` is at `y`, and then anything
happens, with links that come and go, restarts of others and syncs in any order, except that the user stays and no
new link of `y` to a greater broker comes up. Then the user remains connected to `y` and to nobody else, `x` forwards their messages to
`y` or has not heard of them, and it does forward them as soon as it is linked to `y` and `y` has said everything to it;
the same holds of all others. Missing: users who leave while the broker joins (`C124_false`), and a joining broker greater
than `y` (`C73_false`). -/
theorem C124_stays_partial (l1 l2 : List (MLabel U B T H)) (x y : B) (u : U)
    (hb : Before ((start : MNet U B T H).run l1) x y u)
    (h2 : ∀ l ∈ l2, NoGreaterLink y l ∧ ¬ Connects u l ∧ l ≠ .disconnect y u ∧ l ≠ .restart y)
    (hlen : 2 * l1.length < 2 ^ 64) :
    let n := (start : MNet U B T H).run (l1 ++ l2)
    (∀ b, At n b u ↔ b = y) ∧
    (∀ b, (n.st b).getBrokerOfUser u = some y ∨ (n.st b).getBrokerOfUser u = none) ∧
    ∀ b, Linked n y b → UsersSettled n y b → (n.st b).getBrokerOfUser u = some y := by
  intro n
  have hirr := (MNet.inv_run (inv_start (U := U) (B := B) (T := T) (H := H)) l1 (by omega)).irrefl
  obtain ⟨v, hk, _⟩ := before_known hb (MeshFound.ident_run l1 (start : MNet U B T H) (fun _ => rfl))
    (MeshOnce.dident_run l1 (start : MNet U B T H) (fun _ => rfl)) hirr
  have h : Known n y u v := by
    show Known ((start : MNet U B T H).run (l1 ++ l2)) y u v
    rw [Mesh.run_append]
    exact known_run l2 _ hk h2
  obtain ⟨c1, _, c3, c4⟩ := known_concl h
  refine ⟨fun b => ⟨fun hx => ?_, by rintro rfl; exact c1⟩, c4, c3⟩
  refine Classical.byContradiction fun hne => ?_
  have hx' : (UNet.view (n.st b) u).c = true := hx
  rcases h.atO b hne with h1 | h1 <;> rw [h1] at hx' <;> cases hx'

/-- **C124, partial.** As before, broker `x` joins a mesh in which everybody knows that user `u` is at `y`; the history from
then on is a sequence of epochs: the user stays until `x` and all others are linked and everything about the user is said; then they move and
leave, any number of times, each change announced before the next, with links that come and go in between; in the end, links
come and go (`c`). Then the user is connected exactly where the history puts them, the new broker, like all others, routes
them there or nowhere, and it does route them there if it is linked to that broker and has been told everything, or all are linked
and everything about the user is said. -/
theorem C124_then_moves_partial (l1 : List (MLabel U B T H)) (es : List (List (MLabel U B T H) × List (MLabel U B T H)))
    (c : List (MLabel U B T H)) (x y : B) (u : U)
    (hb : Before ((start : MNet U B T H).run l1) x y u)
    (hes : Epochs u ((start : MNet U B T H).run l1) (some y) es) (hc : Calm u (whereabouts u (flat es) (some y)) c)
    (hlen : 2 * (l1.length + (flat es).length) + 2 < 2 ^ 64)
    (hver : ∀ e, (((start : MNet U B T H).run l1).st y).direct.map.get u = some e → e.version + (flat es).length < 2 ^ 64) :
    let n := (start : MNet U B T H).run (l1 ++ (flat es ++ c))
    let loc := whereabouts u (flat es ++ c) (some y)
    (∀ b, At n b u ↔ loc = some b) ∧
    (∀ b, (n.st b).getBrokerOfUser u = loc ∨ (n.st b).getBrokerOfUser u = none) ∧
    (∀ y x, loc = some y → Linked n y x → UsersSettled n y x → (n.st x).getBrokerOfUser u = some y) ∧
    (Ready u n → ∀ b, (n.st b).getBrokerOfUser u = loc) := by
  intro n loc
  have hirr := (MNet.inv_run (inv_start (U := U) (B := B) (T := T) (H := H)) l1 (by omega)).irrefl
  obtain ⟨v, hk, hv⟩ := before_known hb (MeshFound.ident_run l1 (start : MNet U B T H) (fun _ => rfl))
    (MeshOnce.dident_run l1 (start : MNet U B T H) (fun _ => rfl)) hirr
  have hvv := hver _ hv
  simp only at hvv
  have h1 := epochs_run y es l1 (some y) v ⟨v, Nat.le_refl _, hk⟩ hes hlen (by omega)
  have h2 := between_calm h1 c hc
  rw [← Mesh.run_append] at h2
  have hloc : loc = whereabouts u (flat es) (some y) := by
    show whereabouts u (flat es ++ c) (some y) = _
    rw [whereabouts_append, whereabouts_calm u c _ hc]
  rw [← hloc, List.append_assoc] at h2
  exact between_concl h2

/-! ### A case

Broker 1 joins as before, its link to broker 2 fails and comes back, and the user stays; in the end broker 1
repeats to broker 2 what it was told. -/

def joinsStays : List (MLabel Nat (Fin 3) Nat Nat) :=
  [.linkUp 1 2 103 104, .linkUp 1 0 105 106, .fullUser 0 1, .fullUser 2 1, .drop 2 1, .drop 1 2, .send 1 true,
   .linkUp 2 1 107 108, .fullUser 1 2, .fullUser 2 1, .fullUser 1 0, .send 2 true, .send 3 true, .deliver 2 1, .deliver 0 1,
   .deliver 2 1, .fullUser 1 2, .send 4 true, .deliver 1 2]

example (l : MLabel Nat (Fin 3) Nat Nat) (hl : l ∈ joinsStays) :
    NoGreaterLink 2 l ∧ ¬ Connects 7 l ∧ l ≠ .disconnect 2 7 ∧ l ≠ .restart 2 := by
  simp only [joinsStays, List.mem_cons, List.not_mem_nil, or_false] at hl
  rcases hl with rfl | rfl | rfl | rfl | rfl | rfl | rfl | rfl | rfl | rfl | rfl | rfl | rfl | rfl | rfl | rfl | rfl | rfl | rfl <;>
    refine ⟨?_, id, by simp, by simp⟩ <;> first | trivial | (unfold NoGreaterLink; decide)

example : AllSaid ((start : MNet Nat (Fin 3) Nat Nat).run (beforeJoin ++ joinsStays)) ∧
    ∀ b, (((start : MNet Nat (Fin 3) Nat Nat).run (beforeJoin ++ joinsStays)).st b).getBrokerOfUser 7 = some 2 :=
  ⟨allSaidB_sound _ (by decide +kernel), by decide +kernel⟩

/-- Before anything is handled broker 1 has not heard of the user. -/
example : (((start : MNet Nat (Fin 3) Nat Nat).run (beforeJoin ++ joinsStays.take 13)).st 1).getBrokerOfUser 7 = none := by
  decide +kernel

/-- After that the user moves to broker 1, the one that joined. -/
def movesThere : List (MLabel Nat (Fin 3) Nat Nat) :=
  [.connect 1 7 110 [], .startUser 1, .readDests 5, .send 5 true, .send 5 true, .deliver 1 0, .deliver 1 2]

theorem join_epochs : Epochs 7 ((start : MNet Nat (Fin 3) Nat Nat).run beforeJoin) (some 2) [(joinsStays, movesThere)] := by
  refine ⟨calmB_sound _ _ _ (by decide +kernel), ⟨?_, by decide +kernel, nothingB_sound _ _ (by decide +kernel), ?_⟩,
    inTurnB_sound _ _ _ (by decide +kernel), nothingB_sound _ _ (by decide +kernel), ?_, trivial⟩
  · unfold Linked; decide +kernel
  · unfold Unannounced; decide +kernel
  · unfold Unannounced; decide +kernel

example : whereabouts 7 (flat [(joinsStays, movesThere)] ++ [.drop 0 2]) (some 2) = some 1 ∧
    ∀ b, (((start : MNet Nat (Fin 3) Nat Nat).run (beforeJoin ++ (flat [(joinsStays, movesThere)] ++ [.drop 0 2]))).st
      b).direct.map.get 7 = some ⟨2, some 1⟩ := by
  decide +kernel

end Verif.Props.MeshJoin

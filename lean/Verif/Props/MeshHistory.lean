import Verif.Props.MeshEpochsDirect

/-!
# Property C126: users who move, while links fail and brokers crash, their own included
-/

set_option linter.unusedSectionVars false

namespace Verif.Props.MeshHistory
open Verif Verif.Conns Verif.MNet Verif.Props.Mesh Verif.Props.MeshUsers Verif.Props.MeshTurn
  Verif.Props.MeshCrash Verif.Props.MeshFailover Verif.Props.MeshBack Verif.Props.MeshOnce Verif.Props.MeshEpochs

section
variable {U B T H : Type} [DecidableEq U] [DecidableEq B] [DecidableEq T] [DecidableEq H]
  [LT B] [DecidableLT B]

/-! ## Specification -/

/-- A part of the history of a user. -/
inductive Part (U B T H : Type) where
  /-- the user stays where they are -/
  | calm (ls : List (MLabel U B T H))
  /-- the user connects, moves and leaves -/
  | moves (ls : List (MLabel U B T H))
  /-- the user's broker `b` crashes and is started again, `l1` happens, the user connects to `y`, `l2` happens -/
  | crash (b : B) (l1 : List (MLabel U B T H)) (y : B) (h : H) (ts : List T) (l2 : List (MLabel U B T H))

/-- What happens in a part. -/
def Part.labels (u : U) : Part U B T H → List (MLabel U B T H)
  | .calm ls => ls
  | .moves ls => ls
  | .crash b l1 y h ts l2 => .restart b :: l1 ++ .connect y u h ts :: l2

/-- What happens in all parts. -/
def labels (u : U) (ps : List (Part U B T H)) : List (MLabel U B T H) := ps.flatMap (Part.labels u)

/-- The parts of a history, from a state where the user is at `loc`.
* `calm`: links come and go, but no new link of the user's broker to a greater one comes up; brokers other than the
  user's are restarted.
* `moves`: when it begins all brokers are linked and everything about the user is said; links are stable, each change of
  the user is announced before the next; when it ends everything about the user is said.
* `crash`: at any time. The broker that crashed is not linked to anybody until nobody says any more that the user is there. The user
  connects to a broker that remembers where they were, and stays; no new link of it to a greater one comes up. -/
def History (u : U) : MNet U B T H → Option B → List (Part U B T H) → Prop
  | _, _, [] => True
  | n, loc, .calm ls :: ps => Calm u loc ls ∧ History u (n.run ls) loc ps
  | n, loc, .moves ls :: ps =>
    Ready u n ∧ InTurn u n ls ∧ NothingUnderWay u (n.run ls) ∧ (∀ b, ¬ Unannounced u (n.run ls) b) ∧
    History u (n.run ls) (whereabouts u ls loc) ps
  | n, loc, .crash b l1 y h ts l2 :: ps =>
    loc = some b ∧ y ≠ b ∧ (∀ l ∈ l1, ¬ Connects u l ∧ NoLinkOf b l) ∧
    ((n.run (.restart b :: l1)).st y).getBrokerOfUser u = some b ∧
    (∀ x, y < x → (x, y) ∉ (n.run (.restart b :: l1)).fullU) ∧
    (∀ l ∈ l2, NoLinkOf b l ∧ NoGreaterLink y l ∧ Stays u y l) ∧
    NobodySays (n.run (.restart b :: l1 ++ .connect y u h ts :: l2)) u b ∧
    History u (n.run (.restart b :: l1 ++ .connect y u h ts :: l2)) (some y) ps

/-! ## Proof -/

/-- The user's broker crashes. -/
theorem moved_of_known {n : MNet U B T H} {b : B} {u : U} {w : Nat} (h : Known n b u w) (y : B) :
    Moved (n.step (.restart b)) b y u (w + 1) (fun _ => False) False := by
  have hstep : ∀ z, (n.step (.restart b)).st z = if z = b then Conns.new b else n.st z := fun _ => rfl
  refine ⟨?_, MeshOnce.dident_step _ h.dident _, ?_, ?_, ?_, False.elim, ?_, fun _ x _ hk => hk.elim, False.elim, ?_, ?_, False.elim⟩
  · intro z; rw [hstep]; split
    · rename_i e; subst e; rfl
    · exact h.ident z
  · intro z; rw [hstep]; split
    · rfl
    · exact h.irr z
  · intro z; rw [hstep, if_pos rfl]; rfl
  · rw [hstep, if_pos rfl]; simp [UNet.view, Conns.new, VMap.new]
  · intro x hx _
    rw [hstep, if_neg hx]
    rcases h.atO x hx with h1 | h1
    · exact Or.inl h1
    · exact Or.inr (Or.inl h1)
  · intro τ hτ
    rcases h.task τ (List.mem_filter.1 hτ).1 with h1 | h1 | ⟨h1, _⟩
    · exact Or.inl h1
    · exact Or.inr (Or.inl h1)
    · exact Or.inr (Or.inr (Or.inl h1))
  · intro x z m hm
    simp only [MNet.step] at hm
    split at hm
    · cases hm
    · rcases h.ch x z m hm with h1 | ⟨h1, _⟩
      · exact Or.inl h1
      · exact Or.inr (Or.inl h1)

theorem known_crash {n : MNet U B T H} {b y : B} {u : U} {w : Nat} (hk : Known n b u w) (hw : w + 2 < 2 ^ 64) (hyb : y ≠ b)
    (l1 l2 : List (MLabel U B T H)) (hd : H) (ts : List T)
    (h1 : ∀ l ∈ l1, ¬ Connects u l ∧ NoLinkOf b l)
    (hknown : ((n.run (.restart b :: l1)).st y).getBrokerOfUser u = some b)
    (hdue : ∀ x, y < x → (x, y) ∉ (n.run (.restart b :: l1)).fullU)
    (h2 : ∀ l ∈ l2, NoLinkOf b l ∧ NoGreaterLink y l ∧ Stays u y l)
    (hgone : NobodySays (n.run (.restart b :: l1 ++ .connect y u hd ts :: l2)) u b) :
    Known (n.run (.restart b :: l1 ++ .connect y u hd ts :: l2)) y u (w + 1) := by
  have m1 := moved_run l1 _ (moved_of_known hk y) h1 False.elim (fun _ h => h.elim)
  change Moved (n.run (.restart b :: l1)) b y u (w + 1) (fun _ => False) False at m1
  have hy : UNet.view ((n.run (.restart b :: l1)).st y) u = ⟨old b (w + 1), false, false⟩ := by
    rcases m1.atO y hyb (fun e => e.1) with h3 | h3 | ⟨h3, _⟩
    · exfalso
      have hk : (UNet.view ((n.run (.restart b :: l1)).st y) u).e.bind VV.value = some b := hknown
      rw [h3] at hk
      cases hk
    · exact h3
    · exact h3.elim
  have m2 := moved_run l2 _ (moved_connect m1 hw hyb hy hdue hd ts)
    (fun l hl => ⟨(h2 l hl).2.2.1, (h2 l hl).1⟩) (fun _ l hl => (h2 l hl).2) (fun _ h => h.elim)
  have hn : n.run (.restart b :: l1 ++ .connect y u hd ts :: l2) =
      ((n.run (.restart b :: l1)).step (.connect y u hd ts)).run l2 := by
    rw [Mesh.run_append]; rfl
  rw [hn] at hgone ⊢
  exact known_of_moved m2 hgone

theorem whereabouts_crash (u : U) (b y : B) (l1 l2 : List (MLabel U B T H)) (hd : H) (ts : List T) (loc : Option B)
    (h2 : ∀ l ∈ l2, NoLinkOf b l ∧ NoGreaterLink y l ∧ Stays u y l) :
    whereabouts u (.restart b :: l1 ++ .connect y u hd ts :: l2) loc = some y := by
  rw [whereabouts_append, whereabouts_cons]
  have : ∀ l, whereabouts u [(.connect y u hd ts : MLabel U B T H)] l = some y := by intro l; simp [whereabouts]
  rw [this]
  refine whereabouts_calm u l2 _ ?_
  intro l hl
  refine ⟨(h2 l hl).2.2.1, fun y' e => ?_⟩
  cases e
  exact ⟨(h2 l hl).2.1, (h2 l hl).2.2.2⟩

theorem history_run {u : U} (b0 : B) (ps : List (Part U B T H)) (pre : List (MLabel U B T H)) (loc : Option B) (k : Nat)
    (h : Between ((start : MNet U B T H).run pre) u k loc)
    (he : History u ((start : MNet U B T H).run pre) loc ps)
    (hlen : 2 * (pre.length + (labels u ps).length) + 2 < 2 ^ 64) (hk : k + (labels u ps).length + 1 < 2 ^ 64) :
    Between ((start : MNet U B T H).run (pre ++ labels u ps)) u (k + (labels u ps).length)
      (whereabouts u (labels u ps) loc) := by
  induction ps generalizing pre loc k with
  | nil => simpa [labels, whereabouts] using h
  | cons p ps ih =>
    have hf : labels u (p :: ps) = Part.labels u p ++ labels u ps := by simp [labels]
    rw [hf] at hlen hk ⊢
    simp only [List.length_append] at hlen hk
    rw [whereabouts_append, List.length_append, ← List.append_assoc]
    cases p with
    | calm c =>
      obtain ⟨hc, hrest⟩ := he
      simp only [Part.labels] at hlen hk ⊢
      have h1 := between_calm h c hc
      rw [← Mesh.run_append] at h1 hrest
      rw [whereabouts_calm u c loc hc]
      exact between_mono (ih (pre ++ c) loc k h1 hrest (by simp only [List.length_append]; omega) (by omega)) (by omega)
    | moves m =>
      obtain ⟨hr, hturn, hq, ht, hrest⟩ := he
      simp only [Part.labels] at hlen hk ⊢
      have hid := MeshFound.ident_run pre (start : MNet U B T H) (fun _ => rfl)
      have hirr := (MNet.inv_run (inv_start (U := U) (B := B) (T := T) (H := H)) pre (by omega)).irrefl
      have hs := stable_ready hr hid hirr
      have h2 := turn_run m _ loc k (inv_ready b0 h hr hid) hs hturn (by omega)
      have hs2 := stable_run m _ hs hturn
      rw [← Mesh.run_append] at h2 hs2 hq ht hrest
      have h3 := between_of_inv h2 hs2 (MeshOnce.dident_run (pre ++ m) (start : MNet U B T H) (fun _ => rfl)) hq ht
      exact between_mono (ih (pre ++ m) _ (k + m.length) h3 hrest (by simp only [List.length_append]; omega) (by omega))
        (by omega)
    | crash b l1 y hd ts l2 =>
      obtain ⟨rfl, hyb, g1, g2, g3, g4, g5, hrest⟩ := he
      obtain ⟨v, hv, hkn⟩ := h
      rw [show Part.labels u (.crash b l1 y hd ts l2) = .restart b :: l1 ++ .connect y u hd ts :: l2 from rfl] at hlen hk ⊢
      have hl : 2 ≤ (.restart b :: l1 ++ .connect y u hd ts :: l2 : List (MLabel U B T H)).length := by
        simp only [List.length_append, List.length_cons]; omega
      have h1 := known_crash hkn (by omega) hyb l1 l2 hd ts g1 g2 g3 g4 g5
      rw [whereabouts_crash u b y l1 l2 hd ts _ g4]
      generalize (.restart b :: l1 ++ .connect y u hd ts :: l2 : List (MLabel U B T H)) = q at *
      rw [← Mesh.run_append] at h1 hrest
      exact between_mono (ih (pre ++ q) (some y) (v + 1) ⟨v + 1, Nat.le_refl _, h1⟩ hrest
        (by simp only [List.length_append]; omega) (by omega)) (by omega)

/-- What holds after the history. -/
theorem between_end (u : U) (ps : List (Part U B T H)) (hes : History u (start : MNet U B T H) none ps)
    (hlen : 2 * (labels u ps).length + 2 < 2 ^ 64) (b0 : B) :
    Between ((start : MNet U B T H).run (labels u ps)) u (0 + (labels u ps).length) (whereabouts u (labels u ps) none) := by
  have h0 : Between ((start : MNet U B T H).run []) u 0 none := by
    have := unknown_start (U := U) (B := B) (T := T) (H := H) u
    exact ⟨this.ident, this.tab, fun τ hτ => Or.inl (this.task τ hτ), this.ch⟩
  exact history_run b0 ps [] none 0 h0 hes (by simp only [List.length_nil]; omega) (by omega)

/-- **C126 (C74, C120).** After any such history the user is connected exactly to the broker where they connected last (or to none, if
they left); every broker routes them there or nowhere; it routes them there if it is linked to that broker and has been told
everything by it, and every broker does once all are linked and everything about the user is said. -/
theorem C126_found (u : U) (ps : List (Part U B T H)) (hes : History u (start : MNet U B T H) none ps)
    (hlen : 2 * (labels u ps).length + 2 < 2 ^ 64) :
    let n := (start : MNet U B T H).run (labels u ps)
    let loc := whereabouts u (labels u ps) none
    (∀ b, At n b u ↔ loc = some b) ∧
    (∀ b, (n.st b).getBrokerOfUser u = loc ∨ (n.st b).getBrokerOfUser u = none) ∧
    (∀ y x, loc = some y → Linked n y x → UsersSettled n y x → (n.st x).getBrokerOfUser u = some y) ∧
    (Ready u n → ∀ b, (n.st b).getBrokerOfUser u = loc) := by
  intro n loc
  have key := fun b0 => between_concl (between_end u ps hes hlen b0)
  exact ⟨fun b => (key b).1 b, fun b => (key b).2.1 b, fun y => (key y).2.2.1 y, fun hr b => (key b).2.2.2 hr b⟩

end

section
open Verif.Props.Network Verif.Broker Verif.Net Verif.Props.MeshEpochsDirect
variable {B H σ : Type} [DecidableEq B] [DecidableEq H] [LT B] [DecidableLT B]

/-- **C126.** After any such history of user `r`, a direct message for `r` is published once, at broker `x`. Nobody else ever
receives it, and `r` at most once. If `r` is at `y` according to the history, and `x` is `y`, or is linked to `y` and has been
told everything by it, then `r` has received the message once nothing is in flight. If `r` has left, nobody receives it. -/
theorem C126_direct (cfg : Cfg B σ) (hT : Transparent cfg) (r : Bytes) (ps : List (Part Bytes B Topic H))
    (hes : History r (MNet.start : MNet Bytes B Topic H) none ps)
    (hlen : 2 * (labels r ps).length + 2 < 2 ^ 64) (x : B)
    (hook : B → Dest B → σ) (ls : List (Label B H)) (hl : ∀ l ∈ ls, Static cfg l) (k : Nat)
    (a raw payload : Bytes) (hdec : cfg.decode raw = some (.direct r payload))
    (honce : ls.filter (publishes k) = [.publish x a k raw]) :
    let m := (MNet.start : MNet Bytes B Topic H).run (labels r ps)
    let n := (Net.start m.st hook).run cfg ls
    copiesReceived n r k ≤ 1 ∧ (∀ u, u ≠ r → copiesReceived n u k = 0) ∧
    (∀ y, whereabouts r (labels r ps) none = some y → (x = y ∨ Linked m y x ∧ UsersSettled m y x) →
      Quiescent n → copiesReceived n r k = 1) ∧
    (whereabouts r (labels r ps) none = none → copiesReceived n r k = 0) :=
  direct_between cfg hT r (labels r ps) _ _ (between_end r ps hes hlen x) x hook ls hl k a raw payload hdec honce

/-! ### A case

All are linked; `[7]` connects to broker 0 and everybody is told. Broker 0 crashes; the others notice, `[7]` connects to broker 2,
which tells broker 1. Broker 0 is linked again, and told by both where `[7]` is, which it repeats to them. `[7]` moves to broker 1. The
link between brokers 0 and 2 fails. `[8]` writes to `[7]` at broker 0. -/

def toyAt0 : List (MLabel Bytes (Fin 3) Topic Nat) :=
  [.connect 0 [7] 110 [], .startUser 0, .readDests 0, .send 0 true, .send 0 true, .deliver 0 1, .deliver 0 2]

def toyAgain : List (MLabel Bytes (Fin 3) Topic Nat) :=
  [.linkUp 0 1 120 121, .linkUp 0 2 122 123, .fullUser 1 0, .fullUser 2 0, .send 1 true, .send 2 true, .deliver 1 0,
   .deliver 2 0, .fullUser 0 1, .fullUser 0 2, .send 3 true, .send 4 true, .deliver 0 1, .deliver 0 2]

def toyTo1 : List (MLabel Bytes (Fin 3) Topic Nat) :=
  [.connect 1 [7] 112 [], .startUser 1, .readDests 5, .send 5 true, .send 5 true, .deliver 1 0, .deliver 1 2]

def toyParts : List (Part Bytes (Fin 3) Topic Nat) :=
  [.calm toyLinks, .moves toyAt0,
   .crash 0 [.drop 1 0, .drop 2 0] 2 111 [] [.startUser 2, .readDests 0, .send 0 true, .deliver 2 1],
   .calm toyAgain, .moves toyTo1, .calm [.drop 0 2, .drop 2 0]]

def toyThen : MNet Bytes (Fin 3) Topic Nat := (MNet.start : MNet Bytes (Fin 3) Topic Nat).run (labels [7] toyParts)

theorem toy_history : History [7] (MNet.start : MNet Bytes (Fin 3) Topic Nat) none toyParts := by
  refine ⟨calmB_sound _ _ _ (by decide +kernel),
    ⟨?_, by decide +kernel, nothingB_sound _ _ (by decide +kernel), ?_⟩, inTurnB_sound _ _ _ (by decide +kernel),
      nothingB_sound _ _ (by decide +kernel), ?_,
    by decide +kernel, by decide, ?_, by decide +kernel, by decide +kernel, ?_, ⟨by decide +kernel, ?_, ?_⟩,
    calmB_sound _ _ _ (by decide +kernel),
    ⟨?_, by decide +kernel, nothingB_sound _ _ (by decide +kernel), ?_⟩, inTurnB_sound _ _ _ (by decide +kernel),
      nothingB_sound _ _ (by decide +kernel), ?_,
    calmB_sound _ _ _ (by decide +kernel), trivial⟩
  · unfold Linked; decide +kernel
  · unfold Unannounced; decide +kernel
  · unfold Unannounced; decide +kernel
  · intro l hl
    simp only [List.mem_cons, List.not_mem_nil, or_false] at hl
    rcases hl with rfl | rfl <;> exact ⟨id, trivial⟩
  · intro l hl
    simp only [List.mem_cons, List.not_mem_nil, or_false] at hl
    rcases hl with rfl | rfl | rfl | rfl <;> simp [Connects, NoGreaterLink, NoLinkOf, Stays]
  · unfold MeshBack.Says; decide +kernel
  · unfold MeshBack.Says; decide +kernel
  · unfold Linked; decide +kernel
  · unfold Unannounced; decide +kernel
  · unfold Unannounced; decide +kernel

example : Transparent toyCfg ∧ 2 * (labels [7] toyParts).length + 2 < 2 ^ 64 ∧
    whereabouts [7] (labels [7] toyParts) none = some 1 ∧ Linked toyThen 1 0 ∧ UsersSettled toyThen 1 0 ∧
    (∀ l ∈ toyTo, Static toyCfg l) ∧ toyTo.filter (publishes 5) = [.publish 0 [8] 5 [3, 7]] := by
  refine ⟨fun _ _ => ⟨rfl, rfl⟩, by decide +kernel, by decide +kernel, ⟨by decide +kernel, by decide +kernel⟩,
    ⟨by decide +kernel, by decide +kernel, ?_, ?_⟩, ?_, rfl⟩
  · have : ∀ τ ∈ toyThen.tasks, τ.here = 1 → τ.dests = some [] := by decide +kernel
    intro τ hτ h1 _
    exact ⟨[], this τ hτ h1, by simp⟩
  · have : toyThen.ch 1 0 = [] := List.isEmpty_iff.1 (by decide +kernel)
    rw [this]; simp
  · intro l hl
    simp only [toyTo, List.mem_cons, List.not_mem_nil, or_false] at hl
    rcases hl with rfl | rfl | rfl | rfl | rfl
    all_goals first | rfl | trivial

/-- The message reaches `[7]` once; nothing is in flight. Everybody has `[7]` at broker 1, at version 3. -/
example : let n := (Net.start toyThen.st (fun _ _ => 0)).run toyCfg toyTo
    n.wire.length = 0 ∧ n.pend.length = 0 ∧ copiesReceived n [7] 5 = 1 ∧ copiesReceived n [8] 5 = 0 ∧
    ∀ b, (toyThen.st b).direct.map.get [7] = some ⟨3, some 1⟩ := by
  decide +kernel

/-! ### The user's new broker must remember them

`[7]` connects to broker 0 twice, and everybody is told. Broker 2 restarts, and is linked again only later. Broker 0 crashes, and
`[7]` connects to broker 2, which gives them version 1. Broker 1, linked to broker 2 again, tells it that `[7]` is at broker 0, with
version 2. -/

def toyTwice : List (MLabel Bytes (Fin 3) Topic Nat) :=
  toyAt0 ++ [.connect 0 [7] 111 [], .startUser 0, .readDests 1, .send 1 true, .send 1 true, .deliver 0 1, .deliver 0 2]

def toyForgot : List (Part Bytes (Fin 3) Topic Nat) :=
  [.calm toyLinks, .moves toyTwice, .calm [.restart 2, .drop 0 2, .drop 1 2]]

def toyThrown : List (MLabel Bytes (Fin 3) Topic Nat) :=
  [.linkUp 1 2 130 131, .fullUser 1 2, .send 0 true, .deliver 1 2, .fullUser 2 1, .send 1 true, .deliver 2 1]

/-- **C126: the condition that the new broker remembers the user is needed.** All other conditions on the history are met; the user
neither leaves nor moves, but their new broker drops the connection. -/
theorem C126_memory_needed : ∃ (ps : List (Part Bytes (Fin 3) Topic Nat)) (l1 l2 : List (MLabel Bytes (Fin 3) Topic Nat)),
    History [7] (MNet.start : MNet Bytes (Fin 3) Topic Nat) none ps ∧
    whereabouts [7] (labels [7] ps) none = some 0 ∧
    (∀ l ∈ l1, ¬ Connects [7] l ∧ NoLinkOf 0 l) ∧
    (let n := (MNet.start : MNet Bytes (Fin 3) Topic Nat).run (labels [7] ps)
     (∀ x, 2 < x → (x, (2 : Fin 3)) ∉ (n.run (.restart 0 :: l1)).fullU) ∧
     (∀ l ∈ l2, NoLinkOf 0 l ∧ NoGreaterLink 2 l ∧ Stays [7] 2 l) ∧
     At (n.run (.restart 0 :: l1 ++ [.connect 2 [7] 112 []])) 2 [7] ∧
     ¬ At (n.run (.restart 0 :: l1 ++ .connect 2 [7] 112 [] :: l2)) 2 [7]) := by
  refine ⟨toyForgot, [.drop 1 0], toyThrown,
    ⟨calmB_sound _ _ _ (by decide +kernel),
     ⟨?_, by decide +kernel, nothingB_sound _ _ (by decide +kernel), ?_⟩, inTurnB_sound _ _ _ (by decide +kernel),
      nothingB_sound _ _ (by decide +kernel), ?_, calmB_sound _ _ _ (by decide +kernel), trivial⟩,
    by decide +kernel, ?_, by decide +kernel, ?_, ?_, ?_⟩
  · unfold Linked; decide +kernel
  · unfold Unannounced; decide +kernel
  · unfold Unannounced; decide +kernel
  · intro l hl
    simp only [List.mem_cons, List.not_mem_nil, or_false] at hl
    rcases hl with rfl; exact ⟨id, trivial⟩
  · intro l hl
    simp only [toyThrown, List.mem_cons, List.not_mem_nil, or_false] at hl
    rcases hl with rfl | rfl | rfl | rfl | rfl | rfl | rfl <;> simp [Connects, NoGreaterLink, NoLinkOf, Stays]
  · unfold At; decide +kernel
  · unfold At; decide +kernel

end
end Verif.Props.MeshHistory

import Verif.Props.MeshFound

/-!
# Property C120, continued: the broker that crashed comes back
-/

set_option linter.unusedSectionVars false

namespace Verif.Props.MeshBack
open Verif Verif.Conns Verif.MNet Verif.Props.Mesh Verif.Props.MeshUsers Verif.Props.MeshTurn
  Verif.Props.MeshCrash Verif.Props.MeshFailover

variable {U B T H : Type} [DecidableEq U] [DecidableEq B] [DecidableEq T] [DecidableEq H]
  [LT B] [DecidableLT B]

/-! ## Specification -/

/-- The frame says that `u` is at `b`. -/
def Says (u : U) (b : B) (m : SyncMsg U B T) : Prop := (entryOf u m).bind VV.value = some b

/-- Nobody routes `u` to `b`, and nothing under way says that `u` is there. -/
structure NobodySays (n : MNet U B T H) (u : U) (b : B) : Prop where
  held : ∀ x, (n.st x).getBrokerOfUser u ≠ some b
  task : ∀ τ ∈ n.tasks, τ.dests = some [] ∨ ¬ Says u b τ.msg
  arrived : ∀ x z, ∀ m ∈ n.ch x z, ¬ Says u b m

/-! ## Invariant -/

/-- What a broker other than the user's may hold. -/
def HoldsNew (y : B) (v : Nat) (w : UNet.View B) : Prop :=
  w = ⟨none, false, false⟩ ∨ w = ⟨new y v, false, false⟩

/-- The user is connected to `y`, and nobody says anything else. -/
structure Known (n : MNet U B T H) (y : B) (u : U) (v : Nat) : Prop where
  ident : ∀ x, (n.st x).identity = x
  dident : ∀ x, (n.st x).direct.ident = x
  irr : ∀ x, (n.st x).brokers.get x = none
  atY : ∃ m, UNet.view (n.st y) u = ⟨new y v, m, true⟩
  atO : ∀ x, x ≠ y → HoldsNew y v (UNet.view (n.st x) u)
  full : ∀ p ∈ n.fullU, p.2 = y → ¬ y < p.1
  task : ∀ τ ∈ n.tasks, entryOf u τ.msg = none ∨ τ.dests = some [] ∨
    (entryOf u τ.msg = new y v ∧ (τ.here = y ∨ Mild y τ.msg ∨ ∃ ds, τ.dests = some ds ∧ y ∉ ds))
  ch : ∀ x z, ∀ m ∈ n.ch x z, entryOf u m = none ∨ (entryOf u m = new y v ∧ (Mild y m ∨ z ≠ y))
  cov : ∀ x, x ≠ y → (n.st y).brokers.get x ≠ none → (n.st x).brokers.get y ≠ none → Heard n y u v x

variable {n : MNet U B T H} {y : B} {u : U} {v : Nat}

/-- A call. -/
theorem known_act (h : Known n y u v) (x : B) (op : Op U B T H)
    (hknow : ∀ z, ((n.st x).step op).brokers.get z ≠ none → (n.st x).brokers.get z ≠ none)
    (hY : x = y → (∃ m, UNet.view ((n.st x).step op) u = ⟨new y v, m, true⟩) ∧
      ((UNet.view (n.st x) u).m = true → (UNet.view ((n.st x).step op) u).m = true ∨
        ∃ τ ∈ n.tasks, τ.here = y ∧ entryOf u τ.msg = new y v ∧ τ.dests = none))
    (hO : x ≠ y → HoldsNew y v (UNet.view ((n.st x).step op) u) ∧
      ((UNet.view (n.st x) u).e = new y v → (UNet.view ((n.st x).step op) u).e = new y v)) :
    Known (n.act x op) y u v := by
  have hk : ∀ a z, ((n.act x op).st a).brokers.get z ≠ none → (n.st a).brokers.get z ≠ none := by
    intro a z
    rw [st_act]; split
    · rename_i e; subst e; exact hknow z
    · exact id
  have hk0 : ∀ a z, (n.st a).brokers.get z = none → ((n.act x op).st a).brokers.get z = none := by
    intro a z h0
    exact Classical.byContradiction fun h1 => hk a z h1 h0
  refine ⟨identity_act n x op h.ident, dident_act n x op h.dident, fun a => hk0 _ _ (h.irr a),
    ?_, ?_, h.full, h.task, h.ch, ?_⟩
  · rw [st_act]; split
    · rename_i e; rw [← e] at hY ⊢; exact (hY rfl).1
    · exact h.atY
  · intro a ha
    rw [st_act]; split
    · rename_i e; subst e; exact (hO ha).1
    · exact h.atO a ha
  · intro a ha h1 h2
    rcases h.cov a ha (hk _ _ h1) (hk _ _ h2) with h3 | h3 | h3 | h3 | h3
    · left
      rw [st_act]; split
      · rename_i e; subst e; exact (hO ha).2 h3
      · exact h3
    · by_cases e : y = x
      · rw [e] at h3
        rcases (hY e.symm).2 h3 with h4 | ⟨τ, h4, h5, h6, h7⟩
        · right; left; rw [st_act, if_pos e]; exact h4
        · right; right; left
          exact ⟨τ, h4, h5, h6, by rw [h7]; simp⟩
      · right; left; rw [st_act, if_neg e]; exact h3
    · exact Or.inr (Or.inr (Or.inl h3))
    · exact Or.inr (Or.inr (Or.inr (Or.inl h3)))
    · exact Or.inr (Or.inr (Or.inr (Or.inr h3)))

/-- A call that does not concern `u`. -/
theorem known_same (h : Known n y u v) (x : B) (op : Op U B T H)
    (hknow : ∀ z, ((n.st x).step op).brokers.get z ≠ none → (n.st x).brokers.get z ≠ none)
    (hv : UNet.view ((n.st x).step op) u = UNet.view (n.st x) u) : Known (n.act x op) y u v := by
  refine known_act h x op hknow ?_ ?_
  · rintro rfl
    rw [hv]; exact ⟨h.atY, Or.inl⟩
  · intro hy
    rw [hv]; exact ⟨h.atO x hy, id⟩

theorem known_quiet (h : Known n y u v) (x : B) (op : Op U B T H)
    (hk : KeepsLinks (n.st x) op) (hun : UNet.Unrelated u op) : Known (n.act x op) y u v :=
  known_same h x op (fun z => (known_call _ op hk z).1) (UNet.view_unrelated _ u op hun)

/-- Frames leave a queue. -/
theorem known_setCh (h : Known n y u v) (x z : B)
    (q : List (SyncMsg U B T)) (hin : ∀ m ∈ q, m ∈ n.ch x z)
    (hlose : ∀ m ∈ n.ch x z, m ∈ q ∨ entryOf u m ≠ new y v ∨ (n.st x).brokers.get z = none ∨
      (n.st z).brokers.get x = none ∨ (UNet.view (n.st z) u).e = new y v) :
    Known (n.setCh x z q) y u v := by
  have hsub : ∀ x' z' m, m ∈ (n.setCh x z q).ch x' z' → m ∈ n.ch x' z' := by
    intro x' z' m hm
    simp only [setCh] at hm
    split at hm
    · rename_i e; obtain ⟨rfl, rfl⟩ := e; exact hin m hm
    · exact hm
  refine ⟨h.ident, h.dident, h.irr, h.atY, h.atO, h.full, h.task,
    fun x' z' m hm => h.ch x' z' m (hsub _ _ _ hm), ?_⟩
  intro a ha h1 h2
  rcases h.cov a ha h1 h2 with h3 | h3 | h3 | ⟨m, h3, h4⟩ | h3
  · exact Or.inl h3
  · exact Or.inr (Or.inl h3)
  · exact Or.inr (Or.inr (Or.inl h3))
  · by_cases e : y = x ∧ a = z
    · obtain ⟨rfl, rfl⟩ := e
      rcases hlose m h3 with h6 | h6 | h6 | h6 | h6
      · exact Or.inr (Or.inr (Or.inr (Or.inl ⟨m, by simp [setCh, h6], h4⟩)))
      · exact absurd h4 h6
      · exact absurd h6 h1
      · exact absurd h6 h2
      · exact Or.inl h6
    · exact Or.inr (Or.inr (Or.inr (Or.inl ⟨m, by simp only [setCh]; rw [if_neg e]; exact h3, h4⟩)))
  · exact Or.inr (Or.inr (Or.inr (Or.inr h3)))

/-- A new sync. -/
theorem known_spawn (h : Known n y u v) (τ : SyncTask U B T)
    (h1 : entryOf u τ.msg = none ∨ τ.dests = some [] ∨
      (entryOf u τ.msg = new y v ∧ (τ.here = y ∨ Mild y τ.msg ∨ ∃ ds, τ.dests = some ds ∧ y ∉ ds))) :
    Known (n.spawn τ) y u v := by
  have hmem : ∀ σ, σ ∈ (n.spawn τ).tasks ↔ σ ∈ n.tasks ∨ σ = τ := by
    intro σ; simp [spawn]
  refine ⟨h.ident, h.dident, h.irr, h.atY, h.atO, h.full, ?_, h.ch, ?_⟩
  · intro σ hσ
    rcases (hmem σ).1 hσ with h3 | rfl
    · exact h.task σ h3
    · exact h1
  · intro a ha k1 k2
    rcases h.cov a ha k1 k2 with h3 | h3 | ⟨σ, h3, h4⟩ | h3 | h3
    · exact Or.inl h3
    · exact Or.inr (Or.inl h3)
    · exact Or.inr (Or.inr (Or.inl ⟨σ, (hmem σ).2 (Or.inl h3), h4⟩))
    · exact Or.inr (Or.inr (Or.inr (Or.inl h3)))
    · exact Or.inr (Or.inr (Or.inr (Or.inr h3)))

/-- Progress of a sync that does not lose anything. -/
theorem known_set (h : Known n y u v) (i : Nat) (x : B)
    (m : SyncMsg U B T) (d d' : Option (List B)) (hi : n.tasks[i]? = some ⟨x, m, d⟩)
    (hd : ∀ ds, d = some ds → ∃ ds', d' = some ds' ∧ ∀ z ∈ ds', z ∈ ds)
    (hlose : x = y → entryOf u m = new y v → ∀ z, (n.st y).brokers.get z ≠ none →
      (∀ ds, d = some ds → z ∈ ds) → (∀ ds, d' = some ds → z ∈ ds) ∨ ∃ m' ∈ n.ch y z, entryOf u m' = new y v) :
    Known { n with tasks := n.tasks.set i ⟨x, m, d'⟩ } y u v := by
  have hin : (⟨x, m, d'⟩ : SyncTask U B T) ∈ n.tasks.set i ⟨x, m, d'⟩ :=
    List.mem_set (List.getElem?_eq_some_iff.1 hi).1 _
  have hold := List.mem_of_getElem? hi
  refine ⟨h.ident, h.dident, h.irr, h.atY, h.atO, h.full, ?_, h.ch, ?_⟩
  · intro σ hσ
    rcases List.mem_or_eq_of_mem_set hσ with h1 | rfl
    · exact h.task σ h1
    · rcases h.task _ hold with h1 | h1 | ⟨h1, h2⟩
      · exact Or.inl h1
      · obtain ⟨ds', h3, h4⟩ := hd _ h1
        right; left
        rw [h3]
        cases ds' with
        | nil => rfl
        | cons a _ => exact absurd (h4 a (by simp)) (by simp)
      · refine Or.inr (Or.inr ⟨h1, ?_⟩)
        rcases h2 with h2 | h2 | ⟨ds, h2, h3⟩
        · exact Or.inl h2
        · exact Or.inr (Or.inl h2)
        · obtain ⟨ds', h4, h5⟩ := hd _ h2
          refine Or.inr (Or.inr ?_)
          exact ⟨ds', h4, fun h6 => h3 (h5 _ h6)⟩
  · intro a ha k1 k2
    rcases h.cov a ha k1 k2 with h3 | h3 | ⟨σ, h3, h5, h6, h7⟩ | h3 | h3
    · exact Or.inl h3
    · exact Or.inr (Or.inl h3)
    · rcases mem_set_of_mem (a := ⟨x, m, d'⟩) hi h3 with rfl | h8
      · simp only at h5 h6 h7
        rcases hlose h5 h6 a k1 h7 with h8 | h8
        · exact Or.inr (Or.inr (Or.inl ⟨_, hin, h5, h6, h8⟩))
        · exact Or.inr (Or.inr (Or.inr (Or.inl h8)))
      · exact Or.inr (Or.inr (Or.inl ⟨σ, h8, h5, h6, h7⟩))
    · exact Or.inr (Or.inr (Or.inr (Or.inl h3)))
    · exact Or.inr (Or.inr (Or.inr (Or.inr h3)))

/-- A frame is queued. -/
theorem known_push (h : Known n y u v) (x z : B) (m : SyncMsg U B T)
    (h1 : entryOf u m = none ∨ (entryOf u m = new y v ∧ (Mild y m ∨ z ≠ y))) :
    Known (n.setCh x z (n.ch x z ++ [m])) y u v := by
  have hcase : ∀ x' z' m', m' ∈ (n.setCh x z (n.ch x z ++ [m])).ch x' z' →
      m' ∈ n.ch x' z' ∨ (x' = x ∧ z' = z ∧ m' = m) := by
    intro x' z' m' hm
    simp only [setCh] at hm
    split at hm
    · rename_i e; obtain ⟨rfl, rfl⟩ := e
      rcases List.mem_append.1 hm with h3 | h3
      · exact Or.inl h3
      · exact Or.inr ⟨rfl, rfl, List.mem_singleton.1 h3⟩
    · exact Or.inl hm
  have hkeep : ∀ x' z' m', m' ∈ n.ch x' z' → m' ∈ (n.setCh x z (n.ch x z ++ [m])).ch x' z' := by
    intro x' z' m' hm
    simp only [setCh]
    split
    · rename_i e; obtain ⟨rfl, rfl⟩ := e; simp [hm]
    · exact hm
  refine ⟨h.ident, h.dident, h.irr, h.atY, h.atO, h.full, h.task, ?_, ?_⟩
  · intro x' z' m' hm
    rcases hcase _ _ _ hm with h3 | ⟨rfl, rfl, rfl⟩
    · exact h.ch x' z' m' h3
    · exact h1
  · intro a ha k1 k2
    rcases h.cov a ha k1 k2 with h3 | h3 | h3 | ⟨m', h3, h4⟩ | h3
    · exact Or.inl h3
    · exact Or.inr (Or.inl h3)
    · exact Or.inr (Or.inr (Or.inl h3))
    · exact Or.inr (Or.inr (Or.inr (Or.inl ⟨m', hkeep _ _ _ h3, h4⟩)))
    · exact Or.inr (Or.inr (Or.inr (Or.inr h3)))

/-- `x` removes `d`. -/
theorem known_drop (h : Known n y u v) (x d : B) :
    Known ((n.act x (.removeBroker d)).setCh d x []) y u v := by
  have h1 := known_same h x (.removeBroker d) (removeBroker_known _ d)
    (UNet.view_unrelated _ u (.removeBroker d) trivial)
  refine known_setCh h1 d x [] (by simp) ?_
  intro m _
  refine Or.inr (Or.inr (Or.inr (Or.inl ?_)))
  rw [st_act_self]
  show ((n.st x).removeBroker d).brokers.get d = none
  rw [removeBroker_brokers_get, if_pos rfl]

theorem known_send (h : Known n y u v) (i : Nat) (ok : Bool) :
    Known (n.step (.send i ok)) y u v := by
  simp only [MNet.step]
  split
  · rename_i x m d ds hi
    have hold := List.mem_of_getElem? hi
    have hd : ∀ ds0, some (d :: ds) = some ds0 → ∃ ds', some ds = some ds' ∧ ∀ z ∈ ds', z ∈ ds0 := by
      rintro _ ⟨⟩
      exact ⟨ds, rfl, fun z hz => List.mem_cons_of_mem _ hz⟩
    by_cases hk : n.knows x d = true
    · rw [if_pos hk]
      have hk' := (knows_iff _ _ _).1 hk
      cases ok with
      | true =>
        rw [if_pos rfl]
        have h1 := known_push h x d m (by
          rcases h.task _ hold with h1 | h1 | ⟨h1, h2⟩
          · exact Or.inl h1
          · cases h1
          · refine Or.inr ⟨h1, ?_⟩
            rcases h2 with h2 | h2 | ⟨ds', h2, h3⟩
            · right; rintro rfl
              simp only at h2
              rw [h2] at hk'; exact hk' (h.irr _)
            · exact Or.inl h2
            · right; rintro rfl; cases h2; simp at h3)
        refine known_set h1 i x m (some (d :: ds)) (some ds) hi hd ?_
        rintro rfl hm z _ hz
        rcases List.mem_cons.1 (hz _ rfl) with rfl | h2
        · right; exact ⟨m, by simp [setCh], hm⟩
        · left; rintro ds' ⟨⟩; exact h2
      | false =>
        rw [if_neg (by simp)]
        have h1 := known_drop h x d
        have hgone : (((n.act x (.removeBroker d)).setCh d x []).st x).brokers.get d = none := by
          show ((n.act x (.removeBroker d)).st x).brokers.get d = none
          rw [st_act_self]
          show ((n.st x).removeBroker d).brokers.get d = none
          rw [removeBroker_brokers_get, if_pos rfl]
        refine known_set h1 i x m (some (d :: ds)) (some ds) hi hd ?_
        rintro rfl hm z hne hz
        rcases List.mem_cons.1 (hz _ rfl) with rfl | h2
        · exact absurd hgone hne
        · left; rintro ds' ⟨⟩; exact h2
    · rw [if_neg hk]
      have hn : (n.st x).brokers.get d = none := by
        cases hd : (n.st x).brokers.get d with
        | none => rfl
        | some c => exact absurd ((knows_iff n x d).2 (by rw [hd]; simp)) hk
      refine known_set h i x m (some (d :: ds)) (some ds) hi hd ?_
      rintro rfl hm z hne hz
      rcases List.mem_cons.1 (hz _ rfl) with rfl | h2
      · exact absurd hn hne
      · left; rintro ds' ⟨⟩; exact h2
  · exact h

theorem known_linkUp (h : Known n y u v) (x z : B) (c c' : H)
    (hy : (x = y → ¬ y < z) ∧ (z = y → ¬ y < x)) : Known (n.step (.linkUp x z c c')) y u v := by
  simp only [MNet.step]
  split
  · exact h
  · rename_i hxy
    show Known ({ (((n.act x (.addBroker z c)).act z (.addBroker x c')).setCh x z []).setCh z x [] with
      fullT := (x, z) :: (z, x) :: n.fullT, fullU := (x, z) :: (z, x) :: n.fullU } : MNet U B T H) y u v
    generalize hN : ({ (((n.act x (.addBroker z c)).act z (.addBroker x c')).setCh x z []).setCh z x [] with
      fullT := (x, z) :: (z, x) :: n.fullT, fullU := (x, z) :: (z, x) :: n.fullU } : MNet U B T H) = N
    have hst : N.st = ((n.act x (.addBroker z c)).act z (.addBroker x c')).st := by rw [← hN]; rfl
    have hfull : N.fullU = (x, z) :: (z, x) :: n.fullU := by rw [← hN]
    have htasks : N.tasks = n.tasks := by rw [← hN]; rfl
    have hch : ∀ a a', N.ch a a' = if a = x ∧ a' = z ∨ a = z ∧ a' = x then [] else n.ch a a' := by
      intro a a'
      rw [← hN]; simp only [setCh, act]
      by_cases h1 : a = z ∧ a' = x
      · simp [h1]
      · by_cases h2 : a = x ∧ a' = z
        · simp [h2]
        · simp [h1, h2]
    have hview : ∀ w, UNet.view (N.st w) u = UNet.view (n.st w) u := by
      intro w
      rw [hst, st_act]; split
      · rename_i e; subst e
        rw [UNet.view_unrelated _ u _ (by trivial), st_act_ne _ _ _ (Ne.symm hxy)]
      · rw [st_act]; split
        · rename_i e; subst e; rw [UNet.view_unrelated _ u _ (by trivial)]
        · rfl
    have hid : ∀ w, (N.st w).identity = w := by
      rw [hst]; exact identity_act _ z _ (identity_act n x _ h.ident)
    have hknow : ∀ w w', ¬ (w = x ∧ w' = z) → ¬ (w = z ∧ w' = x) →
        (N.st w).brokers.get w' = (n.st w).brokers.get w' := by
      intro w w' h1 h2
      rw [hst, st_act]; split
      · rename_i e; subst e
        rw [st_act_ne _ _ _ (Ne.symm hxy)]
        show ((n.st w).addBroker x c').brokers.get w' = _
        rw [get_addBroker, if_neg (fun e => h2 ⟨rfl, e.symm⟩)]
      · rw [st_act]; split
        · rename_i e; subst e
          show ((n.st w).addBroker z c).brokers.get w' = _
          rw [get_addBroker, if_neg (fun e => h1 ⟨rfl, e.symm⟩)]
        · rfl
    have hsub : ∀ a a' m, m ∈ N.ch a a' → m ∈ n.ch a a' := by
      intro a a' m hm
      rw [hch] at hm; split at hm
      · cases hm
      · exact hm
    have hdid : ∀ w, (N.st w).direct.ident = w := by
      rw [hst]; exact dident_act _ z _ (dident_act n x _ h.dident)
    refine ⟨hid, hdid, ?_, by rw [hview]; exact h.atY,
      fun w h1 => by rw [hview]; exact h.atO w h1, ?_,
      by rw [htasks]; exact h.task, fun a a' m hm => h.ch a a' m (hsub _ _ _ hm), ?_⟩
    · intro w
      rw [hknow w w (fun e => hxy (e.1.symm.trans e.2)) (fun e => hxy (e.2.symm.trans e.1))]
      exact h.irr w
    · intro p hp
      obtain ⟨y1, y2⟩ := hy
      rw [hfull] at hp
      rcases List.mem_cons.1 hp with rfl | hp
      · exact y2
      · rcases List.mem_cons.1 hp with rfl | hp
        · exact y1
        · exact h.full p hp
    · intro a ha k1 k2
      by_cases e : (x = y ∧ z = a) ∨ (x = a ∧ z = y)
      · refine Or.inr (Or.inr (Or.inr (Or.inr ?_)))
        rw [hfull]
        rcases e with ⟨rfl, rfl⟩ | ⟨rfl, rfl⟩ <;> simp
      have e1 : ¬ (y = x ∧ a = z) := fun e' => e (Or.inl ⟨e'.1.symm, e'.2.symm⟩)
      have e2 : ¬ (y = z ∧ a = x) := fun e' => e (Or.inr ⟨e'.2.symm, e'.1.symm⟩)
      rw [hknow y a e1 e2] at k1
      rw [hknow a y (fun e' => e2 ⟨e'.2, e'.1⟩) (fun e' => e1 ⟨e'.2, e'.1⟩)] at k2
      rcases h.cov a ha k1 k2 with h4 | h4 | h4 | ⟨m, h4, h5⟩ | h4
      · left; rw [hview]; exact h4
      · right; left; rw [hview]; exact h4
      · right; right; left; rw [htasks]; exact h4
      · refine Or.inr (Or.inr (Or.inr (Or.inl ⟨m, ?_, h5⟩)))
        rw [hch, if_neg]; exact h4
        rintro (e' | e')
        · exact e1 e'
        · exact e2 e'
      · refine Or.inr (Or.inr (Or.inr (Or.inr ?_)))
        rw [hfull]; simp [h4]

theorem known_restart (h : Known n y u v) (x : B) (hy : x ≠ y) :
    Known (n.step (.restart x)) y u v := by
  have hst : ∀ z, (n.step (.restart x)).st z = if z = x then Conns.new x else n.st z := fun _ => rfl
  have hnew : UNet.view (Conns.new x : Conns U B T H) u = ⟨none, false, false⟩ := by
    simp [UNet.view, Conns.new, VMap.new]
  have hch : ∀ a a' m, m ∈ (n.step (.restart x)).ch a a' → m ∈ n.ch a a' := by
    intro a a' m hm
    simp only [MNet.step] at hm
    split at hm
    · cases hm
    · exact hm
  refine ⟨?_, ?_, ?_, ?_, ?_, ?_, ?_, fun a a' m hm => h.ch a a' m (hch _ _ _ hm), ?_⟩
  · intro z; rw [hst]; split
    · rename_i e; subst e; rfl
    · exact h.ident z
  · intro z; rw [hst]; split
    · rename_i e; subst e; rfl
    · exact h.dident z
  · intro z; rw [hst]; split
    · rfl
    · exact h.irr z
  · rw [hst, if_neg (fun e => hy e.symm)]; exact h.atY
  · intro z h1; rw [hst]; split
    · exact Or.inl hnew
    · exact h.atO z h1
  · intro p hp; exact h.full p (List.mem_filter.1 hp).1
  · intro τ hτ; exact h.task τ (List.mem_filter.1 hτ).1
  · intro a ha k1 k2
    have hyx : y ≠ x := fun e => hy e.symm
    have hax : a ≠ x := by
      rintro rfl; rw [hst, if_pos rfl] at k2; exact k2 rfl
    rw [hst, if_neg hyx] at k1
    rw [hst, if_neg hax] at k2
    rcases h.cov a ha k1 k2 with h4 | h4 | ⟨τ, h4, h5, h6⟩ | ⟨m, h4, h5⟩ | h4
    · left; rw [hst, if_neg hax]; exact h4
    · right; left; rw [hst, if_neg hyx]; exact h4
    · exact Or.inr (Or.inr (Or.inl ⟨τ, List.mem_filter.2 ⟨h4, by simpa [h5] using hyx⟩, h5, h6⟩))
    · exact Or.inr (Or.inr (Or.inr (Or.inl ⟨m, by simpa [MNet.step, hax] using h4, h5⟩)))
    · exact Or.inr (Or.inr (Or.inr (Or.inr (List.mem_filter.2 ⟨h4, by simpa using hyx⟩))))

/-- The routing entry of any broker. -/
theorem known_entry (h : Known n y u v) (x : B) : (UNet.view (n.st x) u).e = none ∨
    (UNet.view (n.st x) u).e = new y v := by
  by_cases hy : x = y
  · subst hy
    obtain ⟨m, h1⟩ := h.atY
    exact Or.inr (by rw [h1])
  · rcases h.atO x hy with h1 | h1 <;> rw [h1]
    · exact Or.inl rfl
    · exact Or.inr rfl

theorem known_startUser (h : Known n y u v) (x : B) :
    Known (n.step (.startUser x)) y u v := by
  have hmsg := UNet.sync_msg (n.st x) u
  have hview : UNet.view ((n.st x).step .partialUserSync) u = _ := UNet.view_sync (n.st x) u
  have hk : ∀ z, ((n.st x).step .partialUserSync).brokers.get z ≠ none → (n.st x).brokers.get z ≠ none :=
    fun z => (known_call _ .partialUserSync trivial z).1
  simp only [MNet.step]
  by_cases hxy : x = y
  · subst hxy
    obtain ⟨mm, h1⟩ := h.atY
    cases hm : (n.st x).getPartialUserSync.2 with
    | none =>
      simp only
      rw [hm, h1] at hmsg
      cases mm with
      | true => simp at hmsg
      | false => refine known_same h x _ hk ?_; rw [hview, h1]; rfl
    | some m =>
      simp only
      rw [hm, h1] at hmsg
      have hmsg' : m.map.get u = _ := hmsg
      have h2 : Known (n.spawn ⟨x, .user m, none⟩) x u v := by
        refine known_spawn h _ ?_
        show m.map.get u = none ∨ _ ∨ (m.map.get u = new x v ∧ _)
        rw [hmsg']
        cases mm with
        | true => exact Or.inr (Or.inr ⟨rfl, Or.inl rfl⟩)
        | false => exact Or.inl rfl
      have hvv : UNet.view ((n.st x).step .partialUserSync) u = ⟨new x v, false, true⟩ := by
        rw [hview, h1]; cases mm <;> rfl
      refine known_act h2 x .partialUserSync hk ?_ (fun e => absurd rfl e)
      intro _
      refine ⟨⟨false, hvv⟩, ?_⟩
      intro h3
      right
      refine ⟨⟨x, .user m, none⟩, by simp [spawn], rfl, ?_, rfl⟩
      show m.map.get u = _
      have h3' : (UNet.view (n.st x) u).m = true := h3
      rw [h1] at h3'
      have h3'' : mm = true := h3'
      rw [hmsg', h3'']; rfl
  · have hm0 : (UNet.view (n.st x) u).m = false := by
      rcases h.atO x hxy with h1 | h1 <;> rw [h1]
    have hsame : UNet.view ((n.st x).step .partialUserSync) u = UNet.view (n.st x) u := by
      rw [hview, hm0]
      cases hw : UNet.view (n.st x) u with
      | mk e m c => rw [hw] at hm0; simp only at hm0; subst hm0; rfl
    have h1 := known_same h x .partialUserSync hk hsame
    cases hm : (n.st x).getPartialUserSync.2 with
    | none => exact h1
    | some m =>
      simp only
      refine known_spawn h1 _ (Or.inl ?_)
      rw [hm, hm0] at hmsg
      exact hmsg

theorem known_fullUser (h : Known n y u v) (x z : B) :
    Known (n.step (.fullUser x z)) y u v := by
  simp only [MNet.step]
  split
  · rename_i hmem
    -- losing the entry of `fullU` is made up for by the task
    have key : ∀ N : MNet U B T H, N.st = n.st → N.fullU = n.fullU.erase (x, z) → N.ch = n.ch →
        (∀ σ ∈ n.tasks, σ ∈ N.tasks) →
        (∀ σ ∈ N.tasks, σ ∈ n.tasks ∨ (σ.here = x ∧ σ.dests = some [z] ∧ entryOf u σ.msg = (UNet.view (n.st x) u).e ∧
          (¬ y < x → Mild y σ.msg))) →
        (x = y → (UNet.view (n.st x) u).e = new y v → ∃ τ ∈ N.tasks, τ.here = y ∧
          entryOf u τ.msg = new y v ∧ τ.dests = some [z]) → Known N y u v := by
      intro N h1 h2 h3 h4 h5 h6
      refine ⟨by rw [h1]; exact h.ident, by rw [h1]; exact h.dident, by rw [h1]; exact h.irr,
        by rw [h1]; exact h.atY, by rw [h1]; exact h.atO, ?_, ?_, by rw [h3]; exact h.ch, ?_⟩
      · intro p hp; rw [h2] at hp; exact h.full p (List.mem_of_mem_erase hp)
      · intro σ hσ
        rcases h5 σ hσ with h7 | ⟨h7, h8, h9, h10'⟩
        · exact h.task σ h7
        · rw [h8, h9]
          rcases known_entry h x with h10 | h10
          · exact Or.inl h10
          · refine Or.inr (Or.inr ⟨h10, ?_⟩)
            by_cases hzy : z = y
            · exact Or.inr (Or.inl (h10' (h.full _ hmem hzy)))
            · refine Or.inr (Or.inr ⟨[z], rfl, ?_⟩)
              simp only [List.mem_singleton]
              exact fun e => hzy e.symm
      · intro a ha k1 k2
        rw [h1] at k1 k2
        rcases h.cov a ha k1 k2 with k4 | k4 | ⟨σ, k4, k5⟩ | k4 | k4
        · left; rw [h1]; exact k4
        · right; left; rw [h1]; exact k4
        · exact Or.inr (Or.inr (Or.inl ⟨σ, h4 σ k4, k5⟩))
        · exact Or.inr (Or.inr (Or.inr (Or.inl (by rw [h3]; exact k4))))
        · by_cases e : (y, a) = (x, z)
          · cases e
            obtain ⟨m, h7⟩ := h.atY
            obtain ⟨τ, t1, t2, t3, t4⟩ := h6 rfl (by rw [h7])
            refine Or.inr (Or.inr (Or.inl ⟨τ, t1, t2, t3, ?_⟩))
            intro ds hds
            rw [t4] at hds; cases hds; simp
          · refine Or.inr (Or.inr (Or.inr (Or.inr ?_)))
            rw [h2]; exact (List.mem_erase_of_ne e).2 k4
    cases hf : (n.st x).getFullUserSync with
    | none =>
      simp only
      refine key _ rfl rfl rfl (fun σ hσ => hσ) (fun σ hσ => Or.inl hσ) ?_
      intro _ h1
      exfalso
      unfold getFullUserSync at hf
      split at hf
      · rename_i he
        have := AMap.isEmpty_iff.1 he u
        have h1' : (n.st x).direct.map.get u = new y v := h1
        rw [this] at h1'; cases h1'
      · cases hf
    | some m =>
      simp only
      have hm : m.map.get u = (UNet.view (n.st x) u).e := by
        unfold getFullUserSync at hf
        split at hf
        · cases hf
        · cases hf; rfl
      have hmi : m.ident = x := by
        unfold getFullUserSync at hf
        split at hf
        · cases hf
        · cases hf; exact h.dident x
      refine key _ rfl rfl rfl (fun σ hσ => by simp [spawn, hσ]) ?_ ?_
      · intro σ hσ
        simp only [spawn, List.mem_append, List.mem_singleton] at hσ
        rcases hσ with hσ | rfl
        · exact Or.inl hσ
        · exact Or.inr ⟨rfl, rfl, hm, fun h7 => by show ¬ y < m.ident; rw [hmi]; exact h7⟩
      · rintro rfl h1
        exact ⟨⟨x, .user m, some [z]⟩, by simp [spawn], rfl, hm.trans h1, rfl⟩
  · exact h

theorem known_deliver (h : Known n y u v) (x z : B) : Known (n.step (.deliver x z)) y u v := by
  simp only [MNet.step]
  split
  · rename_i hk
    have hk' := (knows_iff _ _ _).1 hk
    split
    · exact h
    · rename_i m rest hq
      have hin : ∀ m' ∈ rest, m' ∈ n.ch x z := fun m' hm' => by rw [hq]; exact List.mem_cons_of_mem _ hm'
      have hhead : SyncMsg.user m ∈ n.ch x z := by rw [hq]; exact List.mem_cons_self ..
      have hkn : ∀ w, ((n.st z).step (.applyUserSync m)).brokers.get w ≠ none → (n.st z).brokers.get w ≠ none :=
        fun w => (known_call _ (.applyUserSync m) trivial w).1
      -- taking the frame off the queue afterwards
      have pop : Known (n.act z (.applyUserSync m)) y u v →
          (m.map.get u ≠ new y v ∨ (UNet.view ((n.st z).step (.applyUserSync m)) u).e = new y v) →
          Known ((n.act z (.applyUserSync m)).setCh x z rest) y u v := by
        intro h1 h2
        refine known_setCh h1 x z rest hin ?_
        intro m' hm'
        rw [show (n.act z (.applyUserSync m)).ch x z = n.ch x z from rfl, hq] at hm'
        rcases List.mem_cons.1 hm' with rfl | h3
        · right
          rcases h2 with h2 | h2
          · exact Or.inl h2
          · exact Or.inr (Or.inr (Or.inr (by rw [st_act_self]; exact h2)))
        · exact Or.inl h3
      have hid : (n.st z).identity = z := h.ident z
      rcases h.ch x z _ hhead with h1 | ⟨h1, hzy⟩
      · have h1' : m.map.get u = none := h1
        exact pop (known_same h z _ hkn (UNet.view_apply_none _ u m h1')) (Or.inl (by rw [h1']; simp))
      · have h1' : m.map.get u = new y v := h1
        by_cases hzy' : z = y
        · -- the greatest broker is not impressed by its own entry
          subst hzy'
          obtain ⟨mm, h2⟩ := h.atY
          have hG : ¬ z < m.ident := hzy.resolve_right (fun e => e rfl)
          have hv' : UNet.view ((n.st z).step (.applyUserSync m)) u = UNet.view (n.st z) u :=
            UNet.view_apply_lost _ u m _ h1' (by
              rw [h2, h.dident]
              rintro (h3 | ⟨_, h3⟩)
              · exact absurd h3 (Nat.lt_irrefl _)
              · exact hG h3)
          exact pop (known_same h z _ hkn hv') (Or.inr (by rw [hv', h2]))
        replace hzy : z ≠ y := hzy'
        by_cases ht : VMap.takes (n.st z).direct.ident m.ident (UNet.view (n.st z) u).e ⟨v + 1, some y⟩
        · have hm0 : (UNet.view (n.st z) u).m = false := by
            rcases h.atO z hzy with h2 | h2 <;> rw [h2]
          have hv' : UNet.view ((n.st z).step (.applyUserSync m)) u = ⟨new y v, false, false⟩ :=
            UNet.view_apply_taken _ u m _ h1' ht (by rw [hid]; simp only; intro e; exact hzy (Option.some.inj e).symm)
              (by rw [hm0]; simp)
          refine pop (known_act h z _ hkn (fun e => absurd e hzy) ?_) (Or.inr (by rw [hv']))
          intro _
          rw [hv']
          exact ⟨Or.inr rfl, fun _ => rfl⟩
        · have hv' : UNet.view ((n.st z).step (.applyUserSync m)) u = UNet.view (n.st z) u :=
            UNet.view_apply_lost _ u m _ h1' ht
          refine pop (known_same h z _ hkn hv') (Or.inr ?_)
          rw [hv']
          rcases h.atO z hzy with h2 | h2 <;> rw [h2] at ht ⊢
          exact absurd rfl ht
    · rename_i m rest hq
      have h1 := known_quiet h z (.applyTopicSync x m) hk' trivial
      refine known_setCh h1 x z rest (fun m' hm' => ?_) ?_
      · show m' ∈ n.ch x z
        rw [hq]; exact List.mem_cons_of_mem _ hm'
      · intro m' hm'
        rw [show (n.act z (.applyTopicSync x m)).ch x z = n.ch x z from rfl, hq] at hm'
        rcases List.mem_cons.1 hm' with rfl | h3
        · exact Or.inr (Or.inl (by simp [entryOf]))
        · exact Or.inl h3
  · exact h

theorem known_step (h : Known n y u v) (l : MLabel U B T H) (hc : ¬ Connects u l)
    (hG : NoGreaterLink y l) (hy : Stays u y l) :
    Known (n.step l) y u v := by
  cases l with
  | connect x u' hd ts => exact known_quiet h x (.addUser u' hd ts) trivial hc
  | disconnect x u' =>
    by_cases e : u' = u
    · subst e
      have hxy : x ≠ y := by
        rintro rfl; exact hy.2.1 rfl
      refine known_same h x (.removeUser u') (fun z => (known_call _ (.removeUser u') trivial z).1) ?_
      show UNet.view ((n.st x).removeUser u') u' = _
      rw [UNet.view_removeUser, UNet.remV, if_neg]
      · rcases h.atO x hxy with h1 | h1 <;> rw [h1]
      · rw [h.ident]
        rcases h.atO x hxy with h1 | h1 <;> rw [h1]
        · simp
        · intro h2; exact hxy (Option.some.inj h2).symm
    · exact known_quiet h x (.removeUser u') trivial e
  | subscribe x u' ts => exact known_quiet h x (.subscribeUser u' ts) trivial trivial
  | unsubscribe x u' ts => exact known_quiet h x (.unsubscribeUser u' ts) trivial trivial
  | startTopic x =>
    have h1 := known_quiet h x .partialTopicSync trivial trivial
    simp only [MNet.step]; split
    · exact h1
    · exact known_spawn h1 _ (Or.inl rfl)
  | startUser x => exact known_startUser h x
  | readDests i =>
    simp only [MNet.step]; split
    · rename_i x m hi
      refine known_set h i x m none _ hi (by simp) ?_
      rintro rfl _ z hz _
      left
      rintro ds ⟨⟩
      exact (mem_allBrokers _ _).2 hz
    · exact h
  | send i ok => exact known_send h i ok
  | linkUp x z c c' => exact known_linkUp h x z c c' hG
  | fullTopic x z =>
    simp only [MNet.step]; split
    · have h1 : Known { n with fullT := n.fullT.erase (x, z) } y u v :=
        ⟨h.ident, h.dident, h.irr, h.atY, h.atO, h.full, h.task, h.ch, h.cov⟩
      split
      · exact h1
      · exact known_spawn h1 _ (Or.inl rfl)
    · exact h
  | fullUser x z => exact known_fullUser h x z
  | drop x z => exact known_drop h x z
  | deliver x z => exact known_deliver h x z
  | restart x =>
    exact known_restart h x (fun e => hy.2.2 (by rw [e]))

theorem known_run (ls : List (MLabel U B T H)) (n : MNet U B T H) (h : Known n y u v)
    (hl : ∀ l ∈ ls, NoGreaterLink y l ∧ Stays u y l) : Known (n.run ls) y u v := by
  induction ls generalizing n with
  | nil => exact h
  | cons l ls ih =>
    have h1 := hl l (by simp)
    exact ih (n.step l) (known_step h l h1.2.1 h1.1 h1.2) (fun l' h' => hl l' (by simp [h']))

/-- What was said of the broker that crashed is forgotten. -/
theorem known_of_moved {b : B} {K : B → Prop} (h : Moved n b y u v K True) (hs : NobodySays n u b) :
    Known n y u v := by
  have hentry : ∀ x, (UNet.view (n.st x) u).e ≠ old b v := by
    intro x hx
    refine hs.held x ?_
    show (UNet.view (n.st x) u).e.bind VV.value = some b
    rw [hx]; rfl
  refine ⟨h.ident, h.dident, h.irr, h.atY trivial, ?_, h.full trivial, ?_, ?_, h.cov trivial⟩
  · intro x hx
    by_cases hb : x = b
    · subst hb; exact Or.inl h.atB
    · rcases h.atO x hb (fun e => hx e.2) with h1 | h1 | ⟨_, h1⟩
      · exact Or.inl h1
      · exact absurd (by rw [h1]) (hentry x)
      · exact Or.inr h1
  · intro τ hτ
    rcases h.task τ hτ with h1 | h1 | h1 | ⟨_, h1, h2⟩
    · exact Or.inl h1
    · exact Or.inr (Or.inl h1)
    · rcases hs.task τ hτ with h2 | h2
      · exact Or.inr (Or.inl h2)
      · exact absurd (by unfold Says; rw [h1]; rfl) h2
    · exact Or.inr (Or.inr ⟨h1, h2⟩)
  · intro x z m hm
    rcases h.ch x z m hm with h1 | h1 | ⟨_, h1, h2⟩
    · exact Or.inl h1
    · exact absurd (by unfold Says; rw [h1]; rfl) (hs.arrived x z m hm)
    · exact Or.inr ⟨h1, h2⟩

/-- What the invariant comes to. -/
theorem known_concl (h : Known n y u v) :
    At n y u ∧ (n.st y).getBrokerOfUser u = some y ∧
    (∀ x, Linked n y x → UsersSettled n y x → (n.st x).getBrokerOfUser u = some y) ∧
    ∀ x, (n.st x).getBrokerOfUser u = some y ∨ (n.st x).getBrokerOfUser u = none := by
  obtain ⟨mm, hvy⟩ := h.atY
  refine ⟨?_, ?_, ?_, ?_⟩
  · show (UNet.view (n.st y) u).c = true
    rw [hvy]
  · show (UNet.view (n.st y) u).e.bind VV.value = some y
    rw [hvy]; rfl
  · rintro x ⟨k1, k2⟩ s
    have k1' := (knows_iff _ _ _).1 k1
    have k2' := (knows_iff _ _ _).1 k2
    have hx : x ≠ y := by rintro rfl; exact k1' (h.irr x)
    have huser : ∀ m : SyncMsg U B T, ∀ w, entryOf u m = some w → ¬ IsTopic m := by
      intro m w hm ht
      cases m with
      | user m => exact ht
      | topic m => cases hm
    rcases h.cov x hx k1' k2' with h1 | h1 | ⟨τ, h1, h5, h6, h7⟩ | ⟨m, h1, h5⟩ | h1
    · show (UNet.view (n.st x) u).e.bind VV.value = some y
      rw [h1]; rfl
    · exfalso
      have h3 := UNet.sync_msg (n.st y) u
      rw [s.announced, h1, hvy] at h3
      cases h3
    · obtain ⟨ds, h8, h9⟩ := s.sent τ h1 h5 (huser _ _ h6)
      exact absurd (h7 ds h8) h9
    · exact absurd (s.arrived m h1) (huser _ _ h5)
    · exact absurd h1 s.initial
  · intro x
    have hg : ∀ w, (UNet.view (n.st x) u).e = w → (n.st x).getBrokerOfUser u = w.bind VV.value := by
      rintro _ rfl; rfl
    rcases known_entry h x with h3 | h3 <;> rw [hg _ h3] <;> simp

/-- **C120, partial: the broker that crashed comes back.** As in `C120_found_partial`: broker `b` ends, user
`u` connects to `y`, and no link of `y` to a greater broker comes up after that. By the end of `l4` nobody routes `u` to `b` any more, and nothing under way says that `u` is there. From then on (`l5`) links of
`b` may come and go like those of the others. Then `u` is connected to `y`, every broker linked to `y` to which `y` has
said everything routes `u` to `y` — `b` included —, and everybody routes `u` to `y` or to nobody. So what goes wrong in
`C120_false` and `C120_thrown_out` takes somebody who still says that `u` is at `b` when `b` is linked again. -/
theorem C120_back_partial (b y : B) (u : U) (hd : H) (ts : List T) (l1 l2 l3 l4 l5 : List (MLabel U B T H))
    (hno : ∀ l ∈ l1, ¬ Connects u l)
    (hlinks : ∀ x y, x ≠ y → Linked ((start : MNet U B T H).run l1) x y)
    (hinit : ((start : MNet U B T H).run l1).fullU = [])
    (hturn : InTurn u ((start : MNet U B T H).run l1) l2) (hat : whereabouts u l2 none = some b)
    (hway : NothingUnderWay u ((start : MNet U B T H).run (l1 ++ l2)))
    (hann : ∀ x, ¬ Unannounced u ((start : MNet U B T H).run (l1 ++ l2)) x)
    (h3 : ∀ l ∈ l3, ¬ Connects u l ∧ NoLinkOf b l) (hyb : y ≠ b)
    (hknown : (((start : MNet U B T H).run (l1 ++ l2 ++ .restart b :: l3)).st y).getBrokerOfUser u = some b)
    (hdue : ∀ x, y < x → (x, y) ∉ ((start : MNet U B T H).run (l1 ++ l2 ++ .restart b :: l3)).fullU)
    (h4 : ∀ l ∈ l4, NoLinkOf b l ∧ NoGreaterLink y l ∧ Stays u y l)
    (hgone : NobodySays ((start : MNet U B T H).run (l1 ++ l2 ++ .restart b :: l3 ++ .connect y u hd ts :: l4)) u b)
    (h5 : ∀ l ∈ l5, NoGreaterLink y l ∧ Stays u y l)
    (hlen : 2 * (l1.length + l2.length + 1) < 2 ^ 64) :
    let n := (start : MNet U B T H).run (l1 ++ l2 ++ .restart b :: l3 ++ .connect y u hd ts :: l4 ++ l5)
    At n y u ∧ (n.st y).getBrokerOfUser u = some y ∧
    (∀ x, Linked n y x → UsersSettled n y x → (n.st x).getBrokerOfUser u = some y) ∧
    ∀ x, (n.st x).getBrokerOfUser u = some y ∨ (n.st x).getBrokerOfUser u = none := by
  intro n
  obtain ⟨v, h0⟩ := found_moved u b y hd ts l1 l2 l3 l4 hno hlinks hinit hturn hat hway hann h3 hyb hknown hdue h4 hlen
  have h := known_run l5 _ (known_of_moved h0 hgone) h5
  rw [← Mesh.run_append] at h
  exact known_concl h

/-! ### A case

As for `C120_greatest_partial`: user 7 was at broker 0, which ended, and is at broker 2, the greatest. Broker 0 is linked
again, broker 1 tells it where user 7 is, and so does broker 2; what broker 0 says in turn does no harm. -/

def demoBack : List (MLabel Nat (Fin 3) Nat Nat) :=
  [.linkUp 0 1 130 131, .linkUp 2 0 132 133, .fullUser 1 0, .fullUser 2 0, .send 3 true, .deliver 1 0, .fullUser 0 2,
   .send 5 true, .deliver 0 2, .send 4 true, .deliver 2 0]

def demoBackEnd : MNet Nat (Fin 3) Nat Nat :=
  (start : MNet Nat (Fin 3) Nat Nat).run
    (demoLinks ++ demoEarly ++ .restart 0 :: demoNoticed ++ .connect 2 7 122 [3] :: demoRelinked ++ demoBack)

/-- What `C120_back_partial` asks for beyond the hypotheses shown to be met there. -/
example : NobodySays demoGreatest 7 0 ∧ (∀ l ∈ demoBack, NoGreaterLink 2 l ∧ Stays 7 2 l) ∧
    (demoGreatest.st 0).getBrokerOfUser 7 = none ∧
    Linked demoBackEnd 2 0 ∧ UsersSettled demoBackEnd 2 0 ∧ (demoBackEnd.st 0).getBrokerOfUser 7 = some 2 := by
  refine ⟨⟨by decide +kernel, ?_, ?_⟩, ?_, by decide +kernel, ⟨by decide +kernel, by decide +kernel⟩,
    ⟨by decide +kernel, by decide +kernel, ?_, ?_⟩, by decide +kernel⟩
  · unfold Says; decide +kernel
  · unfold Says; decide +kernel
  · intro l hl
    simp only [demoBack, List.mem_cons, List.not_mem_nil, or_false] at hl
    rcases hl with rfl | rfl | rfl | rfl | rfl | rfl | rfl | rfl | rfl | rfl | rfl <;>
      simp [Connects, NoGreaterLink, Stays]
  · have : ∀ τ ∈ demoBackEnd.tasks, τ.here = 2 → τ.dests = some [] := by decide +kernel
    intro τ hτ h1 _
    exact ⟨[], this τ hτ h1, by simp⟩
  · have : demoBackEnd.ch 2 0 = [] := List.isEmpty_iff.1 (by decide +kernel)
    rw [this]; simp

end Verif.Props.MeshBack

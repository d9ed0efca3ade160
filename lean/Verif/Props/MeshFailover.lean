import Verif.Props.MeshCrash

/-!
# Properties C120 and C121: the users of a broker that crashed connect elsewhere, or do not
-/

set_option linter.unusedSectionVars false

namespace Verif.Props.MeshFailover
open Verif Verif.Conns Verif.MNet Verif.Props.Mesh Verif.Props.MeshUsers Verif.Props.MeshTurn
  Verif.Props.MeshCrash

variable {U B T H : Type} [DecidableEq U] [DecidableEq B] [DecidableEq T] [DecidableEq H]
  [LT B] [DecidableLT B]

/-! ## Specification -/

/-- No link of `b` comes up. -/
def NoLinkOf (b : B) : MLabel U B T H → Prop
  | .linkUp x y _ _ => x ≠ b ∧ y ≠ b
  | _ => True

/-- No link of `b` to a greater broker comes up. -/
def NoGreaterLink (b : B) : MLabel U B T H → Prop
  | .linkUp x y _ _ => (x = b → ¬ b < y) ∧ (y = b → ¬ b < x)
  | _ => True

/-- User `u` neither connects anywhere nor loses their connection to `y`, and `y` does not end. -/
def Stays (u : U) (y : B) (l : MLabel U B T H) : Prop :=
  ¬ Connects u l ∧ l ≠ .disconnect y u ∧ l ≠ .restart y

/-- The claim of C120: broker `b` ends; some time later a user connects to another broker `y` and stays. Then the
user remains connected, and brokers linked to `y` with which everything has been said forward the user's messages
to `y`. -/
def FoundAfterCrash (U B T H : Type) [DecidableEq U] [DecidableEq B] [DecidableEq T] [DecidableEq H]
    [LT B] [DecidableLT B] : Prop :=
  ∀ (l1 l2 l3 : List (MLabel U B T H)) (b y : B) (u : U) (h : H) (ts : List T), y ≠ b →
    (∀ l ∈ l2, ¬ Connects u l) → (∀ l ∈ l3, Stays u y l) →
    let n := (start : MNet U B T H).run (l1 ++ .restart b :: l2 ++ .connect y u h ts :: l3)
    At n y u ∧ ∀ x, AllSaid n y x → (n.st x).getBrokerOfUser u = some y

/-! ## Invariant -/

/-- The entry of the new connection. -/
abbrev new (y : B) (v : Nat) : Option (VV B) := some ⟨v + 1, some y⟩

/-- `x` knows of the new connection or will be told. -/
def Heard (n : MNet U B T H) (y : B) (u : U) (v : Nat) (x : B) : Prop :=
  (UNet.view (n.st x) u).e = new y v ∨
  (UNet.view (n.st y) u).m = true ∨
  (∃ τ ∈ n.tasks, τ.here = y ∧ entryOf u τ.msg = new y v ∧ ∀ ds, τ.dests = some ds → x ∈ ds) ∨
  (∃ m ∈ n.ch y x, entryOf u m = new y v) ∨
  (y, x) ∈ n.fullU

/-- What a broker other than the new one may hold. -/
def Holds (b y : B) (v : Nat) (on : Prop) (w : UNet.View B) : Prop :=
  w = ⟨none, false, false⟩ ∨ w = ⟨old b v, false, false⟩ ∨ (on ∧ w = ⟨new y v, false, false⟩)

/-- The frame was not sent by a broker greater than `y`. -/
def Mild (y : B) : SyncMsg U B T → Prop
  | .user m => ¬ y < m.ident
  | .topic _ => True

/-- `on`: the user has connected to `y`. `K`: brokers not restarted since the crash of `b`. -/
structure Moved (n : MNet U B T H) (b y : B) (u : U) (v : Nat) (K : B → Prop) (on : Prop) : Prop where
  ident : ∀ x, (n.st x).identity = x
  dident : ∀ x, (n.st x).direct.ident = x
  irr : ∀ x, (n.st x).brokers.get x = none
  links : ∀ x, (n.st b).brokers.get x = none
  atB : UNet.view (n.st b) u = ⟨none, false, false⟩
  atY : on → ∃ m, UNet.view (n.st y) u = ⟨new y v, m, true⟩
  atO : ∀ x, x ≠ b → ¬ (on ∧ x = y) → Holds b y v on (UNet.view (n.st x) u)
  keep : ¬ on → ∀ x, x ≠ b → K x → UNet.view (n.st x) u = ⟨old b v, false, false⟩
  full : on → ∀ p ∈ n.fullU, p.2 = y → ¬ y < p.1
  task : ∀ τ ∈ n.tasks, entryOf u τ.msg = none ∨ τ.dests = some [] ∨ entryOf u τ.msg = old b v ∨
    (on ∧ entryOf u τ.msg = new y v ∧ (τ.here = y ∨ Mild y τ.msg ∨ ∃ ds, τ.dests = some ds ∧ y ∉ ds))
  ch : ∀ x z, ∀ m ∈ n.ch x z, entryOf u m = none ∨ entryOf u m = old b v ∨
    (on ∧ entryOf u m = new y v ∧ (Mild y m ∨ z ≠ y))
  cov : on → ∀ x, x ≠ y → (n.st y).brokers.get x ≠ none → (n.st x).brokers.get y ≠ none → Heard n y u v x

variable {n : MNet U B T H} {b y : B} {u : U} {v : Nat} {K : B → Prop} {on : Prop}

theorem dident_act (n : MNet U B T H) (x : B) (op : Op U B T H) (h : ∀ z, (n.st z).direct.ident = z) (z : B) :
    ((n.act x op).st z).direct.ident = z := by
  rw [st_act]; split
  · rename_i e; subst e; rw [direct_ident_step]; exact h z
  · exact h z

/-- A call. -/
theorem moved_act (h : Moved n b y u v K on) (x : B) (op : Op U B T H)
    (hknow : ∀ z, ((n.st x).step op).brokers.get z ≠ none → (n.st x).brokers.get z ≠ none)
    (hB : x = b → UNet.view ((n.st x).step op) u = UNet.view (n.st x) u)
    (hY : on → x = y → (∃ m, UNet.view ((n.st x).step op) u = ⟨new y v, m, true⟩) ∧
      ((UNet.view (n.st x) u).m = true → (UNet.view ((n.st x).step op) u).m = true ∨
        ∃ τ ∈ n.tasks, τ.here = y ∧ entryOf u τ.msg = new y v ∧ τ.dests = none))
    (hO : x ≠ b → ¬ (on ∧ x = y) → Holds b y v on (UNet.view ((n.st x).step op) u) ∧
      (¬ on → UNet.view (n.st x) u = ⟨old b v, false, false⟩ →
        UNet.view ((n.st x).step op) u = ⟨old b v, false, false⟩) ∧
      ((UNet.view (n.st x) u).e = new y v → (UNet.view ((n.st x).step op) u).e = new y v)) :
    Moved (n.act x op) b y u v K on := by
  have hk : ∀ a z, ((n.act x op).st a).brokers.get z ≠ none → (n.st a).brokers.get z ≠ none := by
    intro a z
    rw [st_act]; split
    · rename_i e; subst e; exact hknow z
    · exact id
  have hk0 : ∀ a z, (n.st a).brokers.get z = none → ((n.act x op).st a).brokers.get z = none := by
    intro a z h0
    exact Classical.byContradiction fun h1 => hk a z h1 h0
  refine ⟨identity_act n x op h.ident, dident_act n x op h.dident, fun a => hk0 _ _ (h.irr a),
    fun a => hk0 _ _ (h.links a), ?_, ?_, ?_, ?_, h.full, h.task, h.ch, ?_⟩
  · rw [st_act]; split
    · rename_i e; rw [hB e.symm, ← e]; exact h.atB
    · exact h.atB
  · intro ho
    rw [st_act]; split
    · rename_i e; rw [← e] at hY ⊢; exact (hY ho rfl).1
    · exact h.atY ho
  · intro a ha hay
    rw [st_act]; split
    · rename_i e; subst e; exact (hO ha hay).1
    · exact h.atO a ha hay
  · intro ho a ha hKa
    have h1 := h.keep ho a ha hKa
    rw [st_act]; split
    · rename_i e; subst e; exact (hO ha (fun e => ho e.1)).2.1 ho h1
    · exact h1
  · intro ho a ha h1 h2
    have hb : a ≠ b := by
      rintro rfl; exact hk _ _ h2 (h.links y)
    rcases h.cov ho a ha (hk _ _ h1) (hk _ _ h2) with h3 | h3 | h3 | h3 | h3
    · left
      rw [st_act]; split
      · rename_i e; subst e; exact (hO hb (fun e => ha e.2)).2.2 h3
      · exact h3
    · by_cases e : y = x
      · rw [e] at h3
        rcases (hY ho e.symm).2 h3 with h4 | ⟨τ, h4, h5, h6, h7⟩
        · right; left; rw [st_act, if_pos e]; exact h4
        · right; right; left
          exact ⟨τ, h4, h5, h6, by rw [h7]; simp⟩
      · right; left; rw [st_act, if_neg e]; exact h3
    · exact Or.inr (Or.inr (Or.inl h3))
    · exact Or.inr (Or.inr (Or.inr (Or.inl h3)))
    · exact Or.inr (Or.inr (Or.inr (Or.inr h3)))

/-- A call that does not concern `u`. -/
theorem moved_same (h : Moved n b y u v K on) (x : B) (op : Op U B T H)
    (hknow : ∀ z, ((n.st x).step op).brokers.get z ≠ none → (n.st x).brokers.get z ≠ none)
    (hv : UNet.view ((n.st x).step op) u = UNet.view (n.st x) u) : Moved (n.act x op) b y u v K on := by
  refine moved_act h x op hknow (fun _ => hv) ?_ ?_
  · rintro ho rfl
    rw [hv]; exact ⟨h.atY ho, Or.inl⟩
  · intro hb hy
    rw [hv]; exact ⟨h.atO x hb hy, fun _ => id, id⟩

theorem moved_quiet (h : Moved n b y u v K on) (x : B) (op : Op U B T H)
    (hk : KeepsLinks (n.st x) op) (hun : UNet.Unrelated u op) : Moved (n.act x op) b y u v K on :=
  moved_same h x op (fun z => (known_call _ op hk z).1) (UNet.view_unrelated _ u op hun)

/-- Frames leave a queue. -/
theorem moved_setCh (h : Moved n b y u v K on) (x z : B)
    (q : List (SyncMsg U B T)) (hin : ∀ m ∈ q, m ∈ n.ch x z)
    (hlose : ∀ m ∈ n.ch x z, m ∈ q ∨ entryOf u m ≠ new y v ∨ (n.st x).brokers.get z = none ∨
      (n.st z).brokers.get x = none ∨ (UNet.view (n.st z) u).e = new y v) :
    Moved (n.setCh x z q) b y u v K on := by
  have hsub : ∀ x' z' m, m ∈ (n.setCh x z q).ch x' z' → m ∈ n.ch x' z' := by
    intro x' z' m hm
    simp only [setCh] at hm
    split at hm
    · rename_i e; obtain ⟨rfl, rfl⟩ := e; exact hin m hm
    · exact hm
  refine ⟨h.ident, h.dident, h.irr, h.links, h.atB, h.atY, h.atO, h.keep, h.full, h.task,
    fun x' z' m hm => h.ch x' z' m (hsub _ _ _ hm), ?_⟩
  intro ho a ha h1 h2
  rcases h.cov ho a ha h1 h2 with h3 | h3 | h3 | ⟨m, h3, h4⟩ | h3
  · exact Or.inl h3
  · exact Or.inr (Or.inl h3)
  · exact Or.inr (Or.inr (Or.inl h3))
  · by_cases e : y = x ∧ a = z
    · obtain ⟨rfl, rfl⟩ := e
      rcases hlose m h3 with h6 | h6 | h6 | h6 | h6
      · exact Or.inr (Or.inr (Or.inr (Or.inl ⟨m, by simp [setCh, h6], h4⟩)))
      · exact absurd h4 h6
      · exact absurd h6 h1
      · exact absurd h6 h2
      · exact Or.inl h6
    · exact Or.inr (Or.inr (Or.inr (Or.inl ⟨m, by simp only [setCh]; rw [if_neg e]; exact h3, h4⟩)))
  · exact Or.inr (Or.inr (Or.inr (Or.inr h3)))

/-- A new sync. -/
theorem moved_spawn (h : Moved n b y u v K on) (τ : SyncTask U B T)
    (h1 : entryOf u τ.msg = none ∨ τ.dests = some [] ∨ entryOf u τ.msg = old b v ∨
      (on ∧ entryOf u τ.msg = new y v ∧ (τ.here = y ∨ Mild y τ.msg ∨ ∃ ds, τ.dests = some ds ∧ y ∉ ds))) :
    Moved (n.spawn τ) b y u v K on := by
  have hmem : ∀ σ, σ ∈ (n.spawn τ).tasks ↔ σ ∈ n.tasks ∨ σ = τ := by
    intro σ; simp [spawn]
  refine ⟨h.ident, h.dident, h.irr, h.links, h.atB, h.atY, h.atO, h.keep, h.full, ?_, h.ch, ?_⟩
  · intro σ hσ
    rcases (hmem σ).1 hσ with h3 | rfl
    · exact h.task σ h3
    · exact h1
  · intro ho a ha k1 k2
    rcases h.cov ho a ha k1 k2 with h3 | h3 | ⟨σ, h3, h4⟩ | h3 | h3
    · exact Or.inl h3
    · exact Or.inr (Or.inl h3)
    · exact Or.inr (Or.inr (Or.inl ⟨σ, (hmem σ).2 (Or.inl h3), h4⟩))
    · exact Or.inr (Or.inr (Or.inr (Or.inl h3)))
    · exact Or.inr (Or.inr (Or.inr (Or.inr h3)))

/-- Progress of a sync that does not lose anything. -/
theorem moved_set (h : Moved n b y u v K on) (i : Nat) (x : B)
    (m : SyncMsg U B T) (d d' : Option (List B)) (hi : n.tasks[i]? = some ⟨x, m, d⟩)
    (hd : ∀ ds, d = some ds → ∃ ds', d' = some ds' ∧ ∀ z ∈ ds', z ∈ ds)
    (hlose : on → x = y → entryOf u m = new y v → ∀ z, (n.st y).brokers.get z ≠ none →
      (∀ ds, d = some ds → z ∈ ds) → (∀ ds, d' = some ds → z ∈ ds) ∨ ∃ m' ∈ n.ch y z, entryOf u m' = new y v) :
    Moved { n with tasks := n.tasks.set i ⟨x, m, d'⟩ } b y u v K on := by
  have hin : (⟨x, m, d'⟩ : SyncTask U B T) ∈ n.tasks.set i ⟨x, m, d'⟩ :=
    List.mem_set (List.getElem?_eq_some_iff.1 hi).1 _
  have hold := List.mem_of_getElem? hi
  refine ⟨h.ident, h.dident, h.irr, h.links, h.atB, h.atY, h.atO, h.keep, h.full, ?_, h.ch, ?_⟩
  · intro σ hσ
    rcases List.mem_or_eq_of_mem_set hσ with h1 | rfl
    · exact h.task σ h1
    · rcases h.task _ hold with h1 | h1 | h1 | ⟨ho, h1, h2⟩
      · exact Or.inl h1
      · obtain ⟨ds', h3, h4⟩ := hd _ h1
        right; left
        rw [h3]
        cases ds' with
        | nil => rfl
        | cons a _ => exact absurd (h4 a (by simp)) (by simp)
      · exact Or.inr (Or.inr (Or.inl h1))
      · refine Or.inr (Or.inr (Or.inr ⟨ho, h1, ?_⟩))
        rcases h2 with h2 | h2 | ⟨ds, h2, h3⟩
        · exact Or.inl h2
        · exact Or.inr (Or.inl h2)
        · obtain ⟨ds', h4, h5⟩ := hd _ h2
          refine Or.inr (Or.inr ?_)
          exact ⟨ds', h4, fun h6 => h3 (h5 _ h6)⟩
  · intro ho a ha k1 k2
    rcases h.cov ho a ha k1 k2 with h3 | h3 | ⟨σ, h3, h5, h6, h7⟩ | h3 | h3
    · exact Or.inl h3
    · exact Or.inr (Or.inl h3)
    · rcases mem_set_of_mem (a := ⟨x, m, d'⟩) hi h3 with rfl | h8
      · simp only at h5 h6 h7
        rcases hlose ho h5 h6 a k1 h7 with h8 | h8
        · exact Or.inr (Or.inr (Or.inl ⟨_, hin, h5, h6, h8⟩))
        · exact Or.inr (Or.inr (Or.inr (Or.inl h8)))
      · exact Or.inr (Or.inr (Or.inl ⟨σ, h8, h5, h6, h7⟩))
    · exact Or.inr (Or.inr (Or.inr (Or.inl h3)))
    · exact Or.inr (Or.inr (Or.inr (Or.inr h3)))

/-- A frame is queued. -/
theorem moved_push (h : Moved n b y u v K on) (x z : B) (m : SyncMsg U B T)
    (h1 : entryOf u m = none ∨ entryOf u m = old b v ∨ (on ∧ entryOf u m = new y v ∧ (Mild y m ∨ z ≠ y))) :
    Moved (n.setCh x z (n.ch x z ++ [m])) b y u v K on := by
  have hcase : ∀ x' z' m', m' ∈ (n.setCh x z (n.ch x z ++ [m])).ch x' z' →
      m' ∈ n.ch x' z' ∨ (x' = x ∧ z' = z ∧ m' = m) := by
    intro x' z' m' hm
    simp only [setCh] at hm
    split at hm
    · rename_i e; obtain ⟨rfl, rfl⟩ := e
      rcases List.mem_append.1 hm with h3 | h3
      · exact Or.inl h3
      · exact Or.inr ⟨rfl, rfl, List.mem_singleton.1 h3⟩
    · exact Or.inl hm
  have hkeep : ∀ x' z' m', m' ∈ n.ch x' z' → m' ∈ (n.setCh x z (n.ch x z ++ [m])).ch x' z' := by
    intro x' z' m' hm
    simp only [setCh]
    split
    · rename_i e; obtain ⟨rfl, rfl⟩ := e; simp [hm]
    · exact hm
  refine ⟨h.ident, h.dident, h.irr, h.links, h.atB, h.atY, h.atO, h.keep, h.full, h.task, ?_, ?_⟩
  · intro x' z' m' hm
    rcases hcase _ _ _ hm with h3 | ⟨rfl, rfl, rfl⟩
    · exact h.ch x' z' m' h3
    · exact h1
  · intro ho a ha k1 k2
    rcases h.cov ho a ha k1 k2 with h3 | h3 | h3 | ⟨m', h3, h4⟩ | h3
    · exact Or.inl h3
    · exact Or.inr (Or.inl h3)
    · exact Or.inr (Or.inr (Or.inl h3))
    · exact Or.inr (Or.inr (Or.inr (Or.inl ⟨m', hkeep _ _ _ h3, h4⟩)))
    · exact Or.inr (Or.inr (Or.inr (Or.inr h3)))

/-- `x` removes `d`. -/
theorem moved_drop (h : Moved n b y u v K on) (x d : B) :
    Moved ((n.act x (.removeBroker d)).setCh d x []) b y u v K on := by
  have h1 := moved_same h x (.removeBroker d) (removeBroker_known _ d)
    (UNet.view_unrelated _ u (.removeBroker d) trivial)
  refine moved_setCh h1 d x [] (by simp) ?_
  intro m _
  refine Or.inr (Or.inr (Or.inr (Or.inl ?_)))
  rw [st_act_self]
  show ((n.st x).removeBroker d).brokers.get d = none
  rw [removeBroker_brokers_get, if_pos rfl]

theorem moved_send (h : Moved n b y u v K on) (i : Nat) (ok : Bool) :
    Moved (n.step (.send i ok)) b y u v K on := by
  simp only [MNet.step]
  split
  · rename_i x m d ds hi
    have hold := List.mem_of_getElem? hi
    have hd : ∀ ds0, some (d :: ds) = some ds0 → ∃ ds', some ds = some ds' ∧ ∀ z ∈ ds', z ∈ ds0 := by
      rintro _ ⟨⟩
      exact ⟨ds, rfl, fun z hz => List.mem_cons_of_mem _ hz⟩
    by_cases hk : n.knows x d = true
    · rw [if_pos hk]
      have hk' := (knows_iff _ _ _).1 hk
      cases ok with
      | true =>
        rw [if_pos rfl]
        have h1 := moved_push h x d m (by
          rcases h.task _ hold with h1 | h1 | h1 | ⟨ho, h1, h2⟩
          · exact Or.inl h1
          · cases h1
          · exact Or.inr (Or.inl h1)
          · refine Or.inr (Or.inr ⟨ho, h1, ?_⟩)
            rcases h2 with h2 | h2 | ⟨ds', h2, h3⟩
            · right; rintro rfl
              simp only at h2
              rw [h2] at hk'; exact hk' (h.irr _)
            · exact Or.inl h2
            · right; rintro rfl; cases h2; simp at h3)
        refine moved_set h1 i x m (some (d :: ds)) (some ds) hi hd ?_
        rintro _ rfl hm z _ hz
        rcases List.mem_cons.1 (hz _ rfl) with rfl | h2
        · right; exact ⟨m, by simp [setCh], hm⟩
        · left; rintro ds' ⟨⟩; exact h2
      | false =>
        rw [if_neg (by simp)]
        have h1 := moved_drop h x d
        have hgone : (((n.act x (.removeBroker d)).setCh d x []).st x).brokers.get d = none := by
          show ((n.act x (.removeBroker d)).st x).brokers.get d = none
          rw [st_act_self]
          show ((n.st x).removeBroker d).brokers.get d = none
          rw [removeBroker_brokers_get, if_pos rfl]
        refine moved_set h1 i x m (some (d :: ds)) (some ds) hi hd ?_
        rintro _ rfl hm z hne hz
        rcases List.mem_cons.1 (hz _ rfl) with rfl | h2
        · exact absurd hgone hne
        · left; rintro ds' ⟨⟩; exact h2
    · rw [if_neg hk]
      have hn : (n.st x).brokers.get d = none := by
        cases hd : (n.st x).brokers.get d with
        | none => rfl
        | some c => exact absurd ((knows_iff n x d).2 (by rw [hd]; simp)) hk
      refine moved_set h i x m (some (d :: ds)) (some ds) hi hd ?_
      rintro _ rfl hm z hne hz
      rcases List.mem_cons.1 (hz _ rfl) with rfl | h2
      · exact absurd hn hne
      · left; rintro ds' ⟨⟩; exact h2
  · exact h

theorem moved_linkUp (h : Moved n b y u v K on) (x z : B) (c c' : H)
    (hb : x ≠ b ∧ z ≠ b) (hy : on → (x = y → ¬ y < z) ∧ (z = y → ¬ y < x)) : Moved (n.step (.linkUp x z c c')) b y u v K on := by
  simp only [MNet.step]
  split
  · exact h
  · rename_i hxy
    show Moved ({ (((n.act x (.addBroker z c)).act z (.addBroker x c')).setCh x z []).setCh z x [] with
      fullT := (x, z) :: (z, x) :: n.fullT, fullU := (x, z) :: (z, x) :: n.fullU } : MNet U B T H) b y u v K on
    generalize hN : ({ (((n.act x (.addBroker z c)).act z (.addBroker x c')).setCh x z []).setCh z x [] with
      fullT := (x, z) :: (z, x) :: n.fullT, fullU := (x, z) :: (z, x) :: n.fullU } : MNet U B T H) = N
    have hst : N.st = ((n.act x (.addBroker z c)).act z (.addBroker x c')).st := by rw [← hN]; rfl
    have hfull : N.fullU = (x, z) :: (z, x) :: n.fullU := by rw [← hN]
    have htasks : N.tasks = n.tasks := by rw [← hN]; rfl
    have hch : ∀ a a', N.ch a a' = if a = x ∧ a' = z ∨ a = z ∧ a' = x then [] else n.ch a a' := by
      intro a a'
      rw [← hN]; simp only [setCh, act]
      by_cases h1 : a = z ∧ a' = x
      · simp [h1]
      · by_cases h2 : a = x ∧ a' = z
        · simp [h2]
        · simp [h1, h2]
    have hview : ∀ w, UNet.view (N.st w) u = UNet.view (n.st w) u := by
      intro w
      rw [hst, st_act]; split
      · rename_i e; subst e
        rw [UNet.view_unrelated _ u _ (by trivial), st_act_ne _ _ _ (Ne.symm hxy)]
      · rw [st_act]; split
        · rename_i e; subst e; rw [UNet.view_unrelated _ u _ (by trivial)]
        · rfl
    have hid : ∀ w, (N.st w).identity = w := by
      rw [hst]; exact identity_act _ z _ (identity_act n x _ h.ident)
    have hknow : ∀ w w', ¬ (w = x ∧ w' = z) → ¬ (w = z ∧ w' = x) →
        (N.st w).brokers.get w' = (n.st w).brokers.get w' := by
      intro w w' h1 h2
      rw [hst, st_act]; split
      · rename_i e; subst e
        rw [st_act_ne _ _ _ (Ne.symm hxy)]
        show ((n.st w).addBroker x c').brokers.get w' = _
        rw [get_addBroker, if_neg (fun e => h2 ⟨rfl, e.symm⟩)]
      · rw [st_act]; split
        · rename_i e; subst e
          show ((n.st w).addBroker z c).brokers.get w' = _
          rw [get_addBroker, if_neg (fun e => h1 ⟨rfl, e.symm⟩)]
        · rfl
    have hsub : ∀ a a' m, m ∈ N.ch a a' → m ∈ n.ch a a' := by
      intro a a' m hm
      rw [hch] at hm; split at hm
      · cases hm
      · exact hm
    have hdid : ∀ w, (N.st w).direct.ident = w := by
      rw [hst]; exact dident_act _ z _ (dident_act n x _ h.dident)
    refine ⟨hid, hdid, ?_, ?_, by rw [hview]; exact h.atB, by rw [hview]; exact h.atY,
      fun w h1 h2 => by rw [hview]; exact h.atO w h1 h2, fun ho w h1 h2 => by rw [hview]; exact h.keep ho w h1 h2, ?_,
      by rw [htasks]; exact h.task, fun a a' m hm => h.ch a a' m (hsub _ _ _ hm), ?_⟩
    · intro w
      rw [hknow w w (fun e => hxy (e.1.symm.trans e.2)) (fun e => hxy (e.2.symm.trans e.1))]
      exact h.irr w
    · intro w
      rw [hknow b w (fun e => hb.1 e.1.symm) (fun e => hb.2 e.1.symm)]
      exact h.links w
    · intro ho p hp
      obtain ⟨y1, y2⟩ := hy ho
      rw [hfull] at hp
      rcases List.mem_cons.1 hp with rfl | hp
      · exact y2
      · rcases List.mem_cons.1 hp with rfl | hp
        · exact y1
        · exact h.full ho p hp
    · intro ho a ha k1 k2
      by_cases e : (x = y ∧ z = a) ∨ (x = a ∧ z = y)
      · refine Or.inr (Or.inr (Or.inr (Or.inr ?_)))
        rw [hfull]
        rcases e with ⟨rfl, rfl⟩ | ⟨rfl, rfl⟩ <;> simp
      have e1 : ¬ (y = x ∧ a = z) := fun e' => e (Or.inl ⟨e'.1.symm, e'.2.symm⟩)
      have e2 : ¬ (y = z ∧ a = x) := fun e' => e (Or.inr ⟨e'.2.symm, e'.1.symm⟩)
      rw [hknow y a e1 e2] at k1
      rw [hknow a y (fun e' => e2 ⟨e'.2, e'.1⟩) (fun e' => e1 ⟨e'.2, e'.1⟩)] at k2
      rcases h.cov ho a ha k1 k2 with h4 | h4 | h4 | ⟨m, h4, h5⟩ | h4
      · left; rw [hview]; exact h4
      · right; left; rw [hview]; exact h4
      · right; right; left; rw [htasks]; exact h4
      · refine Or.inr (Or.inr (Or.inr (Or.inl ⟨m, ?_, h5⟩)))
        rw [hch, if_neg]; exact h4
        rintro (e' | e')
        · exact e1 e'
        · exact e2 e'
      · refine Or.inr (Or.inr (Or.inr (Or.inr ?_)))
        rw [hfull]; simp [h4]

theorem moved_restart (h : Moved n b y u v K on) (x : B) (hy : on → x ≠ y) (hK : ¬ K x) :
    Moved (n.step (.restart x)) b y u v K on := by
  have hst : ∀ z, (n.step (.restart x)).st z = if z = x then Conns.new x else n.st z := fun _ => rfl
  have hnew : UNet.view (Conns.new x : Conns U B T H) u = ⟨none, false, false⟩ := by
    simp [UNet.view, Conns.new, VMap.new]
  have hch : ∀ a a' m, m ∈ (n.step (.restart x)).ch a a' → m ∈ n.ch a a' := by
    intro a a' m hm
    simp only [MNet.step] at hm
    split at hm
    · cases hm
    · exact hm
  refine ⟨?_, ?_, ?_, ?_, ?_, ?_, ?_, ?_, ?_, ?_, fun a a' m hm => h.ch a a' m (hch _ _ _ hm), ?_⟩
  · intro z; rw [hst]; split
    · rename_i e; subst e; rfl
    · exact h.ident z
  · intro z; rw [hst]; split
    · rename_i e; subst e; rfl
    · exact h.dident z
  · intro z; rw [hst]; split
    · rfl
    · exact h.irr z
  · intro z; rw [hst]; split
    · rfl
    · exact h.links z
  · rw [hst]; split
    · exact hnew
    · exact h.atB
  · intro ho; rw [hst, if_neg (fun e => hy ho e.symm)]; exact h.atY ho
  · intro z h1 h2; rw [hst]; split
    · exact Or.inl hnew
    · exact h.atO z h1 h2
  · intro ho z h1 h2
    rw [hst, if_neg (by rintro rfl; exact hK h2)]
    exact h.keep ho z h1 h2
  · intro ho p hp; exact h.full ho p (List.mem_filter.1 hp).1
  · intro τ hτ; exact h.task τ (List.mem_filter.1 hτ).1
  · intro ho a ha k1 k2
    have hyx : y ≠ x := fun e => hy ho e.symm
    have hax : a ≠ x := by
      rintro rfl; rw [hst, if_pos rfl] at k2; exact k2 rfl
    rw [hst, if_neg hyx] at k1
    rw [hst, if_neg hax] at k2
    rcases h.cov ho a ha k1 k2 with h4 | h4 | ⟨τ, h4, h5, h6⟩ | ⟨m, h4, h5⟩ | h4
    · left; rw [hst, if_neg hax]; exact h4
    · right; left; rw [hst, if_neg hyx]; exact h4
    · exact Or.inr (Or.inr (Or.inl ⟨τ, List.mem_filter.2 ⟨h4, by simpa [h5] using hyx⟩, h5, h6⟩))
    · exact Or.inr (Or.inr (Or.inr (Or.inl ⟨m, by simpa [MNet.step, hax] using h4, h5⟩)))
    · exact Or.inr (Or.inr (Or.inr (Or.inr (List.mem_filter.2 ⟨h4, by simpa using hyx⟩))))

/-- The routing entry of any broker. -/
theorem moved_entry (h : Moved n b y u v K on) (x : B) : (UNet.view (n.st x) u).e = none ∨
    (UNet.view (n.st x) u).e = old b v ∨ (on ∧ (UNet.view (n.st x) u).e = new y v) := by
  by_cases hb : x = b
  · subst hb; left; rw [h.atB]
  · by_cases hy : on ∧ x = y
    · obtain ⟨ho, rfl⟩ := hy
      obtain ⟨m, h1⟩ := h.atY ho
      exact Or.inr (Or.inr ⟨ho, by rw [h1]⟩)
    · rcases h.atO x hb hy with h1 | h1 | ⟨ho, h1⟩ <;> rw [h1]
      · exact Or.inl rfl
      · exact Or.inr (Or.inl rfl)
      · exact Or.inr (Or.inr ⟨ho, rfl⟩)

theorem moved_startUser (h : Moved n b y u v K on) (x : B) :
    Moved (n.step (.startUser x)) b y u v K on := by
  have hmsg := UNet.sync_msg (n.st x) u
  have hview : UNet.view ((n.st x).step .partialUserSync) u = _ := UNet.view_sync (n.st x) u
  have hk : ∀ z, ((n.st x).step .partialUserSync).brokers.get z ≠ none → (n.st x).brokers.get z ≠ none :=
    fun z => (known_call _ .partialUserSync trivial z).1
  simp only [MNet.step]
  by_cases hxy : on ∧ x = y
  · obtain ⟨ho, rfl⟩ := hxy
    obtain ⟨mm, h1⟩ := h.atY ho
    cases hm : (n.st x).getPartialUserSync.2 with
    | none =>
      simp only
      rw [hm, h1] at hmsg
      cases mm with
      | true => simp at hmsg
      | false => refine moved_same h x _ hk ?_; rw [hview, h1]; rfl
    | some m =>
      simp only
      rw [hm, h1] at hmsg
      have hmsg' : m.map.get u = _ := hmsg
      have h2 : Moved (n.spawn ⟨x, .user m, none⟩) b x u v K on := by
        refine moved_spawn h _ ?_
        show m.map.get u = none ∨ _ ∨ m.map.get u = old b v ∨ (on ∧ m.map.get u = new x v ∧ _)
        rw [hmsg']
        cases mm with
        | true => exact Or.inr (Or.inr (Or.inr ⟨ho, rfl, Or.inl rfl⟩))
        | false => exact Or.inl rfl
      have hvv : UNet.view ((n.st x).step .partialUserSync) u = ⟨new x v, false, true⟩ := by
        rw [hview, h1]; cases mm <;> rfl
      have hxb : x ≠ b := by
        rintro rfl; have := h.atB; rw [h1] at this; cases this
      refine moved_act h2 x .partialUserSync hk (fun e => absurd e hxb) ?_ (fun _ e => absurd ⟨ho, rfl⟩ e)
      intro _ _
      refine ⟨⟨false, hvv⟩, ?_⟩
      intro h3
      right
      refine ⟨⟨x, .user m, none⟩, by simp [spawn], rfl, ?_, rfl⟩
      show m.map.get u = _
      have h3' : (UNet.view (n.st x) u).m = true := h3
      rw [h1] at h3'
      have h3'' : mm = true := h3'
      rw [hmsg', h3'']; rfl
  · have hm0 : (UNet.view (n.st x) u).m = false := by
      by_cases hb : x = b
      · subst hb; rw [h.atB]
      · rcases h.atO x hb hxy with h1 | h1 | ⟨_, h1⟩ <;> rw [h1]
    have hsame : UNet.view ((n.st x).step .partialUserSync) u = UNet.view (n.st x) u := by
      rw [hview, hm0]
      cases hw : UNet.view (n.st x) u with
      | mk e m c => rw [hw] at hm0; simp only at hm0; subst hm0; rfl
    have h1 := moved_same h x .partialUserSync hk hsame
    cases hm : (n.st x).getPartialUserSync.2 with
    | none => exact h1
    | some m =>
      simp only
      refine moved_spawn h1 _ (Or.inl ?_)
      rw [hm, hm0] at hmsg
      exact hmsg

theorem moved_fullUser (h : Moved n b y u v K on) (x z : B) :
    Moved (n.step (.fullUser x z)) b y u v K on := by
  simp only [MNet.step]
  split
  · rename_i hmem
    -- losing the entry of `fullU` is made up for by the task
    have key : ∀ N : MNet U B T H, N.st = n.st → N.fullU = n.fullU.erase (x, z) → N.ch = n.ch →
        (∀ σ ∈ n.tasks, σ ∈ N.tasks) →
        (∀ σ ∈ N.tasks, σ ∈ n.tasks ∨ (σ.here = x ∧ σ.dests = some [z] ∧ entryOf u σ.msg = (UNet.view (n.st x) u).e ∧
          (¬ y < x → Mild y σ.msg))) →
        (x = y → (UNet.view (n.st x) u).e = new y v → ∃ τ ∈ N.tasks, τ.here = y ∧
          entryOf u τ.msg = new y v ∧ τ.dests = some [z]) → Moved N b y u v K on := by
      intro N h1 h2 h3 h4 h5 h6
      refine ⟨by rw [h1]; exact h.ident, by rw [h1]; exact h.dident, by rw [h1]; exact h.irr,
        by rw [h1]; exact h.links, by rw [h1]; exact h.atB, by rw [h1]; exact h.atY, by rw [h1]; exact h.atO,
        by rw [h1]; exact h.keep, ?_, ?_, by rw [h3]; exact h.ch, ?_⟩
      · intro ho p hp; rw [h2] at hp; exact h.full ho p (List.mem_of_mem_erase hp)
      · intro σ hσ
        rcases h5 σ hσ with h7 | ⟨h7, h8, h9, h10'⟩
        · exact h.task σ h7
        · rw [h8, h9]
          rcases moved_entry h x with h10 | h10 | ⟨ho, h10⟩
          · exact Or.inl h10
          · exact Or.inr (Or.inr (Or.inl h10))
          · refine Or.inr (Or.inr (Or.inr ⟨ho, h10, ?_⟩))
            by_cases hzy : z = y
            · exact Or.inr (Or.inl (h10' (h.full ho _ hmem hzy)))
            · refine Or.inr (Or.inr ⟨[z], rfl, ?_⟩)
              simp only [List.mem_singleton]
              exact fun e => hzy e.symm
      · intro ho a ha k1 k2
        rw [h1] at k1 k2
        rcases h.cov ho a ha k1 k2 with k4 | k4 | ⟨σ, k4, k5⟩ | k4 | k4
        · left; rw [h1]; exact k4
        · right; left; rw [h1]; exact k4
        · exact Or.inr (Or.inr (Or.inl ⟨σ, h4 σ k4, k5⟩))
        · exact Or.inr (Or.inr (Or.inr (Or.inl (by rw [h3]; exact k4))))
        · by_cases e : (y, a) = (x, z)
          · cases e
            obtain ⟨m, h7⟩ := h.atY ho
            obtain ⟨τ, t1, t2, t3, t4⟩ := h6 rfl (by rw [h7])
            refine Or.inr (Or.inr (Or.inl ⟨τ, t1, t2, t3, ?_⟩))
            intro ds hds
            rw [t4] at hds; cases hds; simp
          · refine Or.inr (Or.inr (Or.inr (Or.inr ?_)))
            rw [h2]; exact (List.mem_erase_of_ne e).2 k4
    cases hf : (n.st x).getFullUserSync with
    | none =>
      simp only
      refine key _ rfl rfl rfl (fun σ hσ => hσ) (fun σ hσ => Or.inl hσ) ?_
      intro _ h1
      exfalso
      unfold getFullUserSync at hf
      split at hf
      · rename_i he
        have := AMap.isEmpty_iff.1 he u
        have h1' : (n.st x).direct.map.get u = new y v := h1
        rw [this] at h1'; cases h1'
      · cases hf
    | some m =>
      simp only
      have hm : m.map.get u = (UNet.view (n.st x) u).e := by
        unfold getFullUserSync at hf
        split at hf
        · cases hf
        · cases hf; rfl
      have hmi : m.ident = x := by
        unfold getFullUserSync at hf
        split at hf
        · cases hf
        · cases hf; exact h.dident x
      refine key _ rfl rfl rfl (fun σ hσ => by simp [spawn, hσ]) ?_ ?_
      · intro σ hσ
        simp only [spawn, List.mem_append, List.mem_singleton] at hσ
        rcases hσ with hσ | rfl
        · exact Or.inl hσ
        · exact Or.inr ⟨rfl, rfl, hm, fun h7 => by show ¬ y < m.ident; rw [hmi]; exact h7⟩
      · rintro rfl h1
        exact ⟨⟨x, .user m, some [z]⟩, by simp [spawn], rfl, hm.trans h1, rfl⟩
  · exact h

theorem moved_deliver (h : Moved n b y u v K on) (x z : B) : Moved (n.step (.deliver x z)) b y u v K on := by
  simp only [MNet.step]
  split
  · rename_i hk
    have hk' := (knows_iff _ _ _).1 hk
    have hzb : z ≠ b := by rintro rfl; exact hk' (h.links x)
    split
    · exact h
    · rename_i m rest hq
      have hin : ∀ m' ∈ rest, m' ∈ n.ch x z := fun m' hm' => by rw [hq]; exact List.mem_cons_of_mem _ hm'
      have hhead : SyncMsg.user m ∈ n.ch x z := by rw [hq]; exact List.mem_cons_self ..
      have hkn : ∀ w, ((n.st z).step (.applyUserSync m)).brokers.get w ≠ none → (n.st z).brokers.get w ≠ none :=
        fun w => (known_call _ (.applyUserSync m) trivial w).1
      -- taking the frame off the queue afterwards
      have pop : Moved (n.act z (.applyUserSync m)) b y u v K on →
          (m.map.get u ≠ new y v ∨ (UNet.view ((n.st z).step (.applyUserSync m)) u).e = new y v) →
          Moved ((n.act z (.applyUserSync m)).setCh x z rest) b y u v K on := by
        intro h1 h2
        refine moved_setCh h1 x z rest hin ?_
        intro m' hm'
        rw [show (n.act z (.applyUserSync m)).ch x z = n.ch x z from rfl, hq] at hm'
        rcases List.mem_cons.1 hm' with rfl | h3
        · right
          rcases h2 with h2 | h2
          · exact Or.inl h2
          · exact Or.inr (Or.inr (Or.inr (by rw [st_act_self]; exact h2)))
        · exact Or.inl h3
      have hid : (n.st z).identity = z := h.ident z
      rcases h.ch x z _ hhead with h1 | h1 | ⟨ho, h1, hzy⟩
      · have h1' : m.map.get u = none := h1
        exact pop (moved_same h z _ hkn (UNet.view_apply_none _ u m h1')) (Or.inl (by rw [h1']; simp))
      · have h1' : m.map.get u = old b v := h1
        refine pop ?_ (Or.inl (by rw [h1']; simp))
        by_cases ht : VMap.takes (n.st z).direct.ident m.ident (UNet.view (n.st z) u).e ⟨v, some b⟩
        · -- only brokers without the new entry take the old one
          have hzy : ¬ (on ∧ z = y) := by
            rintro ⟨ho, rfl⟩
            obtain ⟨mm, h2⟩ := h.atY ho
            rw [h2] at ht
            rcases ht with ht | ⟨ht, _⟩ <;> simp only at ht <;> omega
          have hzn : (UNet.view (n.st z) u).e ≠ new y v := by
            intro h2
            rw [h2] at ht
            rcases ht with ht | ⟨ht, _⟩ <;> simp only at ht <;> omega
          have hm0 : (UNet.view (n.st z) u).m = false := by
            rcases h.atO z hzb hzy with h2 | h2 | ⟨_, h2⟩ <;> rw [h2]
          have hv' : UNet.view ((n.st z).step (.applyUserSync m)) u = ⟨old b v, false, false⟩ :=
            UNet.view_apply_taken _ u m _ h1' ht (by rw [hid]; simp only; intro e; exact hzb (Option.some.inj e).symm)
              (by rw [hm0]; simp)
          refine moved_act h z _ hkn (fun e => absurd e hzb) (fun ho e => absurd ⟨ho, e⟩ hzy) ?_
          intro _ _
          rw [hv']
          exact ⟨Or.inr (Or.inl rfl), fun _ _ => rfl, fun e => absurd e hzn⟩
        · exact moved_same h z _ hkn (UNet.view_apply_lost _ u m _ h1' ht)
      · have h1' : m.map.get u = new y v := h1
        by_cases hzy' : z = y
        · -- the greatest broker is not impressed by its own entry
          subst hzy'
          obtain ⟨mm, h2⟩ := h.atY ho
          have hG : ¬ z < m.ident := hzy.resolve_right (fun e => e rfl)
          have hv' : UNet.view ((n.st z).step (.applyUserSync m)) u = UNet.view (n.st z) u :=
            UNet.view_apply_lost _ u m _ h1' (by
              rw [h2, h.dident]
              rintro (h3 | ⟨_, h3⟩)
              · exact absurd h3 (Nat.lt_irrefl _)
              · exact hG h3)
          exact pop (moved_same h z _ hkn hv') (Or.inr (by rw [hv', h2]))
        replace hzy : z ≠ y := hzy'
        have hzy' : ¬ (on ∧ z = y) := fun e => hzy e.2
        by_cases ht : VMap.takes (n.st z).direct.ident m.ident (UNet.view (n.st z) u).e ⟨v + 1, some y⟩
        · have hm0 : (UNet.view (n.st z) u).m = false := by
            rcases h.atO z hzb hzy' with h2 | h2 | ⟨_, h2⟩ <;> rw [h2]
          have hv' : UNet.view ((n.st z).step (.applyUserSync m)) u = ⟨new y v, false, false⟩ :=
            UNet.view_apply_taken _ u m _ h1' ht (by rw [hid]; simp only; intro e; exact hzy (Option.some.inj e).symm)
              (by rw [hm0]; simp)
          refine pop (moved_act h z _ hkn (fun e => absurd e hzb) (fun _ e => absurd e hzy) ?_) (Or.inr (by rw [hv']))
          intro _ _
          rw [hv']
          exact ⟨Or.inr (Or.inr ⟨ho, rfl⟩), fun hn => absurd ho hn, fun _ => rfl⟩
        · have hv' : UNet.view ((n.st z).step (.applyUserSync m)) u = UNet.view (n.st z) u :=
            UNet.view_apply_lost _ u m _ h1' ht
          refine pop (moved_same h z _ hkn hv') (Or.inr ?_)
          rw [hv']
          rcases h.atO z hzb hzy' with h2 | h2 | ⟨_, h2⟩ <;> rw [h2] at ht ⊢
          · exact absurd rfl ht
          · exact absurd (Or.inl (Nat.lt_succ_self v)) ht
    · rename_i m rest hq
      have h1 := moved_quiet h z (.applyTopicSync x m) hk' trivial
      refine moved_setCh h1 x z rest (fun m' hm' => ?_) ?_
      · show m' ∈ n.ch x z
        rw [hq]; exact List.mem_cons_of_mem _ hm'
      · intro m' hm'
        rw [show (n.act z (.applyTopicSync x m)).ch x z = n.ch x z from rfl, hq] at hm'
        rcases List.mem_cons.1 hm' with rfl | h3
        · exact Or.inr (Or.inl (by simp [entryOf]))
        · exact Or.inl h3
  · exact h

theorem moved_step (h : Moved n b y u v K on) (l : MLabel U B T H) (hc : ¬ Connects u l)
    (hb : NoLinkOf b l) (hy : on → NoGreaterLink y l ∧ Stays u y l) (hK : ∀ x, l = .restart x → ¬ K x) :
    Moved (n.step l) b y u v K on := by
  cases l with
  | connect x u' hd ts => exact moved_quiet h x (.addUser u' hd ts) trivial hc
  | disconnect x u' =>
    by_cases e : u' = u
    · subst e
      have hxy : ¬ (on ∧ x = y) := by
        rintro ⟨ho, rfl⟩; exact (hy ho).2.2.1 rfl
      refine moved_same h x (.removeUser u') (fun z => (known_call _ (.removeUser u') trivial z).1) ?_
      show UNet.view ((n.st x).removeUser u') u' = _
      rw [UNet.view_removeUser, UNet.remV, if_neg]
      · by_cases e : x = b
        · subst e; rw [h.atB]
        · rcases h.atO x e hxy with h1 | h1 | ⟨_, h1⟩ <;> rw [h1]
      · rw [h.ident]
        by_cases e : x = b
        · subst e; rw [h.atB]; simp
        · rcases h.atO x e hxy with h1 | h1 | ⟨ho, h1⟩ <;> rw [h1]
          · simp
          · intro h2; exact e (Option.some.inj h2).symm
          · intro h2; exact hxy ⟨ho, (Option.some.inj h2).symm⟩
    · exact moved_quiet h x (.removeUser u') trivial e
  | subscribe x u' ts => exact moved_quiet h x (.subscribeUser u' ts) trivial trivial
  | unsubscribe x u' ts => exact moved_quiet h x (.unsubscribeUser u' ts) trivial trivial
  | startTopic x =>
    have h1 := moved_quiet h x .partialTopicSync trivial trivial
    simp only [MNet.step]; split
    · exact h1
    · exact moved_spawn h1 _ (Or.inl rfl)
  | startUser x => exact moved_startUser h x
  | readDests i =>
    simp only [MNet.step]; split
    · rename_i x m hi
      refine moved_set h i x m none _ hi (by simp) ?_
      rintro _ rfl _ z hz _
      left
      rintro ds ⟨⟩
      exact (mem_allBrokers _ _).2 hz
    · exact h
  | send i ok => exact moved_send h i ok
  | linkUp x z c c' => exact moved_linkUp h x z c c' hb (fun ho => (hy ho).1)
  | fullTopic x z =>
    simp only [MNet.step]; split
    · have h1 : Moved { n with fullT := n.fullT.erase (x, z) } b y u v K on :=
        ⟨h.ident, h.dident, h.irr, h.links, h.atB, h.atY, h.atO, h.keep, h.full, h.task, h.ch, h.cov⟩
      split
      · exact h1
      · exact moved_spawn h1 _ (Or.inl rfl)
    · exact h
  | fullUser x z => exact moved_fullUser h x z
  | drop x z => exact moved_drop h x z
  | deliver x z => exact moved_deliver h x z
  | restart x =>
    exact moved_restart h x (fun ho e => (hy ho).2.2.2 (by rw [e])) (hK x rfl)

theorem moved_run (ls : List (MLabel U B T H)) (n : MNet U B T H) (h : Moved n b y u v K on)
    (hl : ∀ l ∈ ls, ¬ Connects u l ∧ NoLinkOf b l) (hy : on → ∀ l ∈ ls, NoGreaterLink y l ∧ Stays u y l)
    (hK : ∀ x, K x → .restart x ∉ ls) : Moved (n.run ls) b y u v K on := by
  induction ls generalizing n with
  | nil => exact h
  | cons l ls ih =>
    have h1 := hl l (by simp)
    refine ih (n.step l) (moved_step h l h1.1 h1.2 (fun ho => hy ho l (by simp)) ?_)
      (fun l' h' => hl l' (by simp [h'])) (fun ho l' h' => hy ho l' (by simp [h']))
      (fun x hx hm => hK x hx (by simp [hm]))
    rintro x rfl hx
    exact hK x hx (by simp)

/-- The user connects to `y`. -/
theorem moved_connect (h : Moved n b y u v K False) (hv : v + 1 < 2 ^ 64) (hyb : y ≠ b)
    (hy : UNet.view (n.st y) u = ⟨old b v, false, false⟩) (hfull : ∀ x, y < x → (x, y) ∉ n.fullU) (hd : H) (ts : List T) :
    Moved (n.step (.connect y u hd ts)) b y u v (fun _ => False) True := by
  have hview : UNet.view ((n.st y).step (.addUser u hd ts)) u = ⟨new y v, true, true⟩ := by
    show UNet.view ((n.st y).addUser u hd ts) u = _
    rw [UNet.view_addUser, hy, h.ident]
    have : VMap.bump v = v + 1 := Nat.mod_eq_of_lt hv
    simp [UNet.addV, UNet.nextVer, this]
  have hk : ∀ a z, ((n.step (.connect y u hd ts)).st a).brokers.get z ≠ none → (n.st a).brokers.get z ≠ none := by
    intro a z
    show ((n.act y (.addUser u hd ts)).st a).brokers.get z ≠ none → _
    rw [st_act]; split
    · rename_i e; subst e; exact (known_call _ (.addUser u hd ts) trivial z).1
    · exact id
  have hk0 : ∀ a z, (n.st a).brokers.get z = none → ((n.step (.connect y u hd ts)).st a).brokers.get z = none := by
    intro a z h0
    exact Classical.byContradiction fun h1 => hk a z h1 h0
  have hst : ∀ a, a ≠ y → (n.step (.connect y u hd ts)).st a = n.st a := fun a ha => st_act_ne _ _ _ ha
  have hsty : (n.step (.connect y u hd ts)).st y = (n.st y).step (.addUser u hd ts) := st_act_self _ _ _
  refine ⟨identity_act n y _ h.ident, dident_act n y _ h.dident, fun a => hk0 _ _ (h.irr a),
    fun a => hk0 _ _ (h.links a), ?_, ?_, ?_, fun hn => absurd trivial hn, ?_, ?_, ?_, ?_⟩
  · rw [hst b (Ne.symm hyb)]; exact h.atB
  · intro _; exact ⟨true, by rw [hsty]; exact hview⟩
  · intro x hx hxy
    have hxy' : x ≠ y := fun e => hxy ⟨trivial, e⟩
    rw [hst x hxy']
    rcases h.atO x hx (fun e => e.1) with h1 | h1 | ⟨h1, _⟩
    · exact Or.inl h1
    · exact Or.inr (Or.inl h1)
    · exact h1.elim
  · intro _ p hp e hlt
    obtain ⟨p1, p2⟩ := p
    simp only at e hlt
    subst e
    exact hfull p1 hlt hp
  · intro τ hτ
    rcases h.task τ hτ with h1 | h1 | h1 | ⟨h1, _⟩
    · exact Or.inl h1
    · exact Or.inr (Or.inl h1)
    · exact Or.inr (Or.inr (Or.inl h1))
    · exact h1.elim
  · intro x z m hm
    rcases h.ch x z m hm with h1 | h1 | ⟨h1, _⟩
    · exact Or.inl h1
    · exact Or.inr (Or.inl h1)
    · exact h1.elim
  · intro _ x _ _ _
    right; left
    rw [hsty, hview]

theorem dident_step (n : MNet U B T H) (h : ∀ z, (n.st z).direct.ident = z) (l : MLabel U B T H) (z : B) :
    ((n.step l).st z).direct.ident = z := by
  cases l with
  | connect => exact dident_act _ _ _ h z
  | disconnect => exact dident_act _ _ _ h z
  | subscribe => exact dident_act _ _ _ h z
  | unsubscribe => exact dident_act _ _ _ h z
  | startTopic b => simp only [MNet.step]; split <;> exact dident_act n b _ h z
  | startUser b => simp only [MNet.step]; split <;> exact dident_act n b _ h z
  | readDests i => simp only [MNet.step]; split <;> exact h z
  | send i ok =>
    simp only [MNet.step]; split
    · split
      · split
        · exact h z
        · exact dident_act n _ _ h z
      · exact h z
    · exact h z
  | linkUp b b' c c' =>
    simp only [MNet.step]; split
    · exact h z
    · exact dident_act _ b' _ (dident_act n b _ h) z
  | fullTopic => simp only [MNet.step]; split <;> (try split) <;> exact h z
  | fullUser => simp only [MNet.step]; split <;> (try split) <;> exact h z
  | drop b b' => exact dident_act n b _ h z
  | deliver b b' =>
    simp only [MNet.step]; split
    · split
      · exact h z
      · exact dident_act n b' _ h z
      · exact dident_act n b' _ h z
    · exact h z
  | restart b =>
    show (if z = b then Conns.new b else n.st z).direct.ident = z
    split
    · rename_i e; subst e; rfl
    · exact h z

theorem dident_run (ls : List (MLabel U B T H)) (n : MNet U B T H) (h : ∀ z, (n.st z).direct.ident = z) (z : B) :
    ((n.run ls).st z).direct.ident = z := by
  induction ls generalizing n with
  | nil => exact h z
  | cons l ls ih => exact ih (n.step l) (dident_step n h l)

/-- After the crash of `b`, which everybody knew to have `u`. -/
theorem moved_crash (u : U) (b y : B) (l1 l2 : List (MLabel U B T H)) (K : B → Prop)
    (hno : ∀ l ∈ l1, ¬ Connects u l)
    (hlinks : ∀ x y, x ≠ y → Linked ((start : MNet U B T H).run l1) x y)
    (hinit : ((start : MNet U B T H).run l1).fullU = [])
    (hturn : InTurn u ((start : MNet U B T H).run l1) l2) (hat : whereabouts u l2 none = some b)
    (hway : NothingUnderWay u ((start : MNet U B T H).run (l1 ++ l2)))
    (hann : ∀ x, ¬ Unannounced u ((start : MNet U B T H).run (l1 ++ l2)) x)
    (hlen : 2 * (l1.length + l2.length + 1) < 2 ^ 64) :
    ∃ v, v + 1 < 2 ^ 64 ∧ Moved ((start : MNet U B T H).run (l1 ++ l2 ++ [.restart b])) b y u v K False := by
  have hinv := MNet.inv_run (inv_start (U := U) (B := B) (T := T) (H := H)) (l1 ++ l2)
    (by rw [List.length_append]; omega)
  obtain ⟨⟨_, base, ed, e, h | h⟩, hst⟩ := turn_start u l1 l2 hno hlinks hinit hturn (by omega) (by omega) b
  · exfalso
    apply hann ed
    simpa [UNet.view, MeshTurn.Unannounced, ghost] using h.edM
  have hed : ed = b := by
    rcases h.core.here with h1 | h1
    · rw [h1] at hat; cases hat
    · rw [h1] at hat; exact Option.some.inj hat
  subst hed
  obtain ⟨v, val⟩ := e
  have hval : val = some ed := h.core.val.trans hat
  subst hval
  have hv : v + 1 < 2 ^ 64 := by
    have h1 := h.core.ver
    have h2 := h.core.bound
    simp only at h1
    omega
  refine ⟨v, hv, ?_⟩
  rw [Mesh.run_append]
  show Moved (((start : MNet U B T H).run (l1 ++ l2)).step (.restart ed)) ed y u v K False
  have hstep : ∀ z, (((start : MNet U B T H).run (l1 ++ l2)).step (.restart ed)).st z =
      if z = ed then Conns.new ed else ((start : MNet U B T H).run (l1 ++ l2)).st z := fun _ => rfl
  have hnew : UNet.view (Conns.new ed : Conns U B T H) u = ⟨none, false, false⟩ := by
    simp [UNet.view, Conns.new, VMap.new]
  have hold : ∀ x, x ≠ ed →
      UNet.view ((((start : MNet U B T H).run (l1 ++ l2)).step (.restart ed)).st x) u = ⟨old ed v, false, false⟩ := by
    intro x hx
    rw [hstep, if_neg hx]
    obtain ⟨h1, h2 | h2⟩ := h.others x hx
    · rw [UserSync.chU_nil_of u _ (nothing_ghost hway)] at h2; simp at h2
    · have : ∀ w : UNet.View B, w.m = false → w.e = VMap.adopted ⟨v, some ed⟩ → w.c = false →
          w = ⟨old ed v, false, false⟩ := by
        rintro ⟨_, _, _⟩ rfl rfl rfl; rfl
      exact this _ h1 h2.2.1 h2.2.2
  refine ⟨?_, ?_, ?_, ?_, ?_, False.elim, fun x hx _ => Or.inr (Or.inl (hold x hx)), fun _ x hx _ => hold x hx,
    False.elim, ?_, ?_, False.elim⟩
  · intro z; rw [hstep]; split
    · rename_i e; subst e; rfl
    · exact hst.ident z
  · exact dident_step _ (dident_run _ _ (fun _ => rfl)) _
  · intro z; rw [hstep]; split
    · rfl
    · exact hinv.irrefl z
  · intro z; rw [hstep, if_pos rfl]; rfl
  · rw [hstep, if_pos rfl]; exact hnew
  · intro τ hτ
    rcases hway.2 τ (List.mem_filter.1 hτ).1 with h1 | h1
    · exact Or.inl h1
    · exact Or.inr (Or.inl h1)
  · intro x z m hm
    left
    simp only [MNet.step] at hm
    split at hm
    · cases hm
    · exact hway.1 x z m hm

/-! ## C120 -/

/-- Three brokers; user 7 is connected to broker 1, and everybody knows (`beforeCrash`). Broker 1 crashes, and the user
connects to broker 2. Broker 1 is started again before broker 2 has announced that. Broker 0 tells it that the
user is there, and it withdraws that, with the very version under which broker 2 announces the new connection. The
withdrawal reaches broker 0 last, and wins there, broker 1 being the greater. -/
def withdrawn : List (MLabel Nat Nat Nat Nat) :=
  [.linkUp 1 0 112 113, .linkUp 1 2 114 115, .fullUser 1 0, .fullUser 1 2, .fullUser 0 1, .send 0 true, .deliver 0 1,
   .startUser 1, .readDests 1, .send 1 true, .send 1 true, .startUser 2, .readDests 2, .send 2 true, .send 2 true,
   .fullUser 2 1, .send 3 true, .deliver 2 0, .deliver 1 0, .deliver 1 2, .deliver 2 1, .deliver 2 1]

def unfound : MNet Nat Nat Nat Nat :=
  (start : MNet Nat Nat Nat Nat).run (beforeCrash ++ .restart 1 :: [] ++ .connect 2 7 111 [] :: withdrawn)

theorem withdrawn_stays : ∀ l ∈ withdrawn, Stays 7 2 l := by
  intro l hl
  simp only [withdrawn, List.mem_cons, List.not_mem_nil, or_false] at hl
  rcases hl with rfl | rfl | rfl | rfl | rfl | rfl | rfl | rfl | rfl | rfl | rfl | rfl | rfl | rfl | rfl |
    rfl | rfl | rfl | rfl | rfl | rfl | rfl <;> simp [Stays, Connects]

/-- **C120 does not hold**: after `withdrawn` all brokers are linked, nothing is left to be said, the user is
connected to broker 2, and broker 0 routes the user's messages to nobody. -/
theorem C120_false : ¬ FoundAfterCrash Nat Nat Nat Nat := by
  intro h
  refine absurd ((h beforeCrash [] withdrawn 1 2 7 111 [] (by decide) (by simp) withdrawn_stays).2 0
    ⟨⟨by decide +kernel, by decide +kernel⟩, MeshUsers.settledB_sound _ _ _ (by decide +kernel),
      MeshUsers.settledB_sound _ _ _ (by decide +kernel)⟩) (by decide +kernel)

/-- The user is connected there all the same, and nothing is left to be said between any two brokers. -/
example : ((unfound.st 2).getUserConnection 7).isSome = true ∧
    ∀ x < 3, ∀ z < 3, x ≠ z → unfound.knows x z = true ∧ MeshUsers.settledB unfound x z = true := by
  decide +kernel

/-- The same with the user connecting to broker 0, which is less than the crashed broker. -/
def thrownOut : List (MLabel Nat Nat Nat Nat) :=
  [.linkUp 1 0 112 113, .linkUp 1 2 114 115, .fullUser 1 0, .fullUser 1 2, .fullUser 2 1, .send 0 true, .deliver 2 1,
   .startUser 1, .readDests 1, .send 1 true, .send 1 true, .startUser 0, .readDests 2, .send 2 true, .send 2 true,
   .fullUser 0 1, .send 3 true, .deliver 0 2, .deliver 1 2, .deliver 1 0, .deliver 0 1, .deliver 0 1]

/-- **C120 does not hold**: the withdrawal by the user's old broker makes the new one drop the user's connection. -/
theorem C120_thrown_out : (∀ l ∈ thrownOut, Stays 7 0 l) ∧
    let n := (start : MNet Nat Nat Nat Nat).run (beforeCrash ++ .restart 1 :: .connect 0 7 111 [] :: thrownOut)
    ¬ At n 0 7 ∧ (n.st 0).getBrokerOfUser 7 = none ∧ (n.st 2).getBrokerOfUser 7 = some 0 ∧
      ∀ x < 3, ∀ z < 3, x ≠ z → n.knows x z = true ∧ MeshUsers.settledB n x z = true := by
  refine ⟨?_, ?_⟩
  · intro l hl
    simp only [thrownOut, List.mem_cons, List.not_mem_nil, or_false] at hl
    rcases hl with rfl | rfl | rfl | rfl | rfl | rfl | rfl | rfl | rfl | rfl | rfl | rfl | rfl | rfl | rfl |
      rfl | rfl | rfl | rfl | rfl | rfl | rfl <;> simp [Stays, Connects]
  · unfold At; decide +kernel

/-- The invariant holds at the end. -/
theorem found_moved (u : U) (b y : B) (hd : H) (ts : List T) (l1 l2 l3 l4 : List (MLabel U B T H))
    (hno : ∀ l ∈ l1, ¬ Connects u l)
    (hlinks : ∀ x y, x ≠ y → Linked ((start : MNet U B T H).run l1) x y)
    (hinit : ((start : MNet U B T H).run l1).fullU = [])
    (hturn : InTurn u ((start : MNet U B T H).run l1) l2) (hat : whereabouts u l2 none = some b)
    (hway : NothingUnderWay u ((start : MNet U B T H).run (l1 ++ l2)))
    (hann : ∀ x, ¬ Unannounced u ((start : MNet U B T H).run (l1 ++ l2)) x)
    (h3 : ∀ l ∈ l3, ¬ Connects u l ∧ NoLinkOf b l) (hyb : y ≠ b)
    (hknown : (((start : MNet U B T H).run (l1 ++ l2 ++ .restart b :: l3)).st y).getBrokerOfUser u = some b)
    (hdue : ∀ x, y < x → (x, y) ∉ ((start : MNet U B T H).run (l1 ++ l2 ++ .restart b :: l3)).fullU)
    (h4 : ∀ l ∈ l4, NoLinkOf b l ∧ NoGreaterLink y l ∧ Stays u y l)
    (hlen : 2 * (l1.length + l2.length + 1) < 2 ^ 64) :
    ∃ v, Moved ((start : MNet U B T H).run (l1 ++ l2 ++ .restart b :: l3 ++ .connect y u hd ts :: l4)) b y u v
      (fun _ => False) True := by
  obtain ⟨v, hv, h0⟩ := moved_crash u b y l1 l2 (fun _ => False) hno hlinks hinit hturn hat hway hann hlen
  have h1 := moved_run l3 _ h0 h3 False.elim (fun _ h => h.elim)
  rw [← Mesh.run_append, List.append_assoc (l1 ++ l2)] at h1
  have hy : UNet.view (((start : MNet U B T H).run (l1 ++ l2 ++ .restart b :: l3)).st y) u = ⟨old b v, false, false⟩ := by
    rcases h1.atO y hyb (fun e => e.1) with h2 | h2 | ⟨h2, _⟩
    · exfalso
      have hk : (UNet.view (((start : MNet U B T H).run (l1 ++ l2 ++ .restart b :: l3)).st y) u).e.bind VV.value =
        some b := hknown
      rw [show (l1 ++ l2 ++ .restart b :: l3) = l1 ++ l2 ++ ([.restart b] ++ l3) from rfl, h2] at hk
      cases hk
    · exact h2
    · exact h2.elim
  have h2 := moved_run l4 _ (moved_connect h1 hv hyb hy hdue hd ts)
    (fun l hl => ⟨(h4 l hl).2.2.1, (h4 l hl).1⟩) (fun _ l hl => (h4 l hl).2) (fun _ h => h.elim)
  have hn : (start : MNet U B T H).run (l1 ++ l2 ++ .restart b :: l3 ++ .connect y u hd ts :: l4) =
      (((start : MNet U B T H).run (l1 ++ l2 ++ .restart b :: l3)).step (.connect y u hd ts)).run l4 := by
    rw [Mesh.run_append]; rfl
  exact ⟨v, by rw [hn]; exact h2⟩

/-- Both theorems below. -/
theorem found (u : U) (b y : B) (hd : H) (ts : List T) (l1 l2 l3 l4 : List (MLabel U B T H))
    (hno : ∀ l ∈ l1, ¬ Connects u l)
    (hlinks : ∀ x y, x ≠ y → Linked ((start : MNet U B T H).run l1) x y)
    (hinit : ((start : MNet U B T H).run l1).fullU = [])
    (hturn : InTurn u ((start : MNet U B T H).run l1) l2) (hat : whereabouts u l2 none = some b)
    (hway : NothingUnderWay u ((start : MNet U B T H).run (l1 ++ l2)))
    (hann : ∀ x, ¬ Unannounced u ((start : MNet U B T H).run (l1 ++ l2)) x)
    (h3 : ∀ l ∈ l3, ¬ Connects u l ∧ NoLinkOf b l) (hyb : y ≠ b)
    (hknown : (((start : MNet U B T H).run (l1 ++ l2 ++ .restart b :: l3)).st y).getBrokerOfUser u = some b)
    (hdue : ∀ x, y < x → (x, y) ∉ ((start : MNet U B T H).run (l1 ++ l2 ++ .restart b :: l3)).fullU)
    (h4 : ∀ l ∈ l4, NoLinkOf b l ∧ NoGreaterLink y l ∧ Stays u y l)
    (hlen : 2 * (l1.length + l2.length + 1) < 2 ^ 64) :
    let n := (start : MNet U B T H).run (l1 ++ l2 ++ .restart b :: l3 ++ .connect y u hd ts :: l4)
    At n y u ∧ (n.st y).getBrokerOfUser u = some y ∧
    (∀ x, Linked n y x → UsersSettled n y x → (n.st x).getBrokerOfUser u = some y) ∧
    ∀ x, (n.st x).getBrokerOfUser u = some y ∨ (n.st x).getBrokerOfUser u = some b ∨
      (n.st x).getBrokerOfUser u = none := by
  intro n
  obtain ⟨v, h2'⟩ := found_moved u b y hd ts l1 l2 l3 l4 hno hlinks hinit hturn hat hway hann h3 hyb hknown hdue h4
    hlen
  change Moved n b y u v (fun _ => False) True at h2'
  clear_value n
  obtain ⟨mm, hvy⟩ := h2'.atY trivial
  refine ⟨?_, ?_, ?_, ?_⟩
  · show (UNet.view (n.st y) u).c = true
    rw [hvy]
  · show (UNet.view (n.st y) u).e.bind VV.value = some y
    rw [hvy]; rfl
  · rintro x ⟨k1, k2⟩ s
    have k1' := (knows_iff _ _ _).1 k1
    have k2' := (knows_iff _ _ _).1 k2
    have hx : x ≠ y := by rintro rfl; exact k1' (h2'.irr x)
    have huser : ∀ m : SyncMsg U B T, ∀ w, entryOf u m = some w → ¬ IsTopic m := by
      intro m w hm ht
      cases m with
      | user m => exact ht
      | topic m => cases hm
    rcases h2'.cov trivial x hx k1' k2' with h | h | ⟨τ, h, h5, h6, h7⟩ | ⟨m, h, h5⟩ | h
    · show (UNet.view (n.st x) u).e.bind VV.value = some y
      rw [h]; rfl
    · exfalso
      have h3 := UNet.sync_msg (n.st y) u
      rw [s.announced, h, hvy] at h3
      cases h3
    · obtain ⟨ds, h8, h9⟩ := s.sent τ h h5 (huser _ _ h6)
      exact absurd (h7 ds h8) h9
    · exact absurd (s.arrived m h) (huser _ _ h5)
    · exact absurd h s.initial
  · intro x
    have h : ∀ w, (UNet.view (n.st x) u).e = w → (n.st x).getBrokerOfUser u = w.bind VV.value := by
      rintro _ rfl; rfl
    rcases moved_entry h2' x with h3 | h3 | ⟨_, h3⟩ <;> rw [h _ h3] <;> simp

/-- **C120, partial.** Broker `b` ends at a time when everybody knows that `u` is connected there. After that links
between other brokers come and go, syncs are sent and delivered in any order, brokers may be restarted, and other
users do as they like (`l3`). Then `u` connects to broker `y`, which knows where `u` was, and to which no initial
user sync of a greater broker is due; again links come and go, but no link of `y` to a greater broker comes up, and so
on (`l4`). Then `u` is connected
to `y`, and every broker linked to `y` to which `y` has said everything routes `u` to `y`. At all times, everybody
routes `u` to `y`, to `b` or to nobody. Missing from the full claim: `b` being linked again, for which the claim is
false (`C120_false`, `C120_thrown_out`), but see `C120_back_partial` in `Props/MeshBack`; links of `y` to greater
brokers coming up after `u` has connected (false as C73 is). -/
theorem C120_found_partial (u : U) (b y : B) (hd : H) (ts : List T) (l1 l2 l3 l4 : List (MLabel U B T H))
    (hno : ∀ l ∈ l1, ¬ Connects u l)
    (hlinks : ∀ x y, x ≠ y → Linked ((start : MNet U B T H).run l1) x y)
    (hinit : ((start : MNet U B T H).run l1).fullU = [])
    (hturn : InTurn u ((start : MNet U B T H).run l1) l2) (hat : whereabouts u l2 none = some b)
    (hway : NothingUnderWay u ((start : MNet U B T H).run (l1 ++ l2)))
    (hann : ∀ x, ¬ Unannounced u ((start : MNet U B T H).run (l1 ++ l2)) x)
    (h3 : ∀ l ∈ l3, ¬ Connects u l ∧ NoLinkOf b l) (hyb : y ≠ b)
    (hknown : (((start : MNet U B T H).run (l1 ++ l2 ++ .restart b :: l3)).st y).getBrokerOfUser u = some b)
    (hdue : ∀ x, y < x → (x, y) ∉ ((start : MNet U B T H).run (l1 ++ l2 ++ .restart b :: l3)).fullU)
    (h4 : ∀ l ∈ l4, NoLinkOf b l ∧ NoGreaterLink y l ∧ Stays u y l)
    (hlen : 2 * (l1.length + l2.length + 1) < 2 ^ 64) :
    let n := (start : MNet U B T H).run (l1 ++ l2 ++ .restart b :: l3 ++ .connect y u hd ts :: l4)
    At n y u ∧ (n.st y).getBrokerOfUser u = some y ∧
    (∀ x, Linked n y x → UsersSettled n y x → (n.st x).getBrokerOfUser u = some y) ∧
    ∀ x, (n.st x).getBrokerOfUser u = some y ∨ (n.st x).getBrokerOfUser u = some b ∨
      (n.st x).getBrokerOfUser u = none := 
  found u b y hd ts l1 l2 l3 l4 hno hlinks hinit hturn hat hway hann h3 hyb hknown hdue h4 hlen

theorem noGreater {y : B} (hmax : ∀ x, ¬ y < x) (l : MLabel U B T H) : NoGreaterLink y l := by
  cases l with
  | linkUp x z c c' => exact ⟨fun _ => hmax z, fun _ => hmax x⟩
  | _ => trivial

/-- **C120, partial.** If the broker `y` to which `u` connects is the greatest, nothing is asked of links of `y` or of
initial syncs. -/
theorem C120_greatest_partial (u : U) (b y : B) (hmax : ∀ x, ¬ y < x) (hd : H) (ts : List T)
    (l1 l2 l3 l4 : List (MLabel U B T H))
    (hno : ∀ l ∈ l1, ¬ Connects u l)
    (hlinks : ∀ x y, x ≠ y → Linked ((start : MNet U B T H).run l1) x y)
    (hinit : ((start : MNet U B T H).run l1).fullU = [])
    (hturn : InTurn u ((start : MNet U B T H).run l1) l2) (hat : whereabouts u l2 none = some b)
    (hway : NothingUnderWay u ((start : MNet U B T H).run (l1 ++ l2)))
    (hann : ∀ x, ¬ Unannounced u ((start : MNet U B T H).run (l1 ++ l2)) x)
    (h3 : ∀ l ∈ l3, ¬ Connects u l ∧ NoLinkOf b l) (hyb : y ≠ b)
    (hknown : (((start : MNet U B T H).run (l1 ++ l2 ++ .restart b :: l3)).st y).getBrokerOfUser u = some b)
    (h4 : ∀ l ∈ l4, NoLinkOf b l ∧ Stays u y l)
    (hlen : 2 * (l1.length + l2.length + 1) < 2 ^ 64) :
    let n := (start : MNet U B T H).run (l1 ++ l2 ++ .restart b :: l3 ++ .connect y u hd ts :: l4)
    At n y u ∧ (n.st y).getBrokerOfUser u = some y ∧
    (∀ x, Linked n y x → UsersSettled n y x → (n.st x).getBrokerOfUser u = some y) ∧
    ∀ x, (n.st x).getBrokerOfUser u = some y ∨ (n.st x).getBrokerOfUser u = some b ∨
      (n.st x).getBrokerOfUser u = none := 
  found u b y hd ts l1 l2 l3 l4 hno hlinks hinit hturn hat hway hann h3 hyb hknown
    (fun x hx => absurd hx (hmax x)) (fun l hl => ⟨(h4 l hl).1, noGreater hmax l, (h4 l hl).2⟩) hlen

/-! ## C121 -/

/-- The claim of C121: broker `b` ends and stays away. Once nobody has it registered any more and everything has been
said, nobody routes users to it. -/
def GoneForgotten (U B T H : Type) [DecidableEq U] [DecidableEq B] [DecidableEq T] [DecidableEq H]
    [LT B] [DecidableLT B] : Prop :=
  ∀ (l1 l2 : List (MLabel U B T H)) (b x : B) (u : U), x ≠ b → (∀ l ∈ l2, NoLinkOf b l) →
    let n := (start : MNet U B T H).run (l1 ++ .restart b :: l2)
    (∀ z, n.knows z b = false) → (∀ z z', n.knows z z' = true → AllSaid n z z') →
    (n.st x).getBrokerOfUser u ≠ some b

/-- **C121, what is kept.** Broker `b` ends at a time when everybody knows that `u` is connected there, and stays away.
Whatever else happens, as long as `u` does not connect to any broker every other broker that keeps running routes
`u` to `b`, for ever. -/
theorem C121_kept (u : U) (b x : B) (l1 l2 l3 : List (MLabel U B T H))
    (hno : ∀ l ∈ l1, ¬ Connects u l)
    (hlinks : ∀ x y, x ≠ y → Linked ((start : MNet U B T H).run l1) x y)
    (hinit : ((start : MNet U B T H).run l1).fullU = [])
    (hturn : InTurn u ((start : MNet U B T H).run l1) l2) (hat : whereabouts u l2 none = some b)
    (hway : NothingUnderWay u ((start : MNet U B T H).run (l1 ++ l2)))
    (hann : ∀ x, ¬ Unannounced u ((start : MNet U B T H).run (l1 ++ l2)) x)
    (h3 : ∀ l ∈ l3, ¬ Connects u l ∧ NoLinkOf b l) (hxb : x ≠ b) (hx : .restart x ∉ l3)
    (hlen : 2 * (l1.length + l2.length + 1) < 2 ^ 64) :
    (((start : MNet U B T H).run (l1 ++ l2 ++ .restart b :: l3)).st x).getBrokerOfUser u = some b := by
  obtain ⟨v, _, h0⟩ := moved_crash u b b l1 l2 (fun z => z = x) hno hlinks hinit hturn hat hway hann hlen
  have h1 := moved_run l3 _ h0 h3 False.elim (fun z hz => by rw [hz]; exact hx)
  rw [← Mesh.run_append, List.append_assoc (l1 ++ l2)] at h1
  have h2 := h1.keep id x hxb rfl
  show (UNet.view (((start : MNet U B T H).run (l1 ++ l2 ++ .restart b :: l3)).st x) u).e.bind VV.value = some b
  rw [show (l1 ++ l2 ++ .restart b :: l3) = l1 ++ l2 ++ ([.restart b] ++ l3) from rfl, h2]
  rfl

/-- **C121, partial.** After the user has connected to another broker `y` (as in C120) brokers linked to `y` to which
`y` has said everything do not route the user to `b` any more. Users who were elsewhere when `b` ended are in
`C85_elsewhere`. Missing from the full claim: users who do not connect again, for whom it is false (`C121_kept`). -/
theorem C121_forgotten_partial (u : U) (b y x : B) (hd : H) (ts : List T) (l1 l2 l3 l4 : List (MLabel U B T H))
    (hno : ∀ l ∈ l1, ¬ Connects u l)
    (hlinks : ∀ x y, x ≠ y → Linked ((start : MNet U B T H).run l1) x y)
    (hinit : ((start : MNet U B T H).run l1).fullU = [])
    (hturn : InTurn u ((start : MNet U B T H).run l1) l2) (hat : whereabouts u l2 none = some b)
    (hway : NothingUnderWay u ((start : MNet U B T H).run (l1 ++ l2)))
    (hann : ∀ x, ¬ Unannounced u ((start : MNet U B T H).run (l1 ++ l2)) x)
    (h3 : ∀ l ∈ l3, ¬ Connects u l ∧ NoLinkOf b l) (hyb : y ≠ b) (hy : .restart y ∉ l3)
    (hdue : ∀ x, y < x → (x, y) ∉ ((start : MNet U B T H).run (l1 ++ l2 ++ .restart b :: l3)).fullU)
    (h4 : ∀ l ∈ l4, NoLinkOf b l ∧ NoGreaterLink y l ∧ Stays u y l)
    (hlen : 2 * (l1.length + l2.length + 1) < 2 ^ 64) :
    let n := (start : MNet U B T H).run (l1 ++ l2 ++ .restart b :: l3 ++ .connect y u hd ts :: l4)
    (n.st y).getBrokerOfUser u ≠ some b ∧
    (Linked n y x → UsersSettled n y x → (n.st x).getBrokerOfUser u ≠ some b) := by
  intro n
  have hknown := C121_kept u b y l1 l2 l3 hno hlinks hinit hturn hat hway hann h3 hyb hy hlen
  obtain ⟨_, h1, h2, _⟩ := C120_found_partial u b y hd ts l1 l2 l3 l4 hno hlinks hinit hturn hat hway hann h3 hyb
    hknown hdue h4 hlen
  have hne : some y ≠ some b := fun e => hyb (Option.some.inj e)
  refine ⟨?_, fun hl hs => ?_⟩
  · rw [show (n.st y).getBrokerOfUser u = some y from h1]; exact hne
  · rw [show (n.st x).getBrokerOfUser u = some y from h2 x hl hs]; exact hne

/-! ### A case

The mesh of C74's case, with user 7 at broker 2, which ends. The others notice; their link fails and comes back; user
5 connects to broker 0. The initial sync of broker 1 for broker 0, taken before user 7 connects to broker 1, arrives
after the sync announcing that. Then the link fails and comes back once more, and broker 0 tells broker 1 where user 7
is. -/

def demoApart : List (MLabel Nat (Fin 3) Nat Nat) :=
  [.drop 0 2, .drop 1 2, .drop 0 1, .drop 1 0, .connect 0 5 119 [], .linkUp 0 1 120 121, .fullUser 0 1, .fullUser 1 0,
   .send 6 true, .deliver 0 1]

def demoElsewhere : List (MLabel Nat (Fin 3) Nat Nat) :=
  [.startUser 1, .readDests 8, .send 8 true, .send 7 true, .deliver 1 0, .deliver 1 0, .startUser 0, .readDests 9,
   .send 9 true, .deliver 0 1, .drop 0 1, .drop 1 0, .linkUp 1 0 123 124, .fullUser 0 1, .send 10 true, .deliver 0 1,
   .fullUser 1 0, .send 11 true, .deliver 1 0]

def demoApartEnd : MNet Nat (Fin 3) Nat Nat :=
  (start : MNet Nat (Fin 3) Nat Nat).run (demoLinks ++ demoUsers ++ .restart 2 :: demoApart)

def demoFound : MNet Nat (Fin 3) Nat Nat :=
  (start : MNet Nat (Fin 3) Nat Nat).run
    (demoLinks ++ demoUsers ++ .restart 2 :: demoApart ++ .connect 1 7 122 [3] :: demoElsewhere)

theorem demoApart_ok : ∀ l ∈ demoApart, ¬ Connects 7 l ∧ NoLinkOf 2 l := by
  intro l hl
  simp only [demoApart, List.mem_cons, List.not_mem_nil, or_false] at hl
  rcases hl with rfl | rfl | rfl | rfl | rfl | rfl | rfl | rfl | rfl | rfl <;> simp [Connects, NoLinkOf]

/-- What `C120_found_partial` asks for beyond the hypotheses shown to be met in `Props/MeshTurn`, and that
broker 0 routed the user to the broker that is gone. -/
example : (∀ l ∈ demoApart, ¬ Connects 7 l ∧ NoLinkOf 2 l) ∧
    (demoApartEnd.st 1).getBrokerOfUser 7 = some 2 ∧ (demoApartEnd.st 0).getBrokerOfUser 7 = some 2 ∧
    (∀ x, 1 < x → (x, 1) ∉ demoApartEnd.fullU) ∧
    (∀ l ∈ demoElsewhere, NoLinkOf 2 l ∧ NoGreaterLink 1 l ∧ Stays 7 1 l) ∧
    Linked demoFound 1 0 ∧ UsersSettled demoFound 1 0 ∧ (demoFound.st 0).getBrokerOfUser 7 = some 1 := by
  refine ⟨demoApart_ok, by decide +kernel, by decide +kernel, by decide +kernel, ?_,
    ⟨by decide +kernel, by decide +kernel⟩, ⟨by decide +kernel, by decide +kernel, ?_, ?_⟩, by decide +kernel⟩
  · intro l hl
    simp only [demoElsewhere, List.mem_cons, List.not_mem_nil, or_false] at hl
    rcases hl with rfl | rfl | rfl | rfl | rfl | rfl | rfl | rfl | rfl | rfl | rfl | rfl | rfl | rfl | rfl | rfl | rfl |
      rfl | rfl <;> simp [Connects, NoLinkOf, NoGreaterLink, Stays]
  · have : ∀ τ ∈ demoFound.tasks, τ.here = 1 → τ.dests = some [] := by decide +kernel
    intro τ hτ h1 _
    exact ⟨[], this τ hτ h1, by simp⟩
  · have : demoFound.ch 1 0 = [] := List.isEmpty_iff.1 (by decide +kernel)
    rw [this]; simp

/-! For `C120_greatest_partial`: user 7 is at broker 0, which ends, and connects to broker 2, the greatest; the link
between brokers 1 and 2 fails and comes back afterwards, before broker 2 has announced the user, and broker 1 sends
it what it has heard of the user. -/

def demoEarly : List (MLabel Nat (Fin 3) Nat Nat) := demoUsers.take 7

def demoNoticed : List (MLabel Nat (Fin 3) Nat Nat) := [.drop 1 0, .drop 2 0]

def demoRelinked : List (MLabel Nat (Fin 3) Nat Nat) :=
  [.drop 1 2, .drop 2 1, .linkUp 1 2 120 121, .fullUser 2 1, .send 0 true, .deliver 2 1, .fullUser 1 2, .send 1 true,
   .deliver 1 2, .startUser 2, .readDests 2, .send 2 true, .deliver 2 1]

def demoGreatest : MNet Nat (Fin 3) Nat Nat :=
  (start : MNet Nat (Fin 3) Nat Nat).run
    (demoLinks ++ demoEarly ++ .restart 0 :: demoNoticed ++ .connect 2 7 122 [3] :: demoRelinked)

example : (∀ x : Fin 3, ¬ 2 < x) ∧
    InTurn 7 ((start : MNet Nat (Fin 3) Nat Nat).run demoLinks) demoEarly ∧ whereabouts 7 demoEarly none = some 0 ∧
    NothingUnderWay 7 ((start : MNet Nat (Fin 3) Nat Nat).run (demoLinks ++ demoEarly)) ∧
    (∀ b, ¬ Unannounced 7 ((start : MNet Nat (Fin 3) Nat Nat).run (demoLinks ++ demoEarly)) b) ∧
    (∀ l ∈ demoNoticed, ¬ Connects 7 l ∧ NoLinkOf 0 l) ∧
    (((start : MNet Nat (Fin 3) Nat Nat).run (demoLinks ++ demoEarly ++ .restart 0 :: demoNoticed)).st 2).getBrokerOfUser
      7 = some 0 ∧
    (∀ l ∈ demoRelinked, NoLinkOf 0 l ∧ Stays 7 2 l) ∧
    Linked demoGreatest 2 1 ∧ UsersSettled demoGreatest 2 1 ∧ (demoGreatest.st 1).getBrokerOfUser 7 = some 2 := by
  refine ⟨by decide, inTurnB_sound _ _ _ (by decide +kernel), by decide +kernel, nothingB_sound _ _ (by decide +kernel),
    ?_, ?_, by decide +kernel, ?_, ⟨by decide +kernel, by decide +kernel⟩,
    ⟨by decide +kernel, by decide +kernel, ?_, ?_⟩, by decide +kernel⟩
  · unfold MeshTurn.Unannounced; decide +kernel
  · intro l hl
    simp only [demoNoticed, List.mem_cons, List.not_mem_nil, or_false] at hl
    rcases hl with rfl | rfl <;> simp [Connects, NoLinkOf]
  · intro l hl
    simp only [demoRelinked, List.mem_cons, List.not_mem_nil, or_false] at hl
    rcases hl with rfl | rfl | rfl | rfl | rfl | rfl | rfl | rfl | rfl | rfl | rfl | rfl | rfl <;>
      simp [Connects, NoLinkOf, Stays]
  · have : ∀ τ ∈ demoGreatest.tasks, τ.here = 2 → τ.dests = some [] := by decide +kernel
    intro τ hτ h1 _
    exact ⟨[], this τ hτ h1, by simp⟩
  · have : demoGreatest.ch 2 1 = [] := List.isEmpty_iff.1 (by decide +kernel)
    rw [this]; simp

/-- What `C121_kept` asks for beyond those hypotheses. -/
example : (∀ l ∈ demoApart, ¬ Connects 7 l ∧ NoLinkOf 2 l) ∧ .restart 0 ∉ demoApart ∧
    (demoApartEnd.st 0).getBrokerOfUser 7 = some 2 := by
  refine ⟨demoApart_ok, ?_, by decide +kernel⟩
  simp [demoApart]

/-- User 7 is connected to broker 2, which everybody knows, and which ends for good; the others notice. Then broker 1
is restarted as well, and is linked with broker 0, which tells it where the user is. -/
def retold : List (MLabel Nat (Fin 3) Nat Nat) :=
  [.drop 0 2, .drop 1 2, .restart 1, .drop 0 1, .linkUp 0 1 120 121, .fullUser 0 1, .fullUser 1 0,
   .send 0 true, .deliver 0 1]

def knownAt2 : List (MLabel Nat (Fin 3) Nat Nat) :=
  [.linkUp 0 1 100 101, .linkUp 1 2 102 103, .linkUp 0 2 104 105,
   .fullUser 0 1, .fullUser 1 0, .fullUser 1 2, .fullUser 2 1, .fullUser 0 2, .fullUser 2 0,
   .connect 2 7 106 [], .startUser 2, .readDests 0, .send 0 true, .send 0 true, .deliver 2 0, .deliver 2 1]

def retoldEnd : MNet Nat (Fin 3) Nat Nat := (start : MNet Nat (Fin 3) Nat Nat).run (knownAt2 ++ .restart 2 :: retold)

theorem retold_said (z z' : Fin 3) (h : retoldEnd.knows z z' = true) : AllSaid retoldEnd z z' := by
  have hl : ∀ z z' : Fin 3, retoldEnd.knows z z' = true → retoldEnd.knows z' z = true := by decide +kernel
  have key : ∀ z z' : Fin 3, (retoldEnd.st z).getPartialUserSync.2.isNone = true ∧ (z, z') ∉ retoldEnd.fullU ∧
      (retoldEnd.ch z z').isEmpty = true ∧ ∀ τ ∈ retoldEnd.tasks, τ.dests = some [] := by decide +kernel
  have hs : ∀ z z' : Fin 3, UsersSettled retoldEnd z z' := by
    intro z z'
    obtain ⟨h1, h2, h3, h4⟩ := key z z'
    refine ⟨Option.isNone_iff_eq_none.1 h1, h2, fun τ hτ _ _ => ⟨[], h4 τ hτ, by simp⟩, ?_⟩
    rw [List.isEmpty_iff.1 h3]; simp
  exact ⟨⟨h, hl z z' h⟩, hs z z', hs z' z⟩

/-- **C121 does not hold**: even a broker started after `b` has ended routes users to `b`. -/
theorem C121_false : ¬ GoneForgotten Nat (Fin 3) Nat Nat := by
  intro h
  refine h knownAt2 retold 2 1 7 (by decide) ?_ (by decide +kernel) retold_said (by decide +kernel)
  intro l hl
  simp only [retold, List.mem_cons, List.not_mem_nil, or_false] at hl
  rcases hl with rfl | rfl | rfl | rfl | rfl | rfl | rfl | rfl | rfl <;> simp [NoLinkOf]

/-- Brokers 0 and 1 are linked at the end. -/
example : retoldEnd.knows 0 1 = true ∧ (retoldEnd.st 0).getBrokerOfUser 7 = some 2 := by decide +kernel

end Verif.Props.MeshFailover

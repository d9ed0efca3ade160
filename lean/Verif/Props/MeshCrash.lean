import Verif.Props.MeshTurn

/-!
# Property C85: the users of a broker that crashed
-/

set_option linter.unusedSectionVars false

namespace Verif.Props.MeshCrash
open Verif Verif.Conns Verif.MNet Verif.Props.Mesh Verif.Props.MeshUsers Verif.Props.MeshTurn

variable {U B T H : Type} [DecidableEq U] [DecidableEq B] [DecidableEq T] [DecidableEq H]
  [LT B] [DecidableLT B]

/-! ## Specification -/

/-- All of `b` and `b'` is said, in both directions. -/
def AllSaid (n : MNet U B T H) (b b' : B) : Prop :=
  Linked n b b' ∧ UsersSettled n b b' ∧ UsersSettled n b' b

/-- The claim of C85: after broker `b` was restarted, brokers linked to it with which everything has been
said do not forward to it messages for users who have not connected to any broker since. -/
def CrashForgotten (U B T H : Type) [DecidableEq U] [DecidableEq B] [DecidableEq T] [DecidableEq H]
    [LT B] [DecidableLT B] : Prop :=
  ∀ (l1 l2 : List (MLabel U B T H)) (b x : B) (u : U), (∀ l ∈ l2, ¬ Connects u l) →
    AllSaid ((start : MNet U B T H).run (l1 ++ .restart b :: l2)) b x →
    (((start : MNet U B T H).run (l1 ++ .restart b :: l2)).st x).getBrokerOfUser u ≠ some b

/-- A link that comes up is one of `b`. -/
def LinksOf (b : B) : MLabel U B T H → Prop
  | .linkUp x y _ _ => x = b ∨ y = b
  | _ => True

/-! ## A broker that is told of a user it does not have -/

theorem foldl_removeUser_self (l : List (U × Option B)) (s : Conns U B T H) (u : U) (v : Nat) (c : Bool)
    (hv : UNet.view s u = ⟨some ⟨v, some s.identity⟩, false, c⟩) (hmem : u ∈ l.map Prod.fst) :
    UNet.view (l.foldl (fun s c => s.removeUser c.1) s) u = ⟨some ⟨VMap.bump v, none⟩, true, false⟩ := by
  induction l generalizing s with
  | nil => simp at hmem
  | cons a l ih =>
    rw [List.foldl_cons]
    by_cases e : a.1 = u
    · have h1 : UNet.view (s.removeUser a.1) u = ⟨some ⟨VMap.bump v, none⟩, true, false⟩ := by
        rw [e, UNet.view_removeUser, hv]
        simp [UNet.remV, UNet.nextVer]
      rw [UNet.foldl_removeUser_view _ _ _ (by rw [h1]; simp), h1]
      simp
    · have hid : (s.removeUser a.1).identity = s.identity := by simp
      refine ih (s.removeUser a.1) ?_ ?_
      · rw [UNet.view_removeUser_other _ _ _ e, hv, hid]
      · simp only [List.map_cons, List.mem_cons] at hmem
        exact hmem.resolve_left (fun h => e h.symm)

/-- A broker told by an overriding entry that `u` is here: it notes that `u` is gone. -/
theorem view_apply_self (s : Conns U B T H) (u : U) (r : DirectMap U B) (v : Nat)
    (h : r.map.get u = some ⟨v, some s.identity⟩)
    (ht : VMap.takes s.direct.ident r.ident (UNet.view s u).e ⟨v, some s.identity⟩)
    (hmod : (UNet.view s u).m = true → (UNet.view s u).e.isSome) :
    UNet.view (s.applyUserSync r) u = ⟨some ⟨VMap.bump v, none⟩, true, false⟩ := by
  have hmem : u ∈ (s.direct.merge r).2.map Prod.fst :=
    List.mem_map.2 ⟨(u, some s.identity), (VMap.mem_changes_merge _ _ _ _).2 ⟨_, h, ht, rfl⟩, rfl⟩
  have h2 := VMap.modified_merge s.direct r u
  have hm' : u ∉ (s.direct.merge r).1.modified := by
    rw [h2]
    rintro ⟨h3, h4⟩
    exact h4 ⟨hmod (by simpa [UNet.view] using h3), _, h, ht⟩
  simp only [applyUserSync]
  refine foldl_removeUser_self _ { s with direct := (s.direct.merge r).1 } u v (s.users.get u).isSome ?_ hmem
  have h1 : (s.direct.merge r).1.map.get u = some ⟨v, some s.identity⟩ := by
    rw [VMap.map_merge, h]
    exact if_pos ht
  simp only [UNet.view, h1, hm', decide_false]

/-! ## Invariant after the crash -/

/-- The entry of those who still believe in the old connection, and the one by which it is withdrawn. -/
abbrev old (b : B) (v : Nat) : Option (VV B) := some ⟨v, some b⟩
abbrev gone (v : Nat) : Option (VV B) := some ⟨v + 1, none⟩

/-- `x` will be told that `u` is gone. -/
def Told (n : MNet U B T H) (b : B) (u : U) (v : Nat) (x : B) : Prop :=
  (x, b) ∈ n.fullU ∨
  (∃ τ ∈ n.tasks, τ.here = x ∧ entryOf u τ.msg = old b v ∧ τ.dests = some [b]) ∨
  (∃ m ∈ n.ch x b, entryOf u m = old b v) ∨
  (UNet.view (n.st b) u).m = true ∨
  (∃ τ ∈ n.tasks, τ.here = b ∧ entryOf u τ.msg = gone v ∧ ∀ ds, τ.dests = some ds → x ∈ ds) ∨
  ∃ m ∈ n.ch b x, entryOf u m = gone v

structure Gone (n : MNet U B T H) (b : B) (u : U) (v : Nat) : Prop where
  ident : ∀ x, (n.st x).identity = x
  atB : UNet.view (n.st b) u = ⟨none, false, false⟩ ∨ UNet.view (n.st b) u = ⟨gone v, true, false⟩
  atO : ∀ x, x ≠ b → UNet.view (n.st x) u = ⟨none, false, false⟩ ∨ UNet.view (n.st x) u = ⟨old b v, false, false⟩
  full : ∀ p ∈ n.fullU, p.1 = b ∨ p.2 = b
  tB : ∀ τ ∈ n.tasks, τ.here = b → entryOf u τ.msg = none ∨ entryOf u τ.msg = gone v
  tO : ∀ τ ∈ n.tasks, τ.here ≠ b → entryOf u τ.msg = none ∨ τ.dests = some [] ∨
    (entryOf u τ.msg = old b v ∧ τ.dests = some [b])
  chB : ∀ y, ∀ m ∈ n.ch b y, entryOf u m = none ∨ entryOf u m = gone v
  chO : ∀ x y, x ≠ b → ∀ m ∈ n.ch x y, entryOf u m = none ∨ (y = b ∧ entryOf u m = old b v)
  cov : ∀ x, x ≠ b → (n.st b).brokers.get x ≠ none → (n.st x).brokers.get b ≠ none →
    (UNet.view (n.st x) u).e = old b v → Told n b u v x

/-- A call. -/
theorem gone_act {n : MNet U B T H} {b : B} {u : U} {v : Nat} (h : Gone n b u v) (x : B) (op : Op U B T H)
    (hknow : ∀ y, ((n.st x).step op).brokers.get y ≠ none → (n.st x).brokers.get y ≠ none)
    (hB : x = b → (UNet.view ((n.st x).step op) u = ⟨none, false, false⟩ ∨
        UNet.view ((n.st x).step op) u = ⟨gone v, true, false⟩) ∧
      ((UNet.view (n.st b) u).m = true → (UNet.view ((n.st x).step op) u).m = true ∨
        ∃ τ ∈ n.tasks, τ.here = b ∧ entryOf u τ.msg = gone v ∧ τ.dests = none))
    (hO : x ≠ b → UNet.view ((n.st x).step op) u = ⟨none, false, false⟩ ∨
      UNet.view ((n.st x).step op) u = UNet.view (n.st x) u) : Gone (n.act x op) b u v := by
  have hk : ∀ y z, ((n.act x op).st y).brokers.get z ≠ none → (n.st y).brokers.get z ≠ none := by
    intro y z
    rw [st_act]; split
    · rename_i e; subst e; exact hknow z
    · exact id
  refine ⟨identity_act n x op h.ident, ?_, ?_, h.full, h.tB, h.tO, h.chB, h.chO, ?_⟩
  · rw [st_act]; split
    · rename_i e; subst e; exact (hB rfl).1
    · exact h.atB
  · intro y hy
    rw [st_act]; split
    · rename_i e; subst e
      rcases hO hy with h1 | h1
      · exact Or.inl h1
      · rw [h1]; exact h.atO _ hy
    · exact h.atO y hy
  · intro y hy h1 h2 h3
    have h3' : (UNet.view (n.st y) u).e = old b v := by
      rw [st_act] at h3
      split at h3
      · rename_i e; subst e
        rcases hO hy with h4 | h4
        · rw [h4] at h3; simp at h3
        · rw [h4] at h3; exact h3
      · exact h3
    rcases h.cov y hy (hk _ _ h1) (hk _ _ h2) h3' with h4 | h4 | h4 | h4 | h4 | h4
    · exact Or.inl h4
    · exact Or.inr (Or.inl h4)
    · exact Or.inr (Or.inr (Or.inl h4))
    · by_cases e : b = x
      · rcases (hB e.symm).2 h4 with h5 | ⟨τ, h5, h6, h7, h8⟩
        · refine Or.inr (Or.inr (Or.inr (Or.inl ?_)))
          rw [st_act, if_pos e]; exact h5
        · refine Or.inr (Or.inr (Or.inr (Or.inr (Or.inl ⟨τ, h5, h6, h7, ?_⟩))))
          rw [h8]; simp
      · refine Or.inr (Or.inr (Or.inr (Or.inl ?_)))
        rw [st_act, if_neg e]; exact h4
    · exact Or.inr (Or.inr (Or.inr (Or.inr (Or.inl h4))))
    · exact Or.inr (Or.inr (Or.inr (Or.inr (Or.inr h4))))

/-- A call that does not concern `u`. -/
theorem gone_same {n : MNet U B T H} {b : B} {u : U} {v : Nat} (h : Gone n b u v) (x : B) (op : Op U B T H)
    (hknow : ∀ y, ((n.st x).step op).brokers.get y ≠ none → (n.st x).brokers.get y ≠ none)
    (hv : UNet.view ((n.st x).step op) u = UNet.view (n.st x) u) : Gone (n.act x op) b u v := by
  refine gone_act h x op hknow ?_ (fun _ => Or.inr hv)
  rintro rfl
  rw [hv]
  exact ⟨h.atB, Or.inl⟩

theorem gone_quiet {n : MNet U B T H} {b : B} {u : U} {v : Nat} (h : Gone n b u v) (x : B) (op : Op U B T H)
    (hk : KeepsLinks (n.st x) op) (hun : UNet.Unrelated u op) : Gone (n.act x op) b u v :=
  gone_same h x op (fun y => (known_call _ op hk y).1) (UNet.view_unrelated _ u op hun)

/-- Frames leave a queue. -/
theorem gone_setCh {n : MNet U B T H} {b : B} {u : U} {v : Nat} (h : Gone n b u v) (x y : B)
    (q : List (SyncMsg U B T)) (hin : ∀ m ∈ q, m ∈ n.ch x y)
    (hlose : ∀ m ∈ n.ch x y, m ∈ q ∨ entryOf u m = none ∨ (n.st x).brokers.get y = none ∨
      (n.st y).brokers.get x = none ∨ (x = b ∧ (UNet.view (n.st y) u).e = none) ∨
      (y = b ∧ (UNet.view (n.st b) u).m = true)) : Gone (n.setCh x y q) b u v := by
  have hsub : ∀ x' y' m, m ∈ (n.setCh x y q).ch x' y' → m ∈ n.ch x' y' := by
    intro x' y' m hm
    simp only [setCh] at hm
    split at hm
    · rename_i e; obtain ⟨rfl, rfl⟩ := e; exact hin m hm
    · exact hm
  refine ⟨h.ident, h.atB, h.atO, h.full, h.tB, h.tO, fun y' m hm => h.chB y' m (hsub _ _ _ hm),
    fun x' y' hx m hm => h.chO x' y' hx m (hsub _ _ _ hm), ?_⟩
  intro z hz h1 h2 h3
  rcases h.cov z hz h1 h2 h3 with h4 | h4 | ⟨m, h4, h5⟩ | h4 | h4 | ⟨m, h4, h5⟩
  · exact Or.inl h4
  · exact Or.inr (Or.inl h4)
  · by_cases e : z = x ∧ b = y
    · obtain ⟨rfl, rfl⟩ := e
      rcases hlose m h4 with h6 | h6 | h6 | h6 | h6 | h6
      · exact Or.inr (Or.inr (Or.inl ⟨m, by simp [setCh, h6], h5⟩))
      · rw [h6] at h5; simp at h5
      · exact absurd h6 h2
      · exact absurd h6 h1
      · exact absurd h6.1 hz
      · exact Or.inr (Or.inr (Or.inr (Or.inl h6.2)))
    · exact Or.inr (Or.inr (Or.inl ⟨m, by simp only [setCh]; rw [if_neg e]; exact h4, h5⟩))
  · exact Or.inr (Or.inr (Or.inr (Or.inl h4)))
  · exact Or.inr (Or.inr (Or.inr (Or.inr (Or.inl h4))))
  · by_cases e : b = x ∧ z = y
    · obtain ⟨rfl, rfl⟩ := e
      rcases hlose m h4 with h6 | h6 | h6 | h6 | h6 | h6
      · exact Or.inr (Or.inr (Or.inr (Or.inr (Or.inr ⟨m, by simp [setCh, h6], h5⟩))))
      · rw [h6] at h5; simp at h5
      · exact absurd h6 h1
      · exact absurd h6 h2
      · have h3' : (UNet.view (n.st z) u).e = old b v := h3
        rw [h6.2] at h3'; simp at h3'
      · exact absurd h6.1 hz
    · exact Or.inr (Or.inr (Or.inr (Or.inr (Or.inr ⟨m, by simp only [setCh]; rw [if_neg e]; exact h4, h5⟩))))

/-- A new sync. -/
theorem gone_spawn {n : MNet U B T H} {b : B} {u : U} {v : Nat} (h : Gone n b u v) (τ : SyncTask U B T)
    (h1 : τ.here = b → entryOf u τ.msg = none ∨ entryOf u τ.msg = gone v)
    (h2 : τ.here ≠ b → entryOf u τ.msg = none ∨ (entryOf u τ.msg = old b v ∧ τ.dests = some [b])) :
    Gone (n.spawn τ) b u v := by
  have hmem : ∀ σ, σ ∈ (n.spawn τ).tasks ↔ σ ∈ n.tasks ∨ σ = τ := by
    intro σ; simp [spawn]
  refine ⟨h.ident, h.atB, h.atO, h.full, ?_, ?_, h.chB, h.chO, ?_⟩
  · intro σ hσ
    rcases (hmem σ).1 hσ with h3 | rfl
    · exact h.tB σ h3
    · exact h1
  · intro σ hσ hb
    rcases (hmem σ).1 hσ with h3 | rfl
    · exact h.tO σ h3 hb
    · rcases h2 hb with h4 | h4
      · exact Or.inl h4
      · exact Or.inr (Or.inr h4)
  · intro z hz k1 k2 k3
    rcases h.cov z hz k1 k2 k3 with h4 | ⟨σ, h4, h5⟩ | h4 | h4 | ⟨σ, h4, h5⟩ | h4
    · exact Or.inl h4
    · exact Or.inr (Or.inl ⟨σ, (hmem σ).2 (Or.inl h4), h5⟩)
    · exact Or.inr (Or.inr (Or.inl h4))
    · exact Or.inr (Or.inr (Or.inr (Or.inl h4)))
    · exact Or.inr (Or.inr (Or.inr (Or.inr (Or.inl ⟨σ, (hmem σ).2 (Or.inl h4), h5⟩))))
    · exact Or.inr (Or.inr (Or.inr (Or.inr (Or.inr h4))))

theorem mem_set_of_mem {A : Type} {l : List A} {i : Nat} {a x y : A} (hi : l[i]? = some x) (h : y ∈ l) :
    y = x ∨ y ∈ l.set i a := by
  obtain ⟨j, hj⟩ := List.mem_iff_getElem?.1 h
  by_cases e : j = i
  · subst e; rw [hi] at hj; cases hj; exact Or.inl rfl
  · right
    apply List.mem_of_getElem? (i := j)
    rw [List.getElem?_set_ne (Ne.symm e)]; exact hj

/-- Progress of a sync that does not lose anything. -/
theorem gone_set {n : MNet U B T H} {b : B} {u : U} {v : Nat} (h : Gone n b u v) (i : Nat) (x : B)
    (m : SyncMsg U B T) (d d' : Option (List B)) (hi : n.tasks[i]? = some ⟨x, m, d⟩)
    (hO : x ≠ b → entryOf u m ≠ none → d' = some [] ∨ (entryOf u m = old b v ∧ d' = some [b]))
    (hloseO : x ≠ b → entryOf u m = old b v → d = some [b] → (n.st x).brokers.get b ≠ none →
      d' = some [b] ∨ ∃ m' ∈ n.ch x b, entryOf u m' = old b v)
    (hloseB : x = b → entryOf u m = gone v → ∀ z, (n.st b).brokers.get z ≠ none →
      (∀ ds, d = some ds → z ∈ ds) → (∀ ds, d' = some ds → z ∈ ds) ∨ ∃ m' ∈ n.ch b z, entryOf u m' = gone v) :
    Gone { n with tasks := n.tasks.set i ⟨x, m, d'⟩ } b u v := by
  have hin : (⟨x, m, d'⟩ : SyncTask U B T) ∈ n.tasks.set i ⟨x, m, d'⟩ :=
    List.mem_set (List.getElem?_eq_some_iff.1 hi).1 _
  have hold := List.mem_of_getElem? hi
  refine ⟨h.ident, h.atB, h.atO, h.full, ?_, ?_, h.chB, h.chO, ?_⟩
  · intro σ hσ
    rcases List.mem_or_eq_of_mem_set hσ with h1 | rfl
    · exact h.tB σ h1
    · exact h.tB ⟨x, m, d⟩ hold
  · intro σ hσ hb
    rcases List.mem_or_eq_of_mem_set hσ with h1 | rfl
    · exact h.tO σ h1 hb
    · by_cases e : entryOf u m = none
      · exact Or.inl e
      · exact Or.inr (hO hb e)
  · intro z hz k1 k2 k3
    rcases h.cov z hz k1 k2 k3 with h4 | ⟨σ, h4, h5, h6, h7⟩ | h4 | h4 | ⟨σ, h4, h5, h6, h7⟩ | h4
    · exact Or.inl h4
    · rcases mem_set_of_mem (a := ⟨x, m, d'⟩) hi h4 with rfl | h8
      · simp only at h5 h6 h7
        subst h5
        rcases hloseO hz h6 h7 k2 with h8 | h8
        · exact Or.inr (Or.inl ⟨_, hin, rfl, h6, h8⟩)
        · exact Or.inr (Or.inr (Or.inl h8))
      · exact Or.inr (Or.inl ⟨σ, h8, h5, h6, h7⟩)
    · exact Or.inr (Or.inr (Or.inl h4))
    · exact Or.inr (Or.inr (Or.inr (Or.inl h4)))
    · rcases mem_set_of_mem (a := ⟨x, m, d'⟩) hi h4 with rfl | h8
      · simp only at h5 h6 h7
        subst h5
        rcases hloseB rfl h6 z k1 h7 with h8 | h8
        · exact Or.inr (Or.inr (Or.inr (Or.inr (Or.inl ⟨_, hin, rfl, h6, h8⟩))))
        · exact Or.inr (Or.inr (Or.inr (Or.inr (Or.inr h8))))
      · exact Or.inr (Or.inr (Or.inr (Or.inr (Or.inl ⟨σ, h8, h5, h6, h7⟩))))
    · exact Or.inr (Or.inr (Or.inr (Or.inr (Or.inr h4))))

/-- A frame is queued. -/
theorem gone_push {n : MNet U B T H} {b : B} {u : U} {v : Nat} (h : Gone n b u v) (x y : B)
    (m : SyncMsg U B T) (h1 : x = b → entryOf u m = none ∨ entryOf u m = gone v)
    (h2 : x ≠ b → entryOf u m = none ∨ (y = b ∧ entryOf u m = old b v)) :
    Gone (n.setCh x y (n.ch x y ++ [m])) b u v := by
  have hcase : ∀ x' y' m', m' ∈ (n.setCh x y (n.ch x y ++ [m])).ch x' y' →
      m' ∈ n.ch x' y' ∨ (x' = x ∧ y' = y ∧ m' = m) := by
    intro x' y' m' hm
    simp only [setCh] at hm
    split at hm
    · rename_i e; obtain ⟨rfl, rfl⟩ := e
      rcases List.mem_append.1 hm with h3 | h3
      · exact Or.inl h3
      · exact Or.inr ⟨rfl, rfl, List.mem_singleton.1 h3⟩
    · exact Or.inl hm
  have hkeep : ∀ x' y' m', m' ∈ n.ch x' y' → m' ∈ (n.setCh x y (n.ch x y ++ [m])).ch x' y' := by
    intro x' y' m' hm
    simp only [setCh]
    split
    · rename_i e; obtain ⟨rfl, rfl⟩ := e; simp [hm]
    · exact hm
  refine ⟨h.ident, h.atB, h.atO, h.full, h.tB, h.tO, ?_, ?_, ?_⟩
  · intro y' m' hm
    rcases hcase _ _ _ hm with h3 | ⟨h3, _, rfl⟩
    · exact h.chB y' m' h3
    · exact h1 h3.symm
  · intro x' y' hx m' hm
    rcases hcase _ _ _ hm with h3 | ⟨rfl, rfl, rfl⟩
    · exact h.chO x' y' hx m' h3
    · exact h2 hx
  · intro z hz k1 k2 k3
    rcases h.cov z hz k1 k2 k3 with h4 | h4 | ⟨m', h4, h5⟩ | h4 | h4 | ⟨m', h4, h5⟩
    · exact Or.inl h4
    · exact Or.inr (Or.inl h4)
    · exact Or.inr (Or.inr (Or.inl ⟨m', hkeep _ _ _ h4, h5⟩))
    · exact Or.inr (Or.inr (Or.inr (Or.inl h4)))
    · exact Or.inr (Or.inr (Or.inr (Or.inr (Or.inl h4))))
    · exact Or.inr (Or.inr (Or.inr (Or.inr (Or.inr ⟨m', hkeep _ _ _ h4, h5⟩))))

theorem removeBroker_known (s : Conns U B T H) (d y : B)
    (h : (s.step (.removeBroker d)).brokers.get y ≠ none) : s.brokers.get y ≠ none := by
  intro e
  apply h
  show (s.removeBroker d).brokers.get y = none
  rw [removeBroker_brokers_get]; split
  · rfl
  · exact e

/-- `x` removes `d`. -/
theorem gone_drop {n : MNet U B T H} {b : B} {u : U} {v : Nat} (h : Gone n b u v) (x d : B) :
    Gone ((n.act x (.removeBroker d)).setCh d x []) b u v := by
  have h1 := gone_same h x (.removeBroker d) (removeBroker_known _ d)
    (UNet.view_unrelated _ u (.removeBroker d) trivial)
  refine gone_setCh h1 d x [] (by simp) ?_
  intro m _
  refine Or.inr (Or.inr (Or.inr (Or.inl ?_)))
  rw [st_act_self]
  show ((n.st x).removeBroker d).brokers.get d = none
  rw [removeBroker_brokers_get, if_pos rfl]

theorem gone_send {n : MNet U B T H} {b : B} {u : U} {v : Nat} (h : Gone n b u v) (i : Nat) (ok : Bool) :
    Gone (n.step (.send i ok)) b u v := by
  simp only [MNet.step]
  split
  · rename_i x m d ds hi
    have hold := List.mem_of_getElem? hi
    have hx : x ≠ b → entryOf u m ≠ none → entryOf u m = old b v ∧ d = b ∧ ds = [] := by
      intro hx hm
      rcases h.tO _ hold hx with h1 | h1 | ⟨h1, h2⟩
      · exact absurd h1 hm
      · cases h1
      · cases h2; exact ⟨h1, rfl, rfl⟩
    by_cases hk : n.knows x d = true
    · rw [if_pos hk]
      cases ok with
      | true =>
        rw [if_pos rfl]
        -- first queue the frame, then advance the task
        have h1 := gone_push h x d m (fun e => h.tB _ hold e) (fun e => by
          by_cases hm : entryOf u m = none
          · exact Or.inl hm
          · obtain ⟨h1, h2, _⟩ := hx e hm; exact Or.inr ⟨h2, h1⟩)
        refine gone_set h1 i x m (some (d :: ds)) (some ds) hi ?_ ?_ ?_
        · intro e hm
          obtain ⟨_, _, rfl⟩ := hx e hm
          exact Or.inl rfl
        · intro e hm hd _
          right
          cases hd
          exact ⟨m, by simp [setCh], hm⟩
        · rintro rfl hm z _ hz
          rcases List.mem_cons.1 (hz _ rfl) with rfl | h2
          · right; exact ⟨m, by simp [setCh], hm⟩
          · left; rintro ds' ⟨⟩; exact h2
      | false =>
        rw [if_neg (by simp)]
        have h1 := gone_drop h x d
        have hgone : (((n.act x (.removeBroker d)).setCh d x []).st x).brokers.get d = none := by
          show ((n.act x (.removeBroker d)).st x).brokers.get d = none
          rw [st_act_self]
          show ((n.st x).removeBroker d).brokers.get d = none
          rw [removeBroker_brokers_get, if_pos rfl]
        refine gone_set h1 i x m (some (d :: ds)) (some ds) hi ?_ ?_ ?_
        · intro e hm
          obtain ⟨_, _, rfl⟩ := hx e hm
          exact Or.inl rfl
        · intro e hm hd hne
          cases hd
          exact absurd hgone hne
        · rintro rfl hm z hne hz
          rcases List.mem_cons.1 (hz _ rfl) with rfl | h2
          · exact absurd hgone hne
          · left; rintro ds' ⟨⟩; exact h2
    · rw [if_neg hk]
      have hn : (n.st x).brokers.get d = none := by
        cases hd : (n.st x).brokers.get d with
        | none => rfl
        | some c => exact absurd ((knows_iff n x d).2 (by rw [hd]; simp)) hk
      refine gone_set h i x m (some (d :: ds)) (some ds) hi ?_ ?_ ?_
      · intro e hm
        obtain ⟨_, _, rfl⟩ := hx e hm
        exact Or.inl rfl
      · intro e hm hd hne
        cases hd
        exact absurd hn hne
      · rintro rfl hm z hne hz
        rcases List.mem_cons.1 (hz _ rfl) with rfl | h2
        · exact absurd hn hne
        · left; rintro ds' ⟨⟩; exact h2
  · exact h

theorem gone_linkUp {n : MNet U B T H} {b : B} {u : U} {v : Nat} (h : Gone n b u v) (x y : B) (c c' : H)
    (hb : x = b ∨ y = b) : Gone (n.step (.linkUp x y c c')) b u v := by
  simp only [MNet.step]
  split
  · exact h
  · rename_i hxy
    show Gone ({ (((n.act x (.addBroker y c)).act y (.addBroker x c')).setCh x y []).setCh y x [] with
      fullT := (x, y) :: (y, x) :: n.fullT, fullU := (x, y) :: (y, x) :: n.fullU } : MNet U B T H) b u v
    generalize hN : ({ (((n.act x (.addBroker y c)).act y (.addBroker x c')).setCh x y []).setCh y x [] with
      fullT := (x, y) :: (y, x) :: n.fullT, fullU := (x, y) :: (y, x) :: n.fullU } : MNet U B T H) = N
    have hst : N.st = ((n.act x (.addBroker y c)).act y (.addBroker x c')).st := by rw [← hN]; rfl
    have hfull : N.fullU = (x, y) :: (y, x) :: n.fullU := by rw [← hN]
    have htasks : N.tasks = n.tasks := by rw [← hN]; rfl
    have hch : ∀ a a', N.ch a a' = if a = x ∧ a' = y ∨ a = y ∧ a' = x then [] else n.ch a a' := by
      intro a a'
      rw [← hN]; simp only [setCh, act]
      by_cases h1 : a = y ∧ a' = x
      · simp [h1]
      · by_cases h2 : a = x ∧ a' = y
        · simp [h2]
        · simp [h1, h2]
    have hview : ∀ z, UNet.view (N.st z) u = UNet.view (n.st z) u := by
      intro z
      rw [hst, st_act]; split
      · rename_i e; subst e
        rw [UNet.view_unrelated _ u _ (by trivial), st_act_ne _ _ _ (Ne.symm hxy)]
      · rw [st_act]; split
        · rename_i e; subst e; rw [UNet.view_unrelated _ u _ (by trivial)]
        · rfl
    have hid : ∀ z, (N.st z).identity = z := by
      rw [hst]; exact identity_act _ y _ (identity_act n x _ h.ident)
    have hknow : ∀ z w, ¬ (z = x ∧ w = y) → ¬ (z = y ∧ w = x) →
        (N.st z).brokers.get w ≠ none → (n.st z).brokers.get w ≠ none := by
      intro z w h1 h2
      rw [hst, st_act]; split
      · rename_i e; subst e
        rw [st_act_ne _ _ _ (Ne.symm hxy)]
        show ((n.st z).addBroker x c').brokers.get w ≠ none → _
        rw [get_addBroker, if_neg (fun e => h2 ⟨rfl, e.symm⟩)]; exact id
      · rw [st_act]; split
        · rename_i e; subst e
          show ((n.st z).addBroker y c).brokers.get w ≠ none → _
          rw [get_addBroker, if_neg (fun e => h1 ⟨rfl, e.symm⟩)]; exact id
        · exact id
    have hsub : ∀ a a' m, m ∈ N.ch a a' → m ∈ n.ch a a' := by
      intro a a' m hm
      rw [hch] at hm; split at hm
      · cases hm
      · exact hm
    refine ⟨hid, by rw [hview]; exact h.atB, fun z hz => by rw [hview]; exact h.atO z hz, ?_,
      by rw [htasks]; exact h.tB, by rw [htasks]; exact h.tO, fun a m hm => h.chB a m (hsub _ _ _ hm),
      fun a a' ha m hm => h.chO a a' ha m (hsub _ _ _ hm), ?_⟩
    · intro p hp
      rw [hfull] at hp
      rcases List.mem_cons.1 hp with rfl | hp
      · exact hb
      · rcases List.mem_cons.1 hp with rfl | hp
        · exact hb.symm
        · exact h.full p hp
    · intro z hz k1 k2 k3
      rw [hview] at k3
      by_cases e : (x = b ∧ y = z) ∨ (x = z ∧ y = b)
      · left; rw [hfull]
        rcases e with ⟨rfl, rfl⟩ | ⟨rfl, rfl⟩ <;> simp
      · have e1 : ¬ (b = x ∧ z = y) := fun e' => e (Or.inl ⟨e'.1.symm, e'.2.symm⟩)
        have e2 : ¬ (b = y ∧ z = x) := fun e' => e (Or.inr ⟨e'.2.symm, e'.1.symm⟩)
        have c1 := hknow b z e1 e2 k1
        have c2 := hknow z b (fun e' => e2 ⟨e'.2, e'.1⟩) (fun e' => e1 ⟨e'.2, e'.1⟩) k2
        rcases h.cov z hz c1 c2 k3 with h4 | h4 | ⟨m, h4, h5⟩ | h4 | h4 | ⟨m, h4, h5⟩
        · left; rw [hfull]; simp [h4]
        · exact Or.inr (Or.inl (by rw [htasks]; exact h4))
        · refine Or.inr (Or.inr (Or.inl ⟨m, ?_, h5⟩))
          rw [hch, if_neg]; exact h4
          rintro (e' | e')
          · exact e2 ⟨e'.2, e'.1⟩
          · exact e1 ⟨e'.2, e'.1⟩
        · exact Or.inr (Or.inr (Or.inr (Or.inl (by rw [hview]; exact h4))))
        · exact Or.inr (Or.inr (Or.inr (Or.inr (Or.inl (by rw [htasks]; exact h4)))))
        · refine Or.inr (Or.inr (Or.inr (Or.inr (Or.inr ⟨m, ?_, h5⟩))))
          rw [hch, if_neg]; exact h4
          rintro (e' | e')
          · exact e1 e'
          · exact e2 e'

theorem gone_restart {n : MNet U B T H} {b : B} {u : U} {v : Nat} (h : Gone n b u v) (x : B) :
    Gone (n.step (.restart x)) b u v := by
  have hst : ∀ y, (n.step (.restart x)).st y = if y = x then Conns.new x else n.st y := fun _ => rfl
  have hnew : UNet.view (Conns.new x : Conns U B T H) u = ⟨none, false, false⟩ := by
    simp [UNet.view, Conns.new, VMap.new]
  have hch : ∀ a a' m, m ∈ (n.step (.restart x)).ch a a' → m ∈ n.ch a a' := by
    intro a a' m hm
    simp only [MNet.step] at hm
    split at hm
    · cases hm
    · exact hm
  refine ⟨?_, ?_, ?_, ?_, ?_, ?_, fun y m hm => h.chB y m (hch _ _ _ hm),
    fun a a' ha m hm => h.chO a a' ha m (hch _ _ _ hm), ?_⟩
  · intro y; rw [hst]; split
    · rename_i e; subst e; rfl
    · exact h.ident y
  · rw [hst]; split
    · exact Or.inl hnew
    · exact h.atB
  · intro y hy; rw [hst]; split
    · exact Or.inl hnew
    · exact h.atO y hy
  · intro p hp; exact h.full p (List.mem_filter.1 hp).1
  · intro τ hτ; exact h.tB τ (List.mem_filter.1 hτ).1
  · intro τ hτ; exact h.tO τ (List.mem_filter.1 hτ).1
  · intro z hz k1 k2 k3
    have hb : b ≠ x := by
      rintro rfl; rw [hst, if_pos rfl] at k1; exact k1 rfl
    have hzx : z ≠ x := by
      rintro rfl; rw [hst, if_pos rfl] at k2; exact k2 rfl
    rw [hst, if_neg hb] at k1
    rw [hst, if_neg hzx] at k2 k3
    have hkeep : ∀ τ ∈ n.tasks, τ.here ≠ x → τ ∈ (n.step (.restart x)).tasks := by
      intro τ hτ hne
      exact List.mem_filter.2 ⟨hτ, by simpa using hne⟩
    rcases h.cov z hz k1 k2 k3 with h4 | ⟨τ, h4, h5, h6⟩ | ⟨m, h4, h5⟩ | h4 | ⟨τ, h4, h5, h6⟩ | ⟨m, h4, h5⟩
    · exact Or.inl (List.mem_filter.2 ⟨h4, by simpa using hzx⟩)
    · exact Or.inr (Or.inl ⟨τ, hkeep τ h4 (by rw [h5]; exact hzx), h5, h6⟩)
    · exact Or.inr (Or.inr (Or.inl ⟨m, by simpa [MNet.step, hb] using h4, h5⟩))
    · exact Or.inr (Or.inr (Or.inr (Or.inl (by rw [hst, if_neg hb]; exact h4))))
    · exact Or.inr (Or.inr (Or.inr (Or.inr (Or.inl ⟨τ, hkeep τ h4 (by rw [h5]; exact hb), h5, h6⟩))))
    · exact Or.inr (Or.inr (Or.inr (Or.inr (Or.inr ⟨m, by simpa [MNet.step, hzx] using h4, h5⟩))))

theorem gone_startUser {n : MNet U B T H} {b : B} {u : U} {v : Nat} (h : Gone n b u v) (x : B) :
    Gone (n.step (.startUser x)) b u v := by
  have hmsg := UNet.sync_msg (n.st x) u
  have hview : UNet.view ((n.st x).step .partialUserSync) u = _ := UNet.view_sync (n.st x) u
  have hk : ∀ y, ((n.st x).step .partialUserSync).brokers.get y ≠ none → (n.st x).brokers.get y ≠ none :=
    fun y => (known_call _ .partialUserSync trivial y).1
  simp only [MNet.step]
  by_cases hx : x = b
  · subst hx
    cases hm : (n.st x).getPartialUserSync.2 with
    | none =>
      simp only
      rw [hm] at hmsg
      rcases h.atB with h1 | h1
      · refine gone_same h x _ hk ?_
        rw [hview, h1]; rfl
      · rw [h1] at hmsg; simp at hmsg
    | some m =>
      simp only
      rw [hm] at hmsg
      have hmsg' : m.map.get u = _ := hmsg
      have h2 : Gone (n.spawn ⟨x, .user m, none⟩) x u v := by
        refine gone_spawn h _ (fun _ => ?_) (fun e => absurd rfl e)
        show m.map.get u = none ∨ m.map.get u = gone v
        rw [hmsg']
        rcases h.atB with h1 | h1 <;> rw [h1] <;> simp
      refine gone_act h2 x .partialUserSync hk ?_ (fun e => absurd rfl e)
      rintro -
      rcases h.atB with h1 | h1
      · refine ⟨Or.inl (by rw [show (n.spawn ⟨x, .user m, none⟩).st x = n.st x from rfl, hview, h1]; rfl), ?_⟩
        intro h3
        rw [show (n.spawn ⟨x, .user m, none⟩).st x = n.st x from rfl, h1] at h3
        cases h3
      · refine ⟨Or.inl (by
          rw [show (n.spawn ⟨x, .user m, none⟩).st x = n.st x from rfl, hview, h1]; simp [VMap.adopted]), ?_⟩
        intro _
        right
        refine ⟨⟨x, .user m, none⟩, by simp [spawn], rfl, ?_, rfl⟩
        show m.map.get u = _
        rw [hmsg', h1]; rfl
  · have hsame : UNet.view ((n.st x).step .partialUserSync) u = UNet.view (n.st x) u := by
      rw [hview]
      rcases h.atO x hx with h1 | h1 <;> rw [h1] <;> rfl
    have h1 := gone_same h x .partialUserSync hk hsame
    cases hm : (n.st x).getPartialUserSync.2 with
    | none => exact h1
    | some m =>
      simp only
      refine gone_spawn h1 _ (fun e => absurd e hx) (fun _ => Or.inl ?_)
      rw [hm] at hmsg
      show m.map.get u = none
      have hmsg' : m.map.get u = _ := hmsg
      rw [hmsg']
      rcases h.atO x hx with h1 | h1 <;> rw [h1] <;> rfl

theorem gone_fullUser {n : MNet U B T H} {b : B} {u : U} {v : Nat} (h : Gone n b u v) (x y : B) :
    Gone (n.step (.fullUser x y)) b u v := by
  simp only [MNet.step]
  split
  · rename_i hmem
    have hpair := h.full _ hmem
    -- losing the entry of `fullU` is made up for by the task
    have key : ∀ N : MNet U B T H, N.st = n.st → N.fullU = n.fullU.erase (x, y) → N.ch = n.ch →
        (∀ σ ∈ n.tasks, σ ∈ N.tasks) →
        (∀ σ ∈ N.tasks, σ ∈ n.tasks ∨ (σ.here = x ∧ σ.dests = some [y] ∧ entryOf u σ.msg = (UNet.view (n.st x) u).e)) →
        (y = b → (UNet.view (n.st x) u).e = old b v → ∃ τ ∈ N.tasks, τ.here = x ∧
          entryOf u τ.msg = old b v ∧ τ.dests = some [b]) → Gone N b u v := by
      intro N h1 h2 h3 h4 h5 h6
      refine ⟨by rw [h1]; exact h.ident, by rw [h1]; exact h.atB, by rw [h1]; exact h.atO, ?_, ?_, ?_,
        by rw [h3]; exact h.chB, by rw [h3]; exact h.chO, ?_⟩
      · intro p hp; rw [h2] at hp; exact h.full p (List.mem_of_mem_erase hp)
      · intro σ hσ hb
        rcases h5 σ hσ with h7 | ⟨h7, _, h8⟩
        · exact h.tB σ h7 hb
        · rw [h8, ← h7, hb]
          rcases h.atB with h9 | h9 <;> rw [h9] <;> simp
      · intro σ hσ hb
        rcases h5 σ hσ with h7 | ⟨h7, h8, h9⟩
        · exact h.tO σ h7 hb
        · rw [h9, h8]
          have hx : x ≠ b := by rw [← h7]; exact hb
          have hy : y = b := hpair.resolve_left hx
          rcases h.atO x hx with h10 | h10 <;> rw [h10]
          · exact Or.inl rfl
          · exact Or.inr (Or.inr ⟨rfl, by rw [hy]⟩)
      · intro z hz k1 k2 k3
        rw [h1] at k1 k2 k3
        rcases h.cov z hz k1 k2 k3 with k4 | ⟨σ, k4, k5⟩ | k4 | k4 | ⟨σ, k4, k5⟩ | k4
        · by_cases e : (z, b) = (x, y)
          · cases e
            exact Or.inr (Or.inl (h6 rfl k3))
          · left; rw [h2]; exact (List.mem_erase_of_ne e).2 k4
        · exact Or.inr (Or.inl ⟨σ, h4 σ k4, k5⟩)
        · exact Or.inr (Or.inr (Or.inl (by rw [h3]; exact k4)))
        · exact Or.inr (Or.inr (Or.inr (Or.inl (by rw [h1]; exact k4))))
        · exact Or.inr (Or.inr (Or.inr (Or.inr (Or.inl ⟨σ, h4 σ k4, k5⟩))))
        · exact Or.inr (Or.inr (Or.inr (Or.inr (Or.inr (by rw [h3]; exact k4)))))
    cases hf : (n.st x).getFullUserSync with
    | none =>
      simp only
      refine key _ rfl rfl rfl (fun σ hσ => hσ) (fun σ hσ => Or.inl hσ) ?_
      intro _ h1
      exfalso
      unfold getFullUserSync at hf
      split at hf
      · rename_i he
        have := AMap.isEmpty_iff.1 he u
        have h1' : (n.st x).direct.map.get u = old b v := h1
        rw [this] at h1'; cases h1'
      · cases hf
    | some m =>
      simp only
      have hm : m.map.get u = (UNet.view (n.st x) u).e := by
        unfold getFullUserSync at hf
        split at hf
        · cases hf
        · cases hf; rfl
      refine key _ rfl rfl rfl (fun σ hσ => by simp [spawn, hσ]) ?_ ?_
      · intro σ hσ
        simp only [spawn, List.mem_append, List.mem_singleton] at hσ
        rcases hσ with hσ | rfl
        · exact Or.inl hσ
        · exact Or.inr ⟨rfl, rfl, hm⟩
      · rintro rfl h1
        exact ⟨⟨x, .user m, some [y]⟩, by simp [spawn], rfl, hm.trans h1, rfl⟩
  · exact h

theorem gone_deliver {n : MNet U B T H} {b : B} {u : U} {v : Nat} (h : Gone n b u v) (hv : v + 1 < 2 ^ 64)
    (hirr : ∀ x, (n.st x).brokers.get x = none) (x y : B) : Gone (n.step (.deliver x y)) b u v := by
  simp only [MNet.step]
  split
  · rename_i hk
    have hk' := (knows_iff _ _ _).1 hk
    have hxy : x ≠ y := by rintro rfl; exact hk' (hirr x)
    split
    · exact h
    · rename_i m rest hq
      have hin : ∀ m' ∈ rest, m' ∈ n.ch x y := fun m' hm' => by rw [hq]; exact List.mem_cons_of_mem _ hm'
      have hhead : SyncMsg.user m ∈ n.ch x y := by rw [hq]; exact List.mem_cons_self ..
      have hkn : ∀ z, ((n.st y).step (.applyUserSync m)).brokers.get z ≠ none → (n.st y).brokers.get z ≠ none :=
        fun z => (known_call _ (.applyUserSync m) trivial z).1
      -- taking the frame off the queue afterwards
      have pop : Gone (n.act y (.applyUserSync m)) b u v →
          (m.map.get u = none ∨ (x = b ∧ (UNet.view ((n.st y).step (.applyUserSync m)) u).e = none) ∨
            (y = b ∧ (UNet.view ((n.st y).step (.applyUserSync m)) u).m = true)) →
          Gone ((n.act y (.applyUserSync m)).setCh x y rest) b u v := by
        intro h1 h2
        refine gone_setCh h1 x y rest hin ?_
        intro m' hm'
        rw [show (n.act y (.applyUserSync m)).ch x y = n.ch x y from rfl, hq] at hm'
        rcases List.mem_cons.1 hm' with rfl | h3
        · right
          rcases h2 with h2 | h2 | ⟨rfl, h2⟩
          · exact Or.inl h2
          · exact Or.inr (Or.inr (Or.inr (Or.inl (by rw [st_act_self]; exact h2))))
          · exact Or.inr (Or.inr (Or.inr (Or.inr ⟨rfl, by rw [st_act_self]; exact h2⟩)))
        · exact Or.inl h3
      by_cases hx : x = b
      · subst hx
        have hy : y ≠ x := fun e => hxy e.symm
        rcases h.chB y _ hhead with h1 | h1
        · have h1' : m.map.get u = none := h1
          exact pop (gone_same h y _ hkn (UNet.view_apply_none _ u m h1')) (Or.inl h1')
        · have h1' : m.map.get u = gone v := h1
          rcases h.atO y hy with h2 | h2
          · have hv' : UNet.view ((n.st y).step (.applyUserSync m)) u = UNet.view (n.st y) u :=
              UNet.view_apply_lost _ u m _ h1' (by rw [h2]; simp [VMap.takes])
            exact pop (gone_same h y _ hkn hv') (Or.inr (Or.inl ⟨rfl, by rw [hv', h2]⟩))
          · have hv' : UNet.view ((n.st y).step (.applyUserSync m)) u = ⟨VMap.adopted ⟨v + 1, none⟩, false, false⟩ :=
              UNet.view_apply_taken _ u m _ h1' (by rw [h2]; left; simp) (by simp) (by rw [h2]; simp)
            have hnone : (VMap.adopted ⟨v + 1, none⟩ : Option (VV B)) = none := rfl
            rw [hnone] at hv'
            exact pop (gone_act h y _ hkn (fun e => absurd e hy) (fun _ => Or.inl hv'))
              (Or.inr (Or.inl ⟨rfl, by rw [hv']⟩))
      · rcases h.chO x y hx _ hhead with h1 | ⟨rfl, h1⟩
        · have h1' : m.map.get u = none := h1
          exact pop (gone_same h y _ hkn (UNet.view_apply_none _ u m h1')) (Or.inl h1')
        · have h1' : m.map.get u = old y v := h1
          rcases h.atB with h2 | h2
          · have hid : (n.st y).identity = y := h.ident y
            have hv' : UNet.view ((n.st y).step (.applyUserSync m)) u = ⟨some ⟨VMap.bump v, none⟩, true, false⟩ :=
              view_apply_self _ u m v (by rw [hid]; exact h1') (by rw [h2]; rfl) (by rw [h2]; simp)
            have hb : VMap.bump v = v + 1 := Nat.mod_eq_of_lt hv
            rw [hb] at hv'
            refine pop (gone_act h y _ hkn ?_ (fun e => absurd rfl e)) (Or.inr (Or.inr ⟨rfl, by rw [hv']⟩))
            rintro -
            exact ⟨Or.inr hv', fun _ => Or.inl (by rw [hv'])⟩
          · have hv' : UNet.view ((n.st y).step (.applyUserSync m)) u = UNet.view (n.st y) u :=
              UNet.view_apply_lost _ u m _ h1' (by
                rw [h2]
                rintro (h3 | ⟨h3, _⟩)
                · exact absurd h3 (Nat.not_lt.2 (Nat.le_succ v))
                · simp at h3)
            exact pop (gone_same h y _ hkn hv') (Or.inr (Or.inr ⟨rfl, by rw [hv', h2]⟩))
    · rename_i m rest hq
      have h1 := gone_quiet h y (.applyTopicSync x m) hk' trivial
      refine gone_setCh h1 x y rest (fun m' hm' => ?_) ?_
      · show m' ∈ n.ch x y
        rw [hq]; exact List.mem_cons_of_mem _ hm'
      · intro m' hm'
        rw [show (n.act y (.applyTopicSync x m)).ch x y = n.ch x y from rfl, hq] at hm'
        rcases List.mem_cons.1 hm' with rfl | h3
        · exact Or.inr (Or.inl rfl)
        · exact Or.inl h3
  · exact h

theorem gone_step {n : MNet U B T H} {b : B} {u : U} {v : Nat} (h : Gone n b u v) (hv : v + 1 < 2 ^ 64)
    (hirr : ∀ x, (n.st x).brokers.get x = none) (l : MLabel U B T H) (hc : ¬ Connects u l)
    (hl : LinksOf b l) : Gone (n.step l) b u v := by
  cases l with
  | connect x u' hd ts => exact gone_quiet h x (.addUser u' hd ts) trivial hc
  | disconnect x u' =>
    by_cases e : u' = u
    · subst e
      refine gone_same h x (.removeUser u') (fun y => (known_call _ (.removeUser u') trivial y).1) ?_
      show UNet.view ((n.st x).removeUser u') u' = _
      rw [UNet.view_removeUser, UNet.remV, if_neg]
      · by_cases e : x = b
        · subst e; rcases h.atB with h1 | h1 <;> rw [h1]
        · rcases h.atO x e with h1 | h1 <;> rw [h1]
      · rw [h.ident]
        by_cases e : x = b
        · subst e; rcases h.atB with h1 | h1 <;> rw [h1] <;> simp
        · rcases h.atO x e with h1 | h1 <;> rw [h1]
          · simp
          · intro h2; exact e (Option.some.inj h2).symm
    · exact gone_quiet h x (.removeUser u') trivial e
  | subscribe x u' ts => exact gone_quiet h x (.subscribeUser u' ts) trivial trivial
  | unsubscribe x u' ts => exact gone_quiet h x (.unsubscribeUser u' ts) trivial trivial
  | startTopic x =>
    have h1 := gone_quiet h x .partialTopicSync trivial trivial
    simp only [MNet.step]; split
    · exact h1
    · exact gone_spawn h1 _ (fun _ => Or.inl rfl) (fun _ => Or.inl rfl)
  | startUser x => exact gone_startUser h x
  | readDests i =>
    simp only [MNet.step]; split
    · rename_i x m hi
      refine gone_set h i x m none _ hi ?_ (by simp) ?_
      · intro hx hm
        rcases h.tO _ (List.mem_of_getElem? hi) hx with h1 | h1 | ⟨_, h1⟩
        · exact absurd h1 hm
        · cases h1
        · cases h1
      · rintro rfl _ z hz _
        left
        rintro ds ⟨⟩
        exact (mem_allBrokers _ _).2 hz
    · exact h
  | send i ok => exact gone_send h i ok
  | linkUp x y c c' => exact gone_linkUp h x y c c' hl
  | fullTopic x y =>
    simp only [MNet.step]; split
    · have h1 : Gone { n with fullT := n.fullT.erase (x, y) } b u v :=
        ⟨h.ident, h.atB, h.atO, h.full, h.tB, h.tO, h.chB, h.chO, h.cov⟩
      split
      · exact h1
      · exact gone_spawn h1 _ (fun _ => Or.inl rfl) (fun _ => Or.inl rfl)
    · exact h
  | fullUser x y => exact gone_fullUser h x y
  | drop x y => exact gone_drop h x y
  | deliver x y => exact gone_deliver h hv hirr x y
  | restart x => exact gone_restart h x

theorem gone_run {b : B} {u : U} {v : Nat} (hv : v + 1 < 2 ^ 64) (ls : List (MLabel U B T H))
    (n : MNet U B T H) (k : Nat) (hi : MNet.Inv n k) (hlen : k + 2 * ls.length < 2 ^ 64) (h : Gone n b u v)
    (hl : ∀ l ∈ ls, ¬ Connects u l ∧ LinksOf b l) : Gone (n.run ls) b u v := by
  induction ls generalizing n k with
  | nil => exact h
  | cons l ls ih =>
    rw [List.length_cons] at hlen
    have h1 := hl l (by simp)
    exact ih (n.step l) (k + 2) (MNet.inv_step hi (by omega) l) (by omega)
      (gone_step h hv hi.irrefl l h1.1 h1.2) (fun l' h' => hl l' (by simp [h']))

/-! ## Where entries come from -/

/-- The entry names `b`. -/
abbrev Names (b : B) (w : Option (VV B)) : Prop := w.bind VV.value = some b

/-- The user connects to `b`. -/
def ConnectsTo (u : U) (b : B) : MLabel U B T H → Prop
  | .connect x u' _ _ => x = b ∧ u' = u
  | _ => False

theorem names_remV {b b' : B} {w : UNet.View B} (h : Names b (UNet.remV b' w).e) : Names b w.e := by
  unfold UNet.remV at h
  split at h
  · cases h
  · exact h

theorem names_foldl (l : List (U × Option B)) (s : Conns U B T H) (u : U) (b : B)
    (h : Names b (UNet.view (l.foldl (fun s c => s.removeUser c.1) s) u).e) : Names b (UNet.view s u).e := by
  induction l generalizing s with
  | nil => exact h
  | cons a l ih =>
    have h1 : Names b (UNet.view (s.removeUser a.1) u).e := ih _ h
    by_cases e : a.1 = u
    · rw [e, UNet.view_removeUser] at h1; exact names_remV h1
    · rw [UNet.view_removeUser_other _ _ _ e] at h1; exact h1

/-- An entry naming `b` comes from a connection to `b` or from a message. -/
theorem names_call (s : Conns U B T H) (op : Op U B T H) (u : U) (b : B)
    (h : Names b ((s.step op).direct.map.get u)) :
    Names b (s.direct.map.get u) ∨ (s.identity = b ∧ ∃ hd ts, op = .addUser u hd ts) ∨
      ∃ m, op = .applyUserSync m ∧ Names b (m.map.get u) := by
  have h' : Names b (UNet.view (s.step op) u).e := h
  by_cases hun : UNet.Unrelated u op
  · rw [UNet.view_unrelated _ _ _ hun] at h'; exact Or.inl h'
  · cases op with
    | addUser u' hd ts =>
      have : u' = u := Classical.not_not.1 hun
      subst this
      rw [show s.step (.addUser u' hd ts) = s.addUser u' hd ts from rfl, UNet.view_addUser] at h'
      exact Or.inr (Or.inl ⟨Option.some.inj h', hd, ts, rfl⟩)
    | removeUser u' =>
      have : u' = u := Classical.not_not.1 hun
      subst this
      rw [show s.step (.removeUser u') = s.removeUser u' from rfl, UNet.view_removeUser] at h'
      exact Or.inl (names_remV h')
    | partialUserSync =>
      rw [show s.step .partialUserSync = s.getPartialUserSync.1 from rfl, UNet.view_sync] at h'
      left
      simp only at h'
      split at h'
      · cases he : (UNet.view s u).e with
        | none => rw [he] at h'; cases h'
        | some e =>
          rw [he] at h'
          have h2 : (VMap.adopted e).bind VV.value = some b := h'
          rw [UserSync.value_adopted] at h2
          show Names b (UNet.view s u).e
          rw [he]; exact h2
      · exact h'
    | applyUserSync m =>
      have h1 : Names b ((s.direct.merge m).1.map.get u) :=
        names_foldl _ ({ s with direct := (s.direct.merge m).1 }) u b h'
      rw [VMap.map_merge] at h1
      cases hm : m.map.get u with
      | none => rw [hm] at h1; exact Or.inl h1
      | some e =>
        rw [hm] at h1
        simp only at h1
        split at h1
        · refine Or.inr (Or.inr ⟨m, rfl, ?_⟩)
          unfold Names at h1
          rw [UserSync.value_adopted] at h1
          rw [hm]; exact h1
        · exact Or.inl h1
    | _ => exact absurd trivial hun

/-- No entry that will be read names `b`. -/
structure Never (n : MNet U B T H) (b : B) (u : U) : Prop where
  ident : ∀ x, (n.st x).identity = x
  tab : ∀ x, ¬ Names b ((n.st x).direct.map.get u)
  task : ∀ τ ∈ n.tasks, ¬ Names b (entryOf u τ.msg) ∨ τ.dests = some []
  ch : ∀ x y, ∀ m ∈ n.ch x y, ¬ Names b (entryOf u m)

theorem never_act {n : MNet U B T H} {b : B} {u : U} (h : Never n b u) (x : B) (op : Op U B T H)
    (hadd : x = b → ∀ hd ts, op ≠ .addUser u hd ts)
    (hmsg : ∀ m, op = .applyUserSync m → ¬ Names b (m.map.get u)) : Never (n.act x op) b u := by
  refine ⟨identity_act n x op h.ident, ?_, h.task, h.ch⟩
  intro y
  rw [st_act]; split
  · rename_i e; subst e
    intro h1
    rcases names_call _ op u b h1 with h2 | ⟨h2, hd, ts, h3⟩ | ⟨m, h2, h3⟩
    · exact h.tab _ h2
    · rw [h.ident] at h2; exact hadd h2 hd ts h3
    · exact hmsg m h2 h3
  · exact h.tab y

theorem never_setCh {n : MNet U B T H} {b : B} {u : U} (h : Never n b u) (x y : B)
    (q : List (SyncMsg U B T)) (hq : ∀ m ∈ q, ¬ Names b (entryOf u m)) : Never (n.setCh x y q) b u := by
  refine ⟨h.ident, h.tab, h.task, ?_⟩
  intro x' y' m hm
  simp only [setCh] at hm
  split at hm
  · exact hq m hm
  · exact h.ch x' y' m hm

theorem never_spawn {n : MNet U B T H} {b : B} {u : U} (h : Never n b u) (τ : SyncTask U B T)
    (hq : ¬ Names b (entryOf u τ.msg)) : Never (n.spawn τ) b u :=
  ⟨h.ident, h.tab, by
    intro σ hσ
    rcases List.mem_append.1 hσ with h1 | h1
    · exact h.task σ h1
    · simp only [List.mem_singleton] at h1; subst h1; exact Or.inl hq, h.ch⟩

theorem never_set {n : MNet U B T H} {b : B} {u : U} (h : Never n b u) (i : Nat)
    (x : B) (m : SyncMsg U B T) (d d' : Option (List B)) (hi : n.tasks[i]? = some ⟨x, m, d⟩)
    (hd : d ≠ some []) : Never { n with tasks := n.tasks.set i ⟨x, m, d'⟩ } b u :=
  ⟨h.ident, h.tab, by
    intro σ hσ
    rcases List.mem_or_eq_of_mem_set hσ with h1 | rfl
    · exact h.task σ h1
    · exact Or.inl ((h.task ⟨x, m, d⟩ (List.mem_of_getElem? hi)).resolve_right hd), h.ch⟩

theorem never_step {n : MNet U B T H} {b : B} {u : U} (h : Never n b u) (l : MLabel U B T H)
    (hl : ¬ ConnectsTo u b l) : Never (n.step l) b u := by
  have htopic : ¬ Names b (none : Option (VV B)) := by intro e; cases e
  cases l with
  | connect x u' hd ts =>
    exact never_act h x _ (by rintro rfl h' ts' e; cases e; exact hl ⟨rfl, rfl⟩) (by simp)
  | disconnect x u' => exact never_act h x (.removeUser u') (by simp) (by simp)
  | subscribe x u' ts => exact never_act h x (.subscribeUser u' ts) (by simp) (by simp)
  | unsubscribe x u' ts => exact never_act h x (.unsubscribeUser u' ts) (by simp) (by simp)
  | startTopic x =>
    have h1 := never_act h x .partialTopicSync (by simp) (by simp)
    simp only [MNet.step]; split
    · exact h1
    · exact never_spawn h1 _ htopic
  | startUser x =>
    have h1 := never_act h x .partialUserSync (by simp) (by simp)
    simp only [MNet.step]; split
    · exact h1
    · rename_i m hm
      apply never_spawn h1
      have h2 := UNet.sync_msg (n.st x) u
      rw [hm] at h2
      have h3 : m.map.get u = if (UNet.view (n.st x) u).m then (n.st x).direct.map.get u else none := h2
      show ¬ Names b (m.map.get u)
      rw [h3]; split
      · exact h.tab x
      · exact htopic
  | readDests i =>
    simp only [MNet.step]; split
    · rename_i x m hi; exact never_set h i x m _ _ hi (by simp)
    · exact h
  | send i ok =>
    simp only [MNet.step]; split
    · rename_i x m d ds hi
      have h1 := never_set h i x m _ (some ds) hi (by simp)
      split
      · split
        · apply never_setCh h1
          intro m' hm'
          rcases List.mem_append.1 hm' with h2 | h2
          · exact h.ch _ _ m' h2
          · simp only [List.mem_singleton] at h2; subst h2
            exact (h.task _ (List.mem_of_getElem? hi)).resolve_right (by simp)
        · exact never_setCh (never_act h1 x (.removeBroker d) (by simp) (by simp)) _ _ _ (by simp)
      · exact h1
    · exact h
  | linkUp x y c c' =>
    simp only [MNet.step]; split
    · exact h
    · have h1 := never_act h x (.addBroker y c) (by simp) (by simp)
      have h2 := never_act h1 y (.addBroker x c') (by simp) (by simp)
      have h3 := never_setCh (never_setCh h2 x y [] (by simp)) y x [] (by simp)
      exact ⟨h3.ident, h3.tab, h3.task, h3.ch⟩
  | fullTopic x y =>
    simp only [MNet.step]; split
    · have h1 : Never { n with fullT := n.fullT.erase (x, y) } b u := ⟨h.ident, h.tab, h.task, h.ch⟩
      split
      · exact h1
      · exact never_spawn h1 _ htopic
    · exact h
  | fullUser x y =>
    simp only [MNet.step]; split
    · have h1 : Never { n with fullU := n.fullU.erase (x, y) } b u := ⟨h.ident, h.tab, h.task, h.ch⟩
      split
      · exact h1
      · rename_i m hm
        apply never_spawn h1
        unfold getFullUserSync at hm
        split at hm
        · cases hm
        · cases hm; exact h.tab x
    · exact h
  | drop x y => exact never_setCh (never_act h x (.removeBroker y) (by simp) (by simp)) _ _ _ (by simp)
  | deliver x y =>
    simp only [MNet.step]; split
    · split
      · exact h
      · rename_i m rest hq
        refine never_setCh (never_act h y (.applyUserSync m) (by simp) ?_) _ _ _ ?_
        · rintro m' e; cases e
          exact h.ch x y (.user m) (by rw [hq]; simp)
        · intro m' hm'; exact h.ch x y m' (by rw [hq]; simp [hm'])
      · rename_i m rest hq
        refine never_setCh (never_act h y (.applyTopicSync x m) (by simp) (by simp)) _ _ _ ?_
        intro m' hm'; exact h.ch x y m' (by rw [hq]; simp [hm'])
    · exact h
  | restart x =>
    have hst : ∀ y, (n.step (.restart x)).st y = if y = x then Conns.new x else n.st y := fun _ => rfl
    refine ⟨?_, ?_, ?_, ?_⟩
    · intro y; rw [hst]; split
      · rename_i e; subst e; rfl
      · exact h.ident y
    · intro y; rw [hst]; split
      · simp [Conns.new, VMap.new]
      · exact h.tab y
    · intro τ hτ; exact h.task τ (List.mem_filter.1 hτ).1
    · intro y z m hm
      simp only [MNet.step] at hm
      split at hm
      · cases hm
      · exact h.ch y z m hm

theorem never_run {b : B} {u : U} (ls : List (MLabel U B T H)) (n : MNet U B T H) (h : Never n b u)
    (hl : ∀ l ∈ ls, ¬ ConnectsTo u b l) : Never (n.run ls) b u := by
  induction ls generalizing n with
  | nil => exact h
  | cons l ls ih => exact ih (n.step l) (never_step h l (hl l (by simp))) (fun l' h' => hl l' (by simp [h']))

/-! ## C86 -/

/-- **C86.** Whatever links come and go, whichever brokers are restarted, however syncs are sent and
delivered: a broker forwards messages for `u` to broker `b` only if `u` has connected to `b` at some
time. -/
theorem C86_routes_to_where_connected (ls : List (MLabel U B T H)) (x b : B) (u : U)
    (h : (((start : MNet U B T H).run ls).st x).getBrokerOfUser u = some b) :
    ∃ hd ts, MLabel.connect b u hd ts ∈ ls := by
  refine Classical.byContradiction fun hno => ?_
  have h0 : Never (start : MNet U B T H) b u :=
    ⟨fun _ => rfl, fun x => by simp [start, Conns.new, VMap.new], by simp [start], by simp [start]⟩
  refine (never_run ls _ h0 ?_).tab x h
  intro l hl hc
  cases l with
  | connect b' u' hd ts => obtain ⟨rfl, rfl⟩ := hc; exact hno ⟨hd, ts, hl⟩
  | _ => exact hc

/-! ## C85 -/

/-- Three brokers. User 7 is connected to broker 1, and everybody knows. Broker 1 crashes. The link between
brokers 0 and 2 fails and comes back, and both start their initial syncs; the one of broker 2 stays on its way
for long. Broker 1 is started again, is told by both that the user is there, and withdraws that. Then the sync of
broker 2 arrives at broker 0. -/
def lateSync : List (MLabel Nat Nat Nat Nat) :=
  [.drop 0 2, .drop 2 0, .linkUp 0 2 110 111, .fullUser 2 0, .send 0 true, .fullUser 0 2, .send 1 true,
   .deliver 0 2, .linkUp 1 0 112 113, .linkUp 1 2 114 115, .fullUser 1 0, .fullUser 1 2,
   .fullUser 0 1, .send 2 true, .fullUser 2 1, .send 3 true, .deliver 0 1, .deliver 2 1,
   .startUser 1, .readDests 4, .send 4 true, .send 4 true, .deliver 1 0, .deliver 1 2, .deliver 2 0]

def beforeCrash : List (MLabel Nat Nat Nat Nat) :=
  [.linkUp 0 1 100 101, .linkUp 1 2 102 103, .linkUp 0 2 104 105,
   .fullUser 0 1, .fullUser 1 0, .fullUser 1 2, .fullUser 2 1, .fullUser 0 2, .fullUser 2 0,
   .connect 1 7 106 [], .startUser 1, .readDests 0, .send 0 true, .send 0 true, .deliver 1 0, .deliver 1 2]

/-- **C85 does not hold**: after `lateSync` all brokers are linked, nothing is left to be said, the user is
connected nowhere, and broker 0 forwards the user's messages to broker 1. -/
theorem C85_false : ¬ CrashForgotten Nat Nat Nat Nat := by
  intro h
  refine h beforeCrash lateSync 1 0 7 ?_ ⟨⟨by decide +kernel, by decide +kernel⟩,
    settledB_sound _ _ _ (by decide +kernel), settledB_sound _ _ _ (by decide +kernel)⟩ (by decide +kernel)
  intro l hl
  simp only [lateSync, List.mem_cons, List.not_mem_nil, or_false] at hl
  rcases hl with rfl | rfl | rfl | rfl | rfl | rfl | rfl | rfl | rfl | rfl | rfl | rfl | rfl | rfl | rfl |
    rfl | rfl | rfl | rfl | rfl | rfl | rfl | rfl | rfl | rfl <;> simp [Connects]

/-- Before the last frame arrives broker 0 knows better; everything is said, between every two brokers, at
the end. -/
example : (((start : MNet Nat Nat Nat Nat).run (beforeCrash ++ .restart 1 :: lateSync.take 24)).st 0).getBrokerOfUser 7 = none ∧
    (let n := (start : MNet Nat Nat Nat Nat).run (beforeCrash ++ .restart 1 :: lateSync)
     (∀ x < 3, ∀ y < 3, x ≠ y → n.knows x y = true ∧ settledB n x y = true) ∧
     (∀ x < 3, ((n.st x).getUserConnection 7).isSome = false)) := by
  decide +kernel

/-- The same with the sync of broker 2 sent before broker 1 crashes. -/
def syncBefore : List (MLabel Nat Nat Nat Nat) :=
  beforeCrash ++ [.drop 0 2, .drop 2 0, .linkUp 0 2 110 111, .fullUser 2 0, .send 1 true, .fullUser 0 2, .send 2 true,
    .deliver 0 2]

/-- After that only links of broker 1 come up. -/
def lateFrame : List (MLabel Nat Nat Nat Nat) := lateSync.drop 8

/-- **C85 does not hold** even if after the crash only links of the crashed broker come up: something about the user
may have been under way when it crashed. -/
theorem C85_under_way_false : (∀ l ∈ lateFrame, ¬ Connects 7 l ∧ LinksOf 1 l) ∧
    AllSaid ((start : MNet Nat Nat Nat Nat).run (syncBefore ++ .restart 1 :: lateFrame)) 1 0 ∧
    (∀ x < 3, ¬ At ((start : MNet Nat Nat Nat Nat).run (syncBefore ++ .restart 1 :: lateFrame)) x 7) ∧
    (((start : MNet Nat Nat Nat Nat).run (syncBefore ++ .restart 1 :: lateFrame)).st 0).getBrokerOfUser 7 = some 1 := by
  refine ⟨?_, ⟨⟨by decide +kernel, by decide +kernel⟩,
    settledB_sound _ _ _ (by decide +kernel), settledB_sound _ _ _ (by decide +kernel)⟩, ?_, by decide +kernel⟩
  · intro l hl
    simp only [lateFrame, lateSync, List.drop_succ_cons, List.drop_zero, List.mem_cons, List.not_mem_nil, or_false] at hl
    rcases hl with rfl | rfl | rfl | rfl | rfl | rfl | rfl | rfl | rfl | rfl | rfl | rfl | rfl | rfl | rfl |
      rfl | rfl <;> simp [Connects, LinksOf]
  · unfold At; decide +kernel

/-- A broker without an entry about `u`, such as one that has been restarted, when told that `u` is connected
to it: it routes `u` to nobody, and says so in its next sync, with an entry overriding the one it was sent
(versions of 64 bits). -/
theorem C85_withdraws (s : Conns U B T H) (u : U) (r : DirectMap U B) (v : Nat) (hv : v + 1 < 2 ^ 64)
    (hnew : s.direct.map.get u = none) (hmod : u ∉ s.direct.modified)
    (h : r.map.get u = some ⟨v, some s.identity⟩) :
    (s.applyUserSync r).getBrokerOfUser u = none ∧
    ∃ m, (s.applyUserSync r).getPartialUserSync.2 = some m ∧ m.map.get u = some ⟨v + 1, none⟩ := by
  have h1 : UNet.view (s.applyUserSync r) u = ⟨some ⟨VMap.bump v, none⟩, true, false⟩ :=
    view_apply_self s u r v h (by show VMap.takes _ _ (s.direct.map.get u) _; rw [hnew]; rfl)
      (by intro h2; simp [UNet.view] at h2; exact absurd h2 hmod)
  have hb : VMap.bump v = v + 1 := Nat.mod_eq_of_lt hv
  rw [hb] at h1
  refine ⟨?_, ?_⟩
  · show (UNet.view (s.applyUserSync r) u).e.bind VV.value = none
    rw [h1]; rfl
  · have h2 := UNet.sync_msg (s.applyUserSync r) u
    rw [h1] at h2
    cases hm : (s.applyUserSync r).getPartialUserSync.2 with
    | none => rw [hm] at h2; cases h2
    | some m => rw [hm] at h2; exact ⟨m, rfl, h2⟩

example : let s : Conns Nat Nat Nat Nat := Conns.new 1
    ∃ r : DirectMap Nat Nat, r.map.get 7 = some ⟨1, some 1⟩ ∧
      (s.applyUserSync r).getPartialUserSync.2.isSome = true := by
  refine ⟨⟨(AMap.empty).insert 7 ⟨1, some 1⟩, FSet.empty, 0⟩, by decide +kernel, by decide +kernel⟩

/-- **C85, partial.** A broker `b` crashes at a time when everybody knows that `u` is connected there, and is
started again. After that links of `b` come and go, links between others may fail, syncs are sent and delivered
in any order, any broker may be restarted, and other users do as they like. Whenever a broker `x` is linked
with `b` and everything has been said between the two, `x` routes `u` to nobody. At all times, nobody has `u`
connected and everybody routes `u` to `b` or to nobody. Missing from the full claim: crashes while something
about `u` is under way, and links between other brokers coming up afterwards, for which the claim is false
(`C85_under_way_false`, `C85_false`). -/
theorem C85_crash_forgotten_partial (u : U) (b : B) (l1 l2 l3 : List (MLabel U B T H))
    (hno : ∀ l ∈ l1, ¬ Connects u l)
    (hlinks : ∀ x y, x ≠ y → Linked ((start : MNet U B T H).run l1) x y)
    (hinit : ((start : MNet U B T H).run l1).fullU = [])
    (hturn : InTurn u ((start : MNet U B T H).run l1) l2) (hat : whereabouts u l2 none = some b)
    (hway : NothingUnderWay u ((start : MNet U B T H).run (l1 ++ l2)))
    (hann : ∀ x, ¬ Unannounced u ((start : MNet U B T H).run (l1 ++ l2)) x)
    (h3 : ∀ l ∈ l3, ¬ Connects u l ∧ LinksOf b l)
    (hlen : 2 * (l1.length + l2.length + l3.length + 1) < 2 ^ 64) :
    let n := (start : MNet U B T H).run (l1 ++ l2 ++ .restart b :: l3)
    (∀ x, AllSaid n b x → (n.st x).getBrokerOfUser u = none) ∧
    (∀ x, ¬ At n x u) ∧
    ∀ x, (n.st x).getBrokerOfUser u = none ∨ (n.st x).getBrokerOfUser u = some b := by
  intro n
  have hinv := MNet.inv_run (inv_start (U := U) (B := B) (T := T) (H := H)) (l1 ++ l2)
    (by rw [List.length_append]; omega)
  obtain ⟨⟨_, base, ed, e, h | h⟩, hst⟩ := turn_start u l1 l2 hno hlinks hinit hturn (by omega) (by omega) b
  · exfalso
    apply hann ed
    simpa [UNet.view, Unannounced, ghost] using h.edM
  have hed : ed = b := by
    rcases h.core.here with h1 | h1
    · rw [h1] at hat; cases hat
    · rw [h1] at hat; exact Option.some.inj hat
  subst hed
  obtain ⟨v, val⟩ := e
  have hval : val = some ed := h.core.val.trans hat
  subst hval
  have hv : v + 1 < 2 ^ 64 := by
    have h1 := h.core.ver
    have h2 := h.core.bound
    simp only at h1
    omega
  have hg : Gone (((start : MNet U B T H).run (l1 ++ l2)).step (.restart ed)) ed u v := by
    clear_value n
    have hstep : ∀ y, (((start : MNet U B T H).run (l1 ++ l2)).step (.restart ed)).st y =
        if y = ed then Conns.new ed else ((start : MNet U B T H).run (l1 ++ l2)).st y := fun _ => rfl
    have hnew : UNet.view (Conns.new ed : Conns U B T H) u = ⟨none, false, false⟩ := by
      simp [UNet.view, Conns.new, VMap.new]
    have hchn : ∀ x y m, m ∈ (((start : MNet U B T H).run (l1 ++ l2)).step (.restart ed)).ch x y →
        entryOf u m = none := by
      intro x y m hm
      simp only [MNet.step] at hm
      split at hm
      · cases hm
      · exact hway.1 x y m hm
    refine ⟨?_, ?_, ?_, ?_, ?_, ?_, fun y m hm => Or.inl (hchn _ _ _ hm),
      fun x y _ m hm => Or.inl (hchn _ _ _ hm), ?_⟩
    · intro y; rw [hstep]; split
      · rename_i e; subst e; rfl
      · exact hst.ident y
    · left; rw [hstep, if_pos rfl]; exact hnew
    · intro x hx
      right
      rw [hstep, if_neg hx]
      obtain ⟨h1, h2 | h2⟩ := h.others x hx
      · rw [UserSync.chU_nil_of u _ (nothing_ghost hway)] at h2; simp at h2
      · have : ∀ w : UNet.View B, w.m = false → w.e = VMap.adopted ⟨v, some ed⟩ → w.c = false →
            w = ⟨old ed v, false, false⟩ := by
          rintro ⟨_, _, _⟩ rfl rfl rfl; rfl
        exact this _ h1 h2.2.1 h2.2.2
    · intro p hp
      have := (List.mem_filter.1 hp).1
      rw [hst.initial] at this; cases this
    · intro τ hτ hb
      have := (List.mem_filter.1 hτ).2
      simp [hb] at this
    · intro τ hτ _
      rcases hway.2 τ (List.mem_filter.1 hτ).1 with h1 | h1
      · exact Or.inl h1
      · exact Or.inr (Or.inl h1)
    · intro x _ h1
      rw [hstep, if_pos rfl] at h1
      exact absurd rfl h1
  have hinv1 := MNet.inv_step hinv (by rw [List.length_append]; omega) (.restart ed)
  have hn : n = (((start : MNet U B T H).run (l1 ++ l2)).step (.restart ed)).run l3 := by
    show (start : MNet U B T H).run (l1 ++ l2 ++ .restart ed :: l3) = _
    rw [Mesh.run_append]; rfl
  have hirr := (MNet.inv_run hinv1 l3 (by rw [List.length_append]; omega)).irrefl
  have hgone := gone_run hv l3 _ _ hinv1 (by rw [List.length_append]; omega) hg h3
  rw [← hn] at hgone hirr
  clear_value n
  have hall : ∀ x, ((n.st x).getBrokerOfUser u = none ∨ (n.st x).getBrokerOfUser u = some ed) ∧ ¬ At n x u := by
    intro x
    have key : ∀ w : UNet.View B, UNet.view (n.st x) u = w → w.c = false →
        (w.e.bind VV.value = none ∨ w.e.bind VV.value = some ed) →
        ((n.st x).getBrokerOfUser u = none ∨ (n.st x).getBrokerOfUser u = some ed) ∧ ¬ At n x u := by
      rintro w rfl h1 h2
      refine ⟨h2, ?_⟩
      intro h3
      have h3' : (UNet.view (n.st x) u).c = true := h3
      rw [h1] at h3'; cases h3'
    by_cases hx : x = ed
    · subst hx
      rcases hgone.atB with h1 | h1 <;> exact key _ h1 rfl (by simp)
    · rcases hgone.atO x hx with h1 | h1 <;> exact key _ h1 rfl (by simp)
  refine ⟨?_, fun x => (hall x).2, fun x => (hall x).1⟩
  intro x ⟨⟨k1, k2⟩, s1, s2⟩
  have k1' := (knows_iff _ _ _).1 k1
  have k2' := (knows_iff _ _ _).1 k2
  have hx : x ≠ ed := by rintro rfl; exact k1' (hirr x)
  show (UNet.view (n.st x) u).e.bind VV.value = none
  rcases hgone.atO x hx with h1 | h1
  · rw [h1]; rfl
  · exfalso
    have huser : ∀ m : SyncMsg U B T, ∀ w, entryOf u m = some w → ¬ IsTopic m := by
      intro m w hm ht
      cases m with
      | user m => exact ht
      | topic m => cases hm
    rcases hgone.cov x hx k1' k2' (by rw [h1]) with h2 | ⟨τ, h2, h4, h5, h6⟩ | ⟨m, h2, h4⟩ | h2 | ⟨τ, h2, h4, h5, h6⟩ | ⟨m, h2, h4⟩
    · exact s2.initial h2
    · obtain ⟨ds, h7, h8⟩ := s2.sent τ h2 h4 (huser _ _ h5)
      rw [h6] at h7; cases h7; simp at h8
    · exact huser _ _ h4 (s2.arrived m h2)
    · have h3 := UNet.sync_msg (n.st ed) u
      rw [s1.announced] at h3
      rcases hgone.atB with h4 | h4 <;> rw [h4] at h2 h3
      · cases h2
      · cases h3
    · obtain ⟨ds, h7, h8⟩ := s1.sent τ h2 h4 (huser _ _ h5)
      exact h8 (h6 ds h7)
    · exact huser _ _ h4 (s1.arrived m h2)

/-- Users who were connected elsewhere, or nowhere, when `b` crashed are not routed to `b` afterwards, by any
broker, unless they connect to `b`; whatever else happens. -/
theorem C85_elsewhere (u : U) (b : B) (l1 l2 l3 : List (MLabel U B T H))
    (hno : ∀ l ∈ l1, ¬ Connects u l)
    (hlinks : ∀ x y, x ≠ y → Linked ((start : MNet U B T H).run l1) x y)
    (hinit : ((start : MNet U B T H).run l1).fullU = [])
    (hturn : InTurn u ((start : MNet U B T H).run l1) l2) (hat : whereabouts u l2 none ≠ some b)
    (hway : NothingUnderWay u ((start : MNet U B T H).run (l1 ++ l2)))
    (hann : ∀ x, ¬ Unannounced u ((start : MNet U B T H).run (l1 ++ l2)) x)
    (h3 : ∀ l ∈ l3, ¬ ConnectsTo u b l)
    (hlen : 2 * (l1.length + l2.length + 1) < 2 ^ 64) (x : B) :
    (((start : MNet U B T H).run (l1 ++ l2 ++ .restart b :: l3)).st x).getBrokerOfUser u ≠ some b := by
  have h := C74_in_turn_partial u l1 l2 hno hlinks hinit hturn (by omega) (by omega) hway hann
  have hst := (turn_start u l1 l2 hno hlinks hinit hturn (by omega) (by omega) b).2
  have h0 : Never ((start : MNet U B T H).run (l1 ++ l2)) b u := by
    refine ⟨hst.ident, ?_, ?_, ?_⟩
    · intro y h1; exact hat ((h y).1.symm.trans h1)
    · intro τ hτ
      rcases hway.2 τ hτ with h1 | h1
      · left; rw [h1]; intro e; cases e
      · exact Or.inr h1
    · intro y z m hm h1; rw [hway.1 y z m hm] at h1; cases h1
  have h1 := never_run (.restart b :: l3) _ h0 (by
    intro l hl
    rcases List.mem_cons.1 hl with rfl | hl
    · exact id
    · exact h3 l hl)
  rw [← Mesh.run_append] at h1
  exact h1.tab x

/-! ### A case

The mesh of C74's case, with user 7 at broker 2, which crashes. A link between the others fails. Brokers 0 and 1
are linked with broker 2 again; the first link fails before anything is said, and comes back. -/

def demoCrashed : List (MLabel Nat (Fin 3) Nat Nat) :=
  [.disconnect 0 7, .linkUp 2 0 120 121, .drop 0 2, .drop 2 0, .drop 0 1, .linkUp 2 0 122 123, .linkUp 1 2 124 125,
   .fullUser 0 2, .fullUser 0 2, .fullUser 2 0, .fullUser 2 0, .fullUser 2 1, .fullUser 1 2,
   .send 6 true, .send 7 true, .send 8 true, .deliver 0 2, .deliver 0 2, .startUser 2, .deliver 1 2,
   .readDests 9, .send 9 true, .send 9 true, .deliver 2 0, .deliver 2 1, .startUser 2,
   .readDests 10, .send 10 true, .send 10 true, .deliver 2 1, .deliver 2 0]

def demoAfter : MNet Nat (Fin 3) Nat Nat := (start : MNet Nat (Fin 3) Nat Nat).run
    (demoLinks ++ demoUsers ++ .restart 2 :: demoCrashed)

example : (∀ l ∈ demoCrashed, ¬ Connects 7 l ∧ LinksOf 2 l) ∧ AllSaid demoAfter 2 1 ∧
    (((start : MNet Nat (Fin 3) Nat Nat).run
      (demoLinks ++ demoUsers ++ .restart 2 :: demoCrashed.take 12)).st 1).getBrokerOfUser 7 = some 2 := by
  refine ⟨?_, ⟨⟨by decide +kernel, by decide +kernel⟩, ⟨by decide +kernel, by decide +kernel, ?_, ?_⟩,
    ⟨by decide +kernel, by decide +kernel, ?_, ?_⟩⟩, by decide +kernel⟩
  · intro l hl
    simp only [demoCrashed, List.mem_cons, List.not_mem_nil, or_false] at hl
    rcases hl with rfl | rfl | rfl | rfl | rfl | rfl | rfl | rfl | rfl | rfl | rfl | rfl | rfl | rfl | rfl |
      rfl | rfl | rfl | rfl | rfl | rfl | rfl | rfl | rfl | rfl | rfl | rfl | rfl | rfl | rfl | rfl <;>
      simp [Connects, LinksOf]
  · have : ∀ τ ∈ demoAfter.tasks, τ.here = 2 → τ.dests = some [] := by decide +kernel
    intro τ hτ h1 _
    exact ⟨[], this τ hτ h1, by simp⟩
  · have : demoAfter.ch 2 1 = [] := List.isEmpty_iff.1 (by decide +kernel)
    rw [this]; simp
  · have : ∀ τ ∈ demoAfter.tasks, τ.here = 1 → τ.dests = some [] := by decide +kernel
    intro τ hτ h1 _
    exact ⟨[], this τ hτ h1, by simp⟩
  · have : demoAfter.ch 1 2 = [] := List.isEmpty_iff.1 (by decide +kernel)
    rw [this]; simp

/-- C86 is not empty: brokers do forward to where users connected. -/
example : (((start : MNet Nat (Fin 3) Nat Nat).run (demoLinks ++ demoUsers)).st 0).getBrokerOfUser 7 = some 2 := by
  decide +kernel

end Verif.Props.MeshCrash

import Verif.Model.RelationalMap

/-!
# Lemmas about the relational map
-/

set_option linter.unusedSectionVars false

namespace Verif.RMap
variable {K V : Type} [DecidableEq K] [DecidableEq V]

/-- Forward relation: `v` is in the bucket of `k`. -/
def Fwd (m : RMap K V) (k : K) (v : V) : Prop := ∃ s, m.k2v.get k = some s ∧ v ∈ s

/-- Backward relation: `k` is in the bucket of `v`. -/
def Bwd (m : RMap K V) (k : K) (v : V) : Prop := ∃ s, m.v2k.get v = some s ∧ k ∈ s

/-- The two directions agree and no value bucket is empty. -/
structure Inv (m : RMap K V) : Prop where
  agree : ∀ k v, m.Fwd k v ↔ m.Bwd k v
  nonempty : ∀ v s, m.v2k.get v = some s → ∃ k, k ∈ s

theorem mem_bucket {A B : Type} [DecidableEq A] [DecidableEq B] (m : AMap A (FSet B)) (a : A) (b : B) :
    b ∈ bucket m a ↔ ∃ s, m.get a = some s ∧ b ∈ s := by
  unfold bucket
  cases h : m.get a with
  | none => simp
  | some s => simp

theorem mem_getKeysByValue (m : RMap K V) (k : K) (v : V) :
    k ∈ m.getKeysByValue v ↔ m.Bwd k v := by
  unfold getKeysByValue Bwd
  cases h : m.v2k.get v with
  | none => simp
  | some s => simp [FSet.mem_def]

theorem nodup_getKeysByValue (m : RMap K V) (v : V) : (m.getKeysByValue v).Nodup := by
  unfold getKeysByValue
  cases h : m.v2k.get v with
  | none => exact List.nodup_nil
  | some s => exact s.nodup

theorem mem_getValues {m : RMap K V} (h : m.Inv) (v : V) :
    v ∈ m.getValues ↔ ∃ k, m.Bwd k v := by
  unfold getValues Bwd
  rw [AMap.mem_keys, Option.isSome_iff_exists]
  constructor
  · rintro ⟨s, hs⟩
    obtain ⟨k, hk⟩ := h.nonempty v s hs
    exact ⟨k, s, hs, hk⟩
  · rintro ⟨_, s, hs, _⟩; exact ⟨s, hs⟩

theorem nodup_getValues (m : RMap K V) : m.getValues.Nodup := m.v2k.keys_nodup

/-- Buckets of values after inserting `k` for each of `vs`. -/
theorem foldl_insert (k : K) (vs : List V) (acc : AMap V (FSet K)) (k' : K) (v' : V) :
    (∃ s, (vs.foldl (fun acc v => acc.insert v ((bucket acc v).insert k)) acc).get v' = some s ∧ k' ∈ s)
      ↔ (k' = k ∧ v' ∈ vs) ∨ ∃ s, acc.get v' = some s ∧ k' ∈ s := by
  induction vs generalizing acc with
  | nil => simp
  | cons v vs ih =>
    rw [List.foldl_cons, ih, AMap.get_insert]
    by_cases h : v = v'
    · subst h
      simp only [if_true, Option.some.injEq, exists_eq_left', FSet.mem_insert, mem_bucket,
        List.mem_cons, true_or, and_true]
      grind
    · have h' : ¬ v' = v := fun e => h e.symm
      simp [h, h']

theorem foldl_insert_nonempty (k : K) (vs : List V) (acc : AMap V (FSet K))
    (hne : ∀ v s, acc.get v = some s → ∃ k, k ∈ s) (v' : V) (s : FSet K)
    (h : (vs.foldl (fun acc v => acc.insert v ((bucket acc v).insert k)) acc).get v' = some s) :
    ∃ k, k ∈ s := by
  induction vs generalizing acc with
  | nil => exact hne _ _ h
  | cons v vs ih =>
    refine ih _ ?_ h
    intro v1 s1 h1
    rw [AMap.get_insert] at h1
    split at h1
    · simp only [Option.some.injEq] at h1
      subst h1; exact ⟨k, by simp⟩
    · exact hne _ _ h1

theorem get_dropFrom (k : K) (acc : AMap V (FSet K)) (v v' : V) (k' : K) :
    (∃ s, (dropFrom k acc v).get v' = some s ∧ k' ∈ s) ↔
      ¬ (k' = k ∧ v' = v) ∧ ∃ s, acc.get v' = some s ∧ k' ∈ s := by
  unfold dropFrom
  cases h : acc.get v with
  | none =>
    simp only
    by_cases hv : v' = v
    · subst hv; simp [h]
    · simp [hv]
  | some ks =>
    simp only
    split
    · rename_i he
      rw [FSet.isEmpty_iff] at he
      rw [AMap.get_erase]
      by_cases hv : v = v'
      · subst hv
        have := he k'
        simp only [FSet.mem_erase] at this
        simp only [if_true, h, Option.some.injEq, exists_eq_left', and_true]
        constructor
        · simp
        · rintro ⟨h1, h2⟩; exact absurd ⟨h1, h2⟩ this
      · have hv' : ¬ v' = v := fun e => hv e.symm
        simp [hv, hv']
    · rw [AMap.get_insert]
      by_cases hv : v = v'
      · subst hv; simp [h]
      · have hv' : ¬ v' = v := fun e => hv e.symm
        simp [hv, hv']

theorem dropFrom_nonempty (k : K) (acc : AMap V (FSet K)) (v : V)
    (hne : ∀ v s, acc.get v = some s → ∃ k, k ∈ s) (v' : V) (s : FSet K)
    (h : (dropFrom k acc v).get v' = some s) : ∃ k, k ∈ s := by
  unfold dropFrom at h
  cases h1 : acc.get v with
  | none => rw [h1] at h; exact hne _ _ h
  | some ks =>
    rw [h1] at h
    simp only at h
    split at h
    · rw [AMap.get_erase] at h
      split at h
      · simp at h
      · exact hne _ _ h
    · rename_i he
      rw [AMap.get_insert] at h
      split at h
      · simp only [Option.some.injEq] at h
        subst h
        rw [FSet.isEmpty_iff] at he
        by_cases hx : ∃ a, a ∈ ks.erase k
        · exact hx
        · exact absurd (fun a ha => hx ⟨a, ha⟩) he
      · exact hne _ _ h

theorem foldl_dropFrom (k : K) (vs : List V) (acc : AMap V (FSet K)) (k' : K) (v' : V) :
    (∃ s, (vs.foldl (dropFrom k) acc).get v' = some s ∧ k' ∈ s) ↔
      ¬ (k' = k ∧ v' ∈ vs) ∧ ∃ s, acc.get v' = some s ∧ k' ∈ s := by
  induction vs generalizing acc with
  | nil => simp
  | cons v vs ih =>
    rw [List.foldl_cons, ih, get_dropFrom, List.mem_cons]
    grind

theorem foldl_dropFrom_nonempty (k : K) (vs : List V) (acc : AMap V (FSet K))
    (hne : ∀ v s, acc.get v = some s → ∃ k, k ∈ s) (v' : V) (s : FSet K)
    (h : (vs.foldl (dropFrom k) acc).get v' = some s) : ∃ k, k ∈ s := by
  induction vs generalizing acc with
  | nil => exact hne _ _ h
  | cons v vs ih => exact ih _ (dropFrom_nonempty k acc v hne) h

theorem inv_new : (new : RMap K V).Inv := by
  constructor
  · simp [Fwd, Bwd, new]
  · simp [new]

theorem fwd_associate (m : RMap K V) (k k' : K) (vs : List V) (v : V) :
    (m.associate k vs).Fwd k' v ↔ (k' = k ∧ v ∈ vs) ∨ m.Fwd k' v := by
  simp only [Fwd, associate, AMap.get_insert]
  by_cases h : k = k'
  · subst h
    simp only [if_true, Option.some.injEq, exists_eq_left', FSet.mem_insertMany, mem_bucket, true_and]
  · have h' : ¬ k' = k := fun e => h e.symm
    simp [h, h']

theorem bwd_associate (m : RMap K V) (k k' : K) (vs : List V) (v : V) :
    (m.associate k vs).Bwd k' v ↔ (k' = k ∧ v ∈ vs) ∨ m.Bwd k' v :=
  foldl_insert k vs m.v2k k' v

theorem inv_associate {m : RMap K V} (h : m.Inv) (k : K) (vs : List V) : (m.associate k vs).Inv := by
  constructor
  · intro k' v; rw [fwd_associate, bwd_associate, h.agree]
  · exact foldl_insert_nonempty k vs m.v2k h.nonempty

theorem fwd_dissociate (m : RMap K V) (k k' : K) (vs : List V) (v : V) :
    (m.dissociate k vs).Fwd k' v ↔ ¬ (k' = k ∧ v ∈ vs) ∧ m.Fwd k' v := by
  simp only [Fwd, dissociate]
  cases hk : m.k2v.get k with
  | none =>
    simp only
    by_cases h : k' = k
    · subst h; simp [hk]
    · simp [h]
  | some kvs =>
    simp only
    split
    · rename_i he
      rw [FSet.isEmpty_iff] at he
      rw [AMap.get_erase]
      by_cases h : k = k'
      · subst h
        have := he v
        simp only [FSet.mem_eraseMany] at this
        simp only [if_true, hk, Option.some.injEq, exists_eq_left', true_and]
        constructor
        · simp
        · intro h; exact absurd h this
      · have h' : ¬ k' = k := fun e => h e.symm
        simp [h, h']
    · rw [AMap.get_insert]
      by_cases h : k = k'
      · subst h; simp [hk]
      · have h' : ¬ k' = k := fun e => h e.symm
        simp [h, h']

theorem bwd_dissociate (m : RMap K V) (k k' : K) (vs : List V) (v : V) :
    (m.dissociate k vs).Bwd k' v ↔ ¬ (k' = k ∧ v ∈ vs) ∧ m.Bwd k' v :=
  foldl_dropFrom k vs m.v2k k' v

theorem inv_dissociate {m : RMap K V} (h : m.Inv) (k : K) (vs : List V) :
    (m.dissociate k vs).Inv := by
  constructor
  · intro k' v; rw [fwd_dissociate, bwd_dissociate, h.agree]
  · exact foldl_dropFrom_nonempty k vs m.v2k h.nonempty

theorem fwd_removeKey (m : RMap K V) (k k' : K) (v : V) :
    (m.removeKey k).Fwd k' v ↔ k' ≠ k ∧ m.Fwd k' v := by
  simp only [Fwd, removeKey]
  cases hk : m.k2v.get k with
  | none =>
    simp only
    by_cases h : k' = k
    · subst h; simp [hk]
    · simp [h]
  | some kvs =>
    simp only [AMap.get_erase]
    by_cases h : k = k'
    · subst h; simp
    · have h' : ¬ k' = k := fun e => h e.symm
      simp [h, h']

theorem bwd_removeKey {m : RMap K V} (hm : m.Inv) (k k' : K) (v : V) :
    (m.removeKey k).Bwd k' v ↔ k' ≠ k ∧ m.Bwd k' v := by
  unfold removeKey
  cases hk : m.k2v.get k with
  | none =>
    simp only
    constructor
    · intro h
      refine ⟨?_, h⟩
      rintro rfl
      obtain ⟨s, hs, _⟩ := (hm.agree k' v).2 h
      rw [hk] at hs; simp at hs
    · exact And.right
  | some kvs =>
    have := foldl_dropFrom k kvs.elems m.v2k k' v
    simp only [Bwd]
    rw [this]
    have hag := hm.agree k' v
    simp only [Fwd, Bwd] at hag
    constructor
    · rintro ⟨h1, h2⟩
      refine ⟨?_, h2⟩
      rintro rfl
      apply h1
      refine ⟨rfl, ?_⟩
      obtain ⟨s, hs, hv⟩ := hag.2 h2
      rw [hk] at hs
      simp only [Option.some.injEq] at hs
      subst hs; exact hv
    · rintro ⟨h1, h2⟩
      exact ⟨fun h => h1 h.1, h2⟩

theorem inv_removeKey {m : RMap K V} (h : m.Inv) (k : K) : (m.removeKey k).Inv := by
  constructor
  · intro k' v; rw [fwd_removeKey, bwd_removeKey h, h.agree]
  · unfold removeKey
    cases hk : m.k2v.get k with
    | none => exact h.nonempty
    | some kvs => exact foldl_dropFrom_nonempty k kvs.elems m.v2k h.nonempty

end Verif.RMap

import Verif.Model.VersionedMap

/-! Helper lemmas about the versioned map model (no property statements here). -/

set_option linter.unusedSectionVars false

namespace Verif.VMap
variable {K V C : Type} [DecidableEq K] [DecidableEq V] [LT C] [DecidableLT C]

/-! ### local modifications -/

theorem map_modifyLocal (m : VMap K V C) (k k' : K) (v : Option V) :
    (m.modifyLocal k v).map.get k' =
      if k = k' then
        some ⟨match m.map.get k with
              | some e => if k ∈ m.modified then e.version else bump e.version
              | none => 1, v⟩
      else m.map.get k' := by
  unfold modifyLocal
  cases h : m.map.get k <;> simp only [AMap.get_insert]

theorem get_modifyLocal (m : VMap K V C) (k k' : K) (v : Option V) :
    (m.modifyLocal k v).get k' = if k = k' then v else m.get k' := by
  unfold get
  rw [map_modifyLocal]
  split <;> simp

@[simp] theorem modified_modifyLocal (m : VMap K V C) (k : K) (v : Option V) :
    (m.modifyLocal k v).modified = m.modified.insert k := rfl

@[simp] theorem ident_modifyLocal (m : VMap K V C) (k : K) (v : Option V) :
    (m.modifyLocal k v).ident = m.ident := rfl

theorem removeIfEquals_eq (m : VMap K V C) (k : K) (v : V) :
    m.removeIfEquals k v = if m.get k = some v then m.remove k else m := by
  unfold removeIfEquals get
  cases h : m.map.get k with
  | none => simp
  | some e => simp

theorem get_removeIfEquals (m : VMap K V C) (k k' : K) (v : V) :
    (m.removeIfEquals k v).get k' = if k = k' ∧ m.get k = some v then none else m.get k' := by
  rw [removeIfEquals_eq]
  by_cases h : m.get k = some v
  · simp only [h, and_true, if_true, remove, get_modifyLocal]
  · simp [h]

/-! ### diff -/

theorem foldl_diffStep (l : List K) (nd : l.Nodup) (a b : AMap K (VV V))
    (hb : ∀ k ∈ l, b.get k = none) (k : K) :
    ((l.foldl diffStep (a, b)).1.get k =
      if k ∈ l then (match a.get k with | some ⟨_, none⟩ => none | x => x) else a.get k) ∧
    ((l.foldl diffStep (a, b)).2.get k = if k ∈ l then a.get k else b.get k) := by
  induction l generalizing a b with
  | nil => simp
  | cons x xs ih =>
    rw [List.nodup_cons] at nd
    simp only [List.foldl_cons]
    cases hx : a.get x with
    | none =>
      have hs : diffStep (a, b) x = (a, b) := by simp [diffStep, hx]
      rw [hs]
      obtain ⟨h1, h2⟩ := ih nd.2 a b (fun k hk => hb k (List.mem_cons_of_mem _ hk))
      rw [h1, h2]
      by_cases hk : k = x
      · subst hk
        have := hb k (List.mem_cons_self ..)
        simp [hx, this]
      · simp [hk]
    | some e =>
      have hs : diffStep (a, b) x = (if e.value.isNone then a.erase x else a, b.insert x e) := by
        simp [diffStep, hx]
      rw [hs]
      have hb' : ∀ k ∈ xs, (b.insert x e).get k = none := by
        intro k hk
        rw [AMap.get_insert, if_neg (by rintro rfl; exact nd.1 hk)]
        exact hb k (List.mem_cons_of_mem _ hk)
      obtain ⟨h1, h2⟩ := ih nd.2 (if e.value.isNone then a.erase x else a) (b.insert x e) hb'
      rw [h1, h2]
      by_cases hk : k = x
      · subst hk
        rcases e with ⟨ver, _ | v⟩ <;> simp [nd.1, hx]
      · have hne : x ≠ k := fun h => hk h.symm
        have ha : (if e.value.isNone then a.erase x else a).get k = a.get k := by
          split
          · rw [AMap.get_erase, if_neg hne]
          · rfl
        rw [ha]
        simp [hk, AMap.get_insert, hne]

theorem map_diff_self (m : VMap K V C) (k : K) :
    m.diff.1.map.get k =
      if k ∈ m.modified then (match m.map.get k with | some ⟨_, none⟩ => none | x => x)
      else m.map.get k :=
  (foldl_diffStep m.modified.elems m.modified.nodup m.map AMap.empty (by simp) k).1

theorem map_diff_out (m : VMap K V C) (k : K) :
    m.diff.2.map.get k = if k ∈ m.modified then m.map.get k else none := by
  have := (foldl_diffStep m.modified.elems m.modified.nodup m.map AMap.empty (by simp) k).2
  simpa [diff, FSet.mem_def] using this

theorem get_diff_self (m : VMap K V C) (k : K) : m.diff.1.get k = m.get k := by
  unfold get
  rw [map_diff_self]
  split
  · rcases m.map.get k with _ | ⟨ver, _ | v⟩ <;> simp
  · rfl

@[simp] theorem modified_diff_self (m : VMap K V C) : m.diff.1.modified = FSet.empty := rfl
@[simp] theorem ident_diff_self (m : VMap K V C) : m.diff.1.ident = m.ident := rfl
@[simp] theorem ident_diff_out (m : VMap K V C) : m.diff.2.ident = m.ident := rfl

/-! ### merge -/

/-- The remote entry `e` replaces the local one `l`. -/
def takes (c rc : C) (l : Option (VV V)) (e : VV V) : Prop :=
  match l with
  | some l => l.version < e.version ∨ (e.version = l.version ∧ c < rc)
  | none => e.value.isSome = true

instance (c rc : C) (l : Option (VV V)) (e : VV V) : Decidable (takes c rc l e) := by
  unfold takes; cases l <;> infer_instance

/-- The entry stored after the remote entry `e` has won. -/
def adopted (e : VV V) : Option (VV V) := if e.value.isSome then some e else none

theorem mergeStep_spec (rc : C) (m : VMap K V C) (ch : List (K × Option V)) (k : K) (e : VV V) :
    let r := mergeStep rc (m, ch) (k, e)
    r.1.ident = m.ident ∧
    (∀ k', r.1.map.get k' =
      if k' = k ∧ takes m.ident rc (m.map.get k) e then adopted e else m.map.get k') ∧
    (∀ k', k' ∈ r.1.modified ↔
      k' ∈ m.modified ∧ ¬ (k' = k ∧ (m.map.get k).isSome ∧ takes m.ident rc (m.map.get k) e)) ∧
    r.2 = ch ++ (if takes m.ident rc (m.map.get k) e then [(k, e.value)] else []) := by
  simp only [mergeStep]
  cases hl : m.map.get k with
  | none =>
    simp only [takes]
    by_cases hv : e.value.isSome = true
    · simp only [hv, if_true, adopted, and_true]
      refine ⟨trivial, fun k' => ?_, by simp⟩
      rw [AMap.get_insert]; simp [eq_comm]
    · simp [hv]
  | some l =>
    simp only [takes]
    by_cases hc : l.version < e.version ∨ (e.version = l.version ∧ m.ident < rc)
    · simp only [hc, if_true, and_true]
      refine ⟨trivial, fun k' => ?_, by simp [and_comm]⟩
      rcases e with ⟨ver, _ | v⟩
      · simp [adopted, AMap.get_erase, eq_comm]
      · simp [adopted, AMap.get_insert, eq_comm]
    · simp [hc]

theorem foldl_mergeStep (rc : C) (l : List (K × VV V)) (nd : (l.map Prod.fst).Nodup)
    (m : VMap K V C) (ch : List (K × Option V)) :
    let r := l.foldl (mergeStep rc) (m, ch)
    r.1.ident = m.ident ∧
    (∀ k, r.1.map.get k =
      match AMap.lookupL k l with
      | some e => if takes m.ident rc (m.map.get k) e then adopted e else m.map.get k
      | none => m.map.get k) ∧
    (∀ k, k ∈ r.1.modified ↔ k ∈ m.modified ∧
      ¬ ((m.map.get k).isSome ∧ ∃ e, AMap.lookupL k l = some e ∧ takes m.ident rc (m.map.get k) e)) ∧
    (r.2 = ch ++ (l.filter (fun p => decide (takes m.ident rc (m.map.get p.1) p.2))).map
        (fun p => (p.1, p.2.value))) := by
  induction l generalizing m ch with
  | nil => simp [AMap.lookupL]
  | cons x xs ih =>
    obtain ⟨k0, e0⟩ := x
    rw [List.map_cons, List.nodup_cons] at nd
    simp only [List.foldl_cons]
    obtain ⟨s1, s2, s3, s4⟩ := mergeStep_spec rc m ch k0 e0
    generalize hS : mergeStep rc (m, ch) (k0, e0) = S at *
    obtain ⟨m', ch'⟩ := S
    simp only at s1 s2 s3 s4
    obtain ⟨i1, i2, i3, i4⟩ := ih nd.2 m' ch'
    have hnot : AMap.lookupL k0 xs = none := AMap.lookupL_none_of_not_mem nd.1
    refine ⟨i1.trans s1, fun k => ?_, fun k => ?_, ?_⟩
    · rw [i2]
      by_cases hk : k = k0
      · subst hk
        rw [hnot]
        simp only [AMap.lookupL, if_true]
        rw [s2]; simp
      · have hne : ¬ k0 = k := fun h => hk h.symm
        simp only [AMap.lookupL, hne, if_false]
        have : m'.map.get k = m.map.get k := by rw [s2]; simp [hk]
        rw [this, s1]
    · rw [i3, s3]
      by_cases hk : k = k0
      · subst hk
        rw [hnot]
        simp only [AMap.lookupL, if_true, Option.some.injEq]
        grind
      · have hne : ¬ k0 = k := fun h => hk h.symm
        simp only [AMap.lookupL, hne, if_false]
        have : m'.map.get k = m.map.get k := by rw [s2]; simp [hk]
        rw [this, s1]
        grind
    · rw [i4, s4, List.append_assoc]
      congr 1
      rw [List.filter_cons]
      have hfil : xs.filter (fun p => decide (takes m'.ident rc (m'.map.get p.1) p.2)) =
          xs.filter (fun p => decide (takes m.ident rc (m.map.get p.1) p.2)) := by
        apply List.filter_congr
        intro p hp
        have hpk : p.1 ≠ k0 := by
          intro h; have h' := List.mem_map_of_mem (f := Prod.fst) hp
          rw [h] at h'; exact nd.1 h'
        have : m'.map.get p.1 = m.map.get p.1 := by rw [s2]; simp [hpk]
        rw [this, s1]
      rw [hfil]
      split <;> simp_all

@[simp] theorem ident_merge (m r : VMap K V C) : (m.merge r).1.ident = m.ident :=
  (foldl_mergeStep r.ident r.map.entries r.map.nodup m []).1

theorem map_merge (m r : VMap K V C) (k : K) :
    (m.merge r).1.map.get k =
      match r.map.get k with
      | some e => if takes m.ident r.ident (m.map.get k) e then adopted e else m.map.get k
      | none => m.map.get k :=
  (foldl_mergeStep r.ident r.map.entries r.map.nodup m []).2.1 k

theorem modified_merge (m r : VMap K V C) (k : K) :
    k ∈ (m.merge r).1.modified ↔ k ∈ m.modified ∧
      ¬ ((m.map.get k).isSome ∧ ∃ e, r.map.get k = some e ∧ takes m.ident r.ident (m.map.get k) e) :=
  (foldl_mergeStep r.ident r.map.entries r.map.nodup m []).2.2.1 k

theorem changes_merge (m r : VMap K V C) :
    (m.merge r).2 =
      (r.map.entries.filter (fun p => decide (takes m.ident r.ident (m.map.get p.1) p.2))).map
        (fun p => (p.1, p.2.value)) := by
  have := (foldl_mergeStep r.ident r.map.entries r.map.nodup m []).2.2.2
  simpa [merge] using this

theorem mem_changes_merge (m r : VMap K V C) (k : K) (v : Option V) :
    (k, v) ∈ (m.merge r).2 ↔
      ∃ e, r.map.get k = some e ∧ takes m.ident r.ident (m.map.get k) e ∧ e.value = v := by
  rw [changes_merge]
  simp only [List.mem_map, List.mem_filter, decide_eq_true_eq, Prod.mk.injEq]
  constructor
  · rintro ⟨⟨k', e⟩, ⟨h1, h2⟩, rfl, rfl⟩
    exact ⟨e, AMap.mem_entries.1 h1, h2, rfl⟩
  · rintro ⟨e, h1, h2, rfl⟩
    exact ⟨(k, e), ⟨AMap.mem_entries.2 h1, h2⟩, rfl, rfl⟩

theorem nodup_changes_merge (m r : VMap K V C) : ((m.merge r).2.map Prod.fst).Nodup := by
  rw [changes_merge, List.map_map]
  have h : (r.map.entries.map Prod.fst).Nodup := r.map.nodup
  have : (Prod.fst ∘ fun p : K × VV V => (p.1, p.2.value)) = Prod.fst := rfl
  rw [this]
  exact h.sublist (List.Sublist.map _ List.filter_sublist)

end Verif.VMap

import Verif.Lemmas.VersionedMap

/-!
# Properties C01-C06: the versioned map

Specifications first (independent of how the map is implemented), then the theorems.
-/

set_option linter.unusedSectionVars false

namespace Verif.Props.VersionedMap
open Verif

variable {K V C : Type} [DecidableEq K] [DecidableEq V] [LT C] [DecidableLT C]

/-! ## Histories -/

/-- Operations a holder of a versioned map can perform. -/
inductive Op (K V C : Type) where
  | insert (k : K) (v : V)
  | remove (k : K)
  | removeIfEquals (k : K) (v : V)
  | getFull
  | diff
  | merge (r : VMap K V C)

/-- Operations that involve no other map. -/
def Op.isLocal : Op K V C → Bool
  | .merge _ => false
  | _ => true

/-- Plain edits: insert, remove, remove_if_equals. -/
def Op.isEdit : Op K V C → Bool
  | .insert _ _ => true
  | .remove _ => true
  | .removeIfEquals _ _ => true
  | _ => false

/-- The state of the map after one operation. -/
def step (m : VMap K V C) : Op K V C → VMap K V C
  | .insert k v => m.insert k v
  | .remove k => m.remove k
  | .removeIfEquals k v => m.removeIfEquals k v
  | .getFull => m
  | .diff => m.diff.1
  | .merge r => (m.merge r).1

/-- The state after a history of operations. -/
def run (m : VMap K V C) (ops : List (Op K V C)) : VMap K V C := ops.foldl step m

/-! ## C01: read your writes -/

/-- Specification: an ordinary map as a function, `none` meaning absent. -/
def specStep (f : K → Option V) : Op K V C → (K → Option V)
  | .insert k v => fun x => if x = k then some v else f x
  | .remove k => fun x => if x = k then none else f x
  | .removeIfEquals k v => fun x => if x = k ∧ f k = some v then none else f x
  | .getFull => f
  | .diff => f
  | .merge _ => f

def specRun (f : K → Option V) (ops : List (Op K V C)) : K → Option V := ops.foldl specStep f

theorem get_run_local (ops : List (Op K V C)) (h : ∀ op ∈ ops, op.isLocal = true)
    (m : VMap K V C) (f : K → Option V) (hm : ∀ k, m.get k = f k) (k : K) :
    (run m ops).get k = specRun f ops k := by
  induction ops generalizing m f with
  | nil => exact hm k
  | cons op ops ih =>
    simp only [run, specRun, List.foldl_cons]
    refine ih (fun o ho => h o (List.mem_cons_of_mem _ ho)) _ _ (fun x => ?_)
    have hop := h op (List.mem_cons_self ..)
    cases op with
    | insert k v => simp only [step, specStep, VMap.insert, VMap.get_modifyLocal, hm, eq_comm]
    | remove k => simp only [step, specStep, VMap.remove, VMap.get_modifyLocal, hm, eq_comm]
    | removeIfEquals k v =>
      simp only [step, specStep, VMap.get_removeIfEquals, hm]
      by_cases hk : k = x
      · subst hk; simp
      · have hk' : ¬ x = k := fun h => hk h.symm
        simp [hk, hk']
    | getFull => exact hm x
    | diff => simp only [step, specStep, VMap.get_diff_self, hm]
    | merge r => simp [Op.isLocal] at hop

/-- **C01.** After any history of local operations, `get` answers like an ordinary map that saw the
same inserts and removals; `diff` and `get_full` never change an answer. -/
theorem C01_read_your_writes (c : C) (ops : List (Op K V C)) (h : ∀ op ∈ ops, op.isLocal = true)
    (k : K) :
    (run (VMap.new c) ops).get k = specRun (fun _ => none) ops k :=
  get_run_local ops h _ _ (fun _ => rfl) k

/-- **C01**, copies: a full copy, and the map left behind by `diff`, answer like the map itself. -/
theorem C01_copies_agree (m : VMap K V C) (k : K) :
    m.getFull.get k = m.get k ∧ m.diff.1.get k = m.get k :=
  ⟨rfl, VMap.get_diff_self m k⟩

/-- **C01**, absence: `remove_if_equals` with a different value is a no-op. -/
theorem C01_removeIfEquals_other (m : VMap K V C) (k : K) (v : V) (h : m.get k ≠ some v) (k' : K) :
    (m.removeIfEquals k v).get k' = m.get k' := by
  rw [VMap.get_removeIfEquals]; simp [h]

/-- **C01**, copies: a full copy has no changes of its own to announce. -/
theorem C01_full_copy_unmodified (m : VMap K V C) : m.getFull.diff.2.isEmpty = true := by
  unfold VMap.isEmpty
  rw [AMap.isEmpty_iff]
  intro k
  rw [VMap.map_diff_out]; simp [VMap.getFull]

theorem get_foldl_erase (ks : List K) (m : AMap K (VV V)) (k : K) :
    (ks.foldl AMap.erase m).get k = if k ∈ ks then none else m.get k := by
  induction ks generalizing m with
  | nil => simp
  | cons x xs ih =>
    rw [List.foldl_cons, ih, AMap.get_erase]
    by_cases h : x = k
    · subst h; simp
    · have h' : ¬ k = x := fun e => h e.symm
      by_cases h'' : k ∈ xs <;> simp [h, h', h'']

/-- **C01**, `remove_by_value_no_modify`: exactly the keys with the value are gone, and none of them counts as changed. -/
theorem C01_remove_by_value (m : VMap K V C) (v : V) (k : K) :
    (m.removeByValueNoModify v).get k = (if m.get k = some v then none else m.get k) ∧
    (k ∈ (m.removeByValueNoModify v).modified ↔ k ∈ m.modified) := by
  refine ⟨?_, Iff.rfl⟩
  have hk : k ∈ (m.map.entries.filter (fun e => decide (e.2.value = some v))).map Prod.fst ↔ m.get k = some v := by
    rw [List.mem_map]
    constructor
    · rintro ⟨e, he, rfl⟩
      rw [List.mem_filter] at he
      have : m.map.get e.1 = some e.2 := AMap.mem_entries.1 he.1
      simpa [VMap.get, this] using he.2
    · intro h
      unfold VMap.get at h
      cases hg : m.map.get k with
      | none => rw [hg] at h; cases h
      | some e =>
        rw [hg] at h
        exact ⟨(k, e), List.mem_filter.2 ⟨AMap.mem_entries.2 hg, by simpa using h⟩, rfl⟩
  show ((List.foldl AMap.erase m.map _).get k).bind VV.value = _
  rw [get_foldl_erase]
  by_cases h : m.get k = some v
  · rw [if_pos (hk.2 h), if_pos h]; rfl
  · rw [if_neg (fun h' => h (hk.1 h')), if_neg h]; rfl

example : let m := run (VMap.new 7 : VMap Nat Nat Nat) [.insert 1 10, .insert 2 20, .insert 3 10, .diff]
    let p := m.removeByValueNoModify 10
    ([1, 2, 3].map p.get = [none, some 20, none]) ∧ p.diff.2.isEmpty = true := by decide

/-- Non-trivial instance of C01: insert, diff, remove, diff, insert again, failed conditional remove. -/
example : (run (VMap.new 7 : VMap Nat Nat Nat)
    [.insert 1 10, .diff, .remove 1, .insert 2 20, .diff, .removeIfEquals 2 21, .insert 1 11]).get 1
      = some 11 ∧
    (∀ op ∈ ([.insert 1 10, .diff, .remove 1, .insert 2 20, .diff, .removeIfEquals 2 21,
      .insert 1 11] : List (Op Nat Nat Nat)), op.isLocal = true) := by
  refine ⟨by rfl, by decide⟩

/-! ## C02, C03, C04: merge -/

/-- Specification of the conflict rule: the entry `e` that `r` holds for `k` beats what `m` holds. -/
def Supersedes (m r : VMap K V C) (k : K) (e : VV V) : Prop :=
  r.map.get k = some e ∧
  match m.map.get k with
  | none => e.value ≠ none
  | some l => l.version < e.version ∨ (l.version = e.version ∧ m.ident < r.ident)

theorem supersedes_iff (m r : VMap K V C) (k : K) (e : VV V) :
    Supersedes m r k e ↔ r.map.get k = some e ∧ VMap.takes m.ident r.ident (m.map.get k) e := by
  unfold Supersedes VMap.takes
  cases h : m.map.get k with
  | none => simp [Option.isSome_iff_ne_none]
  | some l => simp [eq_comm]

/-- **C02.** If remote's entry wins, the map answers with remote's value afterwards, and (if it is
not a removal) stores exactly remote's entry. -/
theorem C02_merge_winner (m r : VMap K V C) (k : K) (e : VV V) (h : Supersedes m r k e) :
    (m.merge r).1.get k = e.value ∧
    (m.merge r).1.map.get k = (if e.value = none then none else some e) := by
  obtain ⟨h1, h2⟩ := (supersedes_iff m r k e).1 h
  have hmap : (m.merge r).1.map.get k = (if e.value = none then none else some e) := by
    rw [VMap.map_merge, h1]
    simp only [h2, if_true, VMap.adopted]
    cases e.value <;> simp
  refine ⟨?_, hmap⟩
  unfold VMap.get
  rw [hmap]
  cases hv : e.value <;> simp [hv]

/-- **C02.** If remote has no winning entry for a key, the local entry is untouched. -/
theorem C02_merge_loser (m r : VMap K V C) (k : K) (h : ∀ e, ¬ Supersedes m r k e) :
    (m.merge r).1.map.get k = m.map.get k := by
  rw [VMap.map_merge]
  cases hr : r.map.get k with
  | none => rfl
  | some e =>
    have : ¬ VMap.takes m.ident r.ident (m.map.get k) e :=
      fun ht => h e ((supersedes_iff m r k e).2 ⟨hr, ht⟩)
    simp [this]

/-- **C02.** The result does not depend on the order in which remote's entries are visited. -/
theorem C02_merge_order_irrelevant (m r r' : VMap K V C) (hid : r.ident = r'.ident)
    (hsame : ∀ k, r.map.get k = r'.map.get k) (k : K) :
    (m.merge r).1.map.get k = (m.merge r').1.map.get k ∧
    (k ∈ (m.merge r).1.modified ↔ k ∈ (m.merge r').1.modified) ∧
    (∀ v, (k, v) ∈ (m.merge r).2 ↔ (k, v) ∈ (m.merge r').2) := by
  refine ⟨?_, ?_, fun v => ?_⟩
  · rw [VMap.map_merge, VMap.map_merge, hsame, hid]
  · rw [VMap.modified_merge, VMap.modified_merge, hsame, hid]
  · rw [VMap.mem_changes_merge, VMap.mem_changes_merge, hsame, hid]

/-- **C03.** Merge reports exactly the winning entries of remote, each key at most once, and a key
that is not reported keeps its entry. -/
theorem C03_changes_exact (m r : VMap K V C) :
    (∀ k v, (k, v) ∈ (m.merge r).2 ↔ ∃ e, Supersedes m r k e ∧ e.value = v) ∧
    ((m.merge r).2.map Prod.fst).Nodup ∧
    (∀ k, (∀ v, (k, v) ∉ (m.merge r).2) → (m.merge r).1.map.get k = m.map.get k) := by
  have h1 : ∀ k v, (k, v) ∈ (m.merge r).2 ↔ ∃ e, Supersedes m r k e ∧ e.value = v := by
    intro k v
    rw [VMap.mem_changes_merge]
    simp only [supersedes_iff, and_assoc]
  refine ⟨h1, VMap.nodup_changes_merge m r, fun k hk => C02_merge_loser m r k ?_⟩
  intro e he
  exact hk e.value ((h1 k e.value).2 ⟨e, he, rfl⟩)

/-- **C04.** Merging the same map again changes no entry. -/
theorem C04_merge_idempotent (m r : VMap K V C) (k : K) :
    ((m.merge r).1.merge r).1.map.get k = (m.merge r).1.map.get k := by
  by_cases h : ∃ e, Supersedes m r k e
  · obtain ⟨e, he⟩ := h
    have h1 := (C02_merge_winner m r k e he).2
    by_cases h' : ∃ e', Supersedes (m.merge r).1 r k e'
    · obtain ⟨e', he'⟩ := h'
      have hee : e' = e := by
        have a := he.1; have b := he'.1; rw [a] at b; exact (Option.some.inj b).symm
      subst hee
      rw [(C02_merge_winner (m.merge r).1 r k e' he').2, h1]
    · exact C02_merge_loser _ _ _ (fun e he => h' ⟨e, he⟩)
  · have h1 := C02_merge_loser m r k (fun e he => h ⟨e, he⟩)
    apply C02_merge_loser
    intro e' he'
    apply h
    refine ⟨e', ?_⟩
    unfold Supersedes at *
    rw [h1, VMap.ident_merge] at he'
    exact he'

/-- **C04.** A stored version never goes down through a merge. -/
theorem C04_versions_monotone (m r : VMap K V C) (k : K) (l l' : VV V)
    (h : m.map.get k = some l) (h' : (m.merge r).1.map.get k = some l') :
    l.version ≤ l'.version := by
  rw [VMap.map_merge] at h'
  cases hr : r.map.get k with
  | none => rw [hr, h] at h'; simp only [Option.some.injEq] at h'; rw [h']; exact Nat.le_refl _
  | some e =>
    rw [hr, h] at h'
    simp only at h'
    split at h'
    · rename_i ht
      unfold VMap.adopted at h'
      split at h'
      · simp only [Option.some.injEq] at h'
        subst h'
        simp only [VMap.takes] at ht
        omega
      · simp at h'
    · simp only [Option.some.injEq] at h'; rw [h']; exact Nat.le_refl _

/-- A local map and a remote map exercising every row of the table: newer value (1), older value (2),
tie (3), newer removal (4), unknown value (5), unknown removal (6). -/
def exLocal : VMap Nat Nat Nat :=
  ⟨AMap.ofList [(1, ⟨1, some 10⟩), (2, ⟨5, some 20⟩), (3, ⟨2, some 30⟩), (4, ⟨1, some 40⟩)],
   FSet.ofList [1, 3], 1⟩
def exRemote : VMap Nat Nat Nat :=
  ⟨AMap.ofList [(1, ⟨2, some 11⟩), (2, ⟨4, some 21⟩), (3, ⟨2, some 31⟩), (4, ⟨2, none⟩),
    (5, ⟨1, some 51⟩), (6, ⟨9, none⟩)], FSet.empty, 2⟩

/-- Non-trivial instance of C02/C03: keys 1, 3, 4, 5 are won by remote, 2 and 6 are not. -/
example : [1, 2, 3, 4, 5, 6].map (fun k => (exLocal.merge exRemote).1.get k) =
      [some 11, some 20, some 31, none, some 51, none] ∧
    Supersedes exLocal exRemote 3 ⟨2, some 31⟩ ∧ ¬ Supersedes exLocal exRemote 2 ⟨4, some 21⟩ ∧
    (1, some 11) ∈ (exLocal.merge exRemote).2 ∧ (exLocal.merge exRemote).2.length = 4 := by
  refine ⟨by rfl, ⟨rfl, Or.inr ⟨rfl, by decide⟩⟩, ?_, by decide, by rfl⟩
  rintro ⟨_, h⟩
  rcases h with h | h
  · exact absurd h (by decide)
  · exact absurd h.1 (by decide)

/-! ## C05: what a diff carries -/

/-- Specification: which keys have a local change that has not been sent yet. Written next to the
history, from the map before (`m`) and the operation. -/
def pendingStep (m : VMap K V C) (P : K → Prop) : Op K V C → (K → Prop)
  | .insert k _ => fun x => x = k ∨ P x
  | .remove k => fun x => x = k ∨ P x
  | .removeIfEquals k v => fun x => (x = k ∧ m.get k = some v) ∨ P x
  | .getFull => P
  | .diff => fun _ => False
  | .merge r => fun x => P x ∧ ¬ ∃ e, Supersedes m r x e

def pending (m : VMap K V C) (P : K → Prop) : List (Op K V C) → (K → Prop)
  | [] => P
  | op :: ops => pending (step m op) (pendingStep m P op) ops

/-- Invariant of every reachable map: a key marked modified is stored, and a stored tombstone is
marked modified. -/
def Inv (m : VMap K V C) : Prop :=
  (∀ k, k ∈ m.modified → (m.map.get k).isSome) ∧
  (∀ k e, m.map.get k = some e → e.value = none → k ∈ m.modified)

theorem inv_new (c : C) : Inv (VMap.new c : VMap K V C) := by
  constructor <;> simp [VMap.new]

theorem inv_modifyLocal (m : VMap K V C) (k : K) (v : Option V) (h : Inv m) :
    Inv (m.modifyLocal k v) := by
  constructor
  · intro k' hk'
    rw [VMap.map_modifyLocal]
    simp only [VMap.modified_modifyLocal, FSet.mem_insert] at hk'
    by_cases hk : k = k'
    · simp [hk]
    · simp only [hk, if_false]
      exact h.1 k' (hk'.resolve_left (fun h => hk h.symm))
  · intro k' e he hv
    rw [VMap.map_modifyLocal] at he
    simp only [VMap.modified_modifyLocal, FSet.mem_insert]
    by_cases hk : k = k'
    · left; exact hk.symm
    · simp only [hk, if_false] at he
      right; exact h.2 k' e he hv

theorem inv_diff (m : VMap K V C) (h : Inv m) : Inv m.diff.1 := by
  constructor
  · intro k hk; simp at hk
  · intro k e he hv
    rw [VMap.map_diff_self] at he
    by_cases hk : k ∈ m.modified
    · simp only [hk, if_true] at he
      rcases hm : m.map.get k with _ | ⟨ver, _ | v⟩ <;> rw [hm] at he <;> simp at he
      subst he; simp at hv
    · simp only [hk, if_false] at he
      exact absurd (h.2 k e he hv) hk

theorem inv_merge (m r : VMap K V C) (h : Inv m) : Inv (m.merge r).1 := by
  constructor
  · intro k hk
    rw [VMap.modified_merge] at hk
    have hs := h.1 k hk.1
    rw [VMap.map_merge]
    cases hr : r.map.get k with
    | none => exact hs
    | some e =>
      have : ¬ VMap.takes m.ident r.ident (m.map.get k) e := fun ht => hk.2 ⟨hs, e, hr, ht⟩
      simp only [this, if_false]
      exact hs
  · intro k e he hv
    rw [VMap.modified_merge]
    rw [VMap.map_merge] at he
    cases hr : r.map.get k with
    | none =>
      rw [hr] at he
      refine ⟨h.2 k e he hv, ?_⟩
      rintro ⟨_, e', h', _⟩; simp at h'
    | some e' =>
      rw [hr] at he
      simp only at he
      split at he
      · unfold VMap.adopted at he
        split at he
        · rename_i hs
          simp only [Option.some.injEq] at he
          subst he; rw [hv] at hs; simp at hs
        · simp at he
      · rename_i hnt
        refine ⟨h.2 k e he hv, ?_⟩
        rintro ⟨_, e'', h', ht⟩
        simp only [Option.some.injEq] at h'
        subst h'; exact hnt ht

theorem inv_step (m : VMap K V C) (op : Op K V C) (h : Inv m) : Inv (step m op) := by
  cases op with
  | insert k v => exact inv_modifyLocal m k _ h
  | remove k => exact inv_modifyLocal m k _ h
  | removeIfEquals k v =>
    simp only [step, VMap.removeIfEquals_eq]
    split
    · exact inv_modifyLocal m k _ h
    · exact h
  | getFull => exact h
  | diff => exact inv_diff m h
  | merge r => exact inv_merge m r h

theorem inv_run (m : VMap K V C) (ops : List (Op K V C)) (h : Inv m) : Inv (run m ops) := by
  induction ops generalizing m with
  | nil => exact h
  | cons op ops ih => exact ih _ (inv_step m op h)

theorem modified_step (m : VMap K V C) (P : K → Prop) (op : Op K V C) (h : Inv m)
    (hP : ∀ k, k ∈ m.modified ↔ P k) (k : K) :
    k ∈ (step m op).modified ↔ pendingStep m P op k := by
  cases op with
  | insert k' v => simp [step, pendingStep, VMap.insert, hP]
  | remove k' => simp [step, pendingStep, VMap.remove, hP]
  | removeIfEquals k' v =>
    simp only [step, pendingStep, VMap.removeIfEquals_eq]
    by_cases hg : m.get k' = some v
    · simp [hg, VMap.remove, hP]
    · simp [hg, hP]
  | getFull => exact hP k
  | diff => simp [step, pendingStep]
  | merge r =>
    simp only [step, pendingStep, VMap.modified_merge, ← hP, supersedes_iff]
    constructor
    · rintro ⟨h1, h2⟩
      exact ⟨h1, fun ⟨e, he1, he2⟩ => h2 ⟨h.1 k h1, e, he1, he2⟩⟩
    · rintro ⟨h1, h2⟩
      exact ⟨h1, fun ⟨_, e, he1, he2⟩ => h2 ⟨e, he1, he2⟩⟩

theorem modified_run (m : VMap K V C) (P : K → Prop) (ops : List (Op K V C)) (h : Inv m)
    (hP : ∀ k, k ∈ m.modified ↔ P k) (k : K) :
    k ∈ (run m ops).modified ↔ pending m P ops k := by
  induction ops generalizing m P with
  | nil => exact hP k
  | cons op ops ih =>
    exact ih _ _ (inv_step m op h) (fun k => modified_step m P op h hP k)

/-- **C05.** After any history (local edits, merges, earlier diffs) `diff` contains exactly the keys
with an unsent local change that no newer merged entry has overwritten, each with its current entry
(which exists). -/
theorem C05_diff_contents (c : C) (ops : List (Op K V C)) (k : K) :
    let m := run (VMap.new c) ops
    (pending (VMap.new c) (fun _ => False) ops k →
      ∃ e, m.map.get k = some e ∧ m.diff.2.map.get k = some e) ∧
    (¬ pending (VMap.new c) (fun _ => False) ops k → m.diff.2.map.get k = none) := by
  intro m
  have hmod := modified_run (VMap.new c : VMap K V C) (fun _ => False) ops (inv_new c)
    (by simp [VMap.new]) k
  have hinv := inv_run _ ops (inv_new (K := K) (V := V) c)
  constructor
  · intro hp
    have hk := hmod.2 hp
    obtain ⟨e, he⟩ := Option.isSome_iff_exists.1 (hinv.1 k hk)
    refine ⟨e, he, ?_⟩
    rw [VMap.map_diff_out, if_pos hk]; exact he
  · intro hp
    have hk : ¬ k ∈ m.modified := fun h => hp (hmod.1 h)
    rw [VMap.map_diff_out, if_neg hk]

/-- **C05.** A second `diff` right after the first is empty. -/
theorem C05_second_diff_empty (m : VMap K V C) : m.diff.1.diff.2.isEmpty = true := by
  unfold VMap.isEmpty
  rw [AMap.isEmpty_iff]
  intro k
  rw [VMap.map_diff_out]; simp

/-- How plain edits change a map in which nothing is pending. -/
theorem edits_entry (m : VMap K V C) (hm : ∀ k, k ∉ m.modified) (ops : List (Op K V C))
    (hed : ∀ op ∈ ops, op.isEdit = true) (k : K) :
    (k ∈ (run m ops).modified → ∃ v, (run m ops).map.get k = some
      ⟨match m.map.get k with | some e => VMap.bump e.version | none => 1, v⟩) ∧
    (k ∉ (run m ops).modified → (run m ops).map.get k = m.map.get k) := by
  have key : ∀ (ops : List (Op K V C)) (s : VMap K V C),
      (∀ op ∈ ops, op.isEdit = true) →
      ((k ∈ s.modified → ∃ v, s.map.get k = some
        ⟨match m.map.get k with | some e => VMap.bump e.version | none => 1, v⟩) ∧
       (k ∉ s.modified → s.map.get k = m.map.get k)) →
      ((k ∈ (run s ops).modified → ∃ v, (run s ops).map.get k = some
        ⟨match m.map.get k with | some e => VMap.bump e.version | none => 1, v⟩) ∧
       (k ∉ (run s ops).modified → (run s ops).map.get k = m.map.get k)) := by
    intro ops
    induction ops with
    | nil => intro s _ h; exact h
    | cons op ops ih =>
      intro s hs h
      refine ih _ (fun o ho => hs o (List.mem_cons_of_mem _ ho)) ?_
      have modl : ∀ (k' : K) (v : Option V),
          ((k ∈ (s.modifyLocal k' v).modified → ∃ v', (s.modifyLocal k' v).map.get k = some
            ⟨match m.map.get k with | some e => VMap.bump e.version | none => 1, v'⟩) ∧
           (k ∉ (s.modifyLocal k' v).modified → (s.modifyLocal k' v).map.get k = m.map.get k)) := by
        intro k' v
        rw [VMap.map_modifyLocal]
        simp only [VMap.modified_modifyLocal, FSet.mem_insert]
        by_cases hk : k' = k
        · subst hk
          simp only [true_or, if_true, not_true, forall_const, false_implies, and_true]
          refine ⟨v, ?_⟩
          by_cases hmod : k' ∈ s.modified
          · obtain ⟨v0, hv0⟩ := h.1 hmod
            rw [hv0]; simp only [hmod, if_true]
          · rw [h.2 hmod]; simp only [hmod, if_false]
            cases m.map.get k' <;> rfl
        · have hk' : ¬ k = k' := fun h => hk h.symm
          simp only [hk, hk', false_or, if_false]
          exact h
      have hop := hs op (List.mem_cons_self ..)
      cases op with
      | insert k' v => exact modl k' (some v)
      | remove k' => exact modl k' none
      | removeIfEquals k' v =>
        simp only [step, VMap.removeIfEquals_eq]
        split
        · exact modl k' none
        · exact h
      | getFull => simp [Op.isEdit] at hop
      | diff => simp [Op.isEdit] at hop
      | merge r => simp [Op.isEdit] at hop
  exact key ops m hed ⟨fun h => absurd h (hm k), fun _ => rfl⟩

/-- **C05.** A peer that held the same entries at the sender's previous diff and merges the next diff
answers every `get` like the sender. (`hver` excludes the wrap of the 64-bit version counter.) -/
theorem C05_peer_catches_up (c : C) (past edits : List (Op K V C))
    (hed : ∀ op ∈ edits, op.isEdit = true) (p : VMap K V C)
    (base : VMap K V C) (hbase : base = (run (VMap.new c) past).diff.1)
    (hagree : ∀ k, p.map.get k = base.map.get k)
    (hver : ∀ k e, base.map.get k = some e → e.version + 1 < 2 ^ 64) (k : K) :
    (p.merge (run base edits).diff.2).1.get k = (run base edits).diff.1.get k := by
  have hinv : Inv base := by rw [hbase]; exact inv_diff _ (inv_run _ _ (inv_new c))
  have hmod : ∀ k, k ∉ base.modified := by intro k; rw [hbase]; simp
  rw [VMap.get_diff_self]
  have he := edits_entry base hmod edits hed k
  unfold VMap.get
  rw [VMap.map_merge, VMap.map_diff_out, hagree]
  by_cases hk : k ∈ (run base edits).modified
  · simp only [hk, if_true]
    obtain ⟨v, hv⟩ := he.1 hk
    rw [hv]
    cases hb : base.map.get k with
    | none =>
      cases v with
      | none => simp [VMap.takes]
      | some v => simp [VMap.takes, VMap.adopted]
    | some e =>
      have hlt := hver k e hb
      have hbump : VMap.bump e.version = e.version + 1 := Nat.mod_eq_of_lt hlt
      have ht : VMap.takes p.ident (run base edits).diff.2.ident (some e)
          ⟨VMap.bump e.version, v⟩ := by
        simp only [VMap.takes, hbump]; left; omega
      simp only [ht, if_true]
      cases v <;> simp [VMap.adopted]
  · simp only [hk, if_false]
    rw [he.2 hk]

/-- Non-trivial instance of C05: the sender has history, the peer agrees, then one key is updated, one
removed, one created, one created and removed. -/
example :
    let past : List (Op Nat Nat Nat) := [.insert 1 10, .insert 2 20, .insert 3 30]
    let base : VMap Nat Nat Nat := (run (VMap.new 5) past).diff.1
    let edits : List (Op Nat Nat Nat) := [.insert 1 11, .remove 2, .insert 4 40, .insert 5 50, .remove 5]
    let p : VMap Nat Nat Nat := (VMap.new 9 : VMap Nat Nat Nat).merge (run (VMap.new 5) past).diff.2 |>.1
    ([1, 2, 3, 4, 5].map (fun k => p.map.get k) = [1, 2, 3, 4, 5].map (fun k => base.map.get k)) ∧
    ([1, 2, 3, 4, 5].map (fun k => (p.merge (run base edits).diff.2).1.get k) =
      [some 11, none, some 30, some 40, none]) := by
  refine ⟨by rfl, by rfl⟩

/-! ## C06: concurrent conflicting updates -/

/-- The full claim of C06: after both sides edit concurrently and exchange diffs, they agree. -/
def ConflictsConverge (K V C : Type) [DecidableEq K] [DecidableEq V] [LT C] [DecidableLT C] : Prop :=
  ∀ (a b : VMap K V C) (ea eb : List (Op K V C)),
    (∀ k, a.map.get k = b.map.get k) → (∀ k, k ∉ a.modified) → (∀ k, k ∉ b.modified) →
    Inv a → Inv b → a.ident < b.ident →
    (∀ op ∈ ea, op.isEdit = true) → (∀ op ∈ eb, op.isEdit = true) →
    (∀ k e, a.map.get k = some e → e.version + 1 < 2 ^ 64) →
    ∀ k, ((run a ea).diff.1.merge (run b eb).diff.2).1.get k =
         ((run b eb).diff.1.merge (run a ea).diff.2).1.get k

/-- **C06 is false of the code**: the greater identity removes a key while the lesser one rewrites it;
`diff` has already forgotten the greater side's tombstone, so the greater side adopts the lesser
side's value while the lesser side adopts the removal. -/
theorem C06_false : ¬ ConflictsConverge Nat Nat Nat := by
  intro h
  let base (i : Nat) : VMap Nat Nat Nat := ⟨AMap.ofList [(1, ⟨1, some 10⟩)], FSet.empty, i⟩
  have hget : ∀ k, (base 1).map.get k = if 1 = k then some ⟨1, some 10⟩ else none := by
    intro k
    simp only [base, AMap.ofList, List.foldl_cons, List.foldl_nil, AMap.get_insert, AMap.get_empty]
  have hinv : ∀ i, Inv (base i) := by
    intro i
    constructor
    · intro k hk; simp [base] at hk
    · intro k e he hv
      have := (hget k).symm.trans he
      split at this
      · simp only [Option.some.injEq] at this; subst this; simp at hv
      · simp at this
  have := h (base 1) (base 2) [.insert 1 11] [.remove 1] (fun _ => rfl)
    (by simp [base]) (by simp [base]) (hinv 1) (hinv 2) (by decide) (by decide) (by decide)
    (by
      intro k e he
      have := (hget k).symm.trans he
      split at this
      · simp only [Option.some.injEq] at this; subst this; decide
      · simp at this) 1
  revert this
  decide

theorem ident_run_edits (a : VMap K V C) (ea : List (Op K V C))
    (hea : ∀ op ∈ ea, op.isEdit = true) : (run a ea).ident = a.ident := by
  induction ea generalizing a with
  | nil => rfl
  | cons op ops ih =>
    have := ih (step a op) (fun o ho => hea o (List.mem_cons_of_mem _ ho))
    simp only [run, List.foldl_cons] at this ⊢
    rw [this]
    have hop := hea op (List.mem_cons_self ..)
    cases op <;> simp [Op.isEdit] at hop <;>
      simp [step, VMap.insert, VMap.remove, VMap.removeIfEquals_eq]
    split <;> simp

/-- **C06**, proved part: the two sides agree on every key unless the greater identity *removed* a
key that the lesser identity concurrently set; and for a key both sides modified the value written by
the greater identity wins. -/
theorem C06_conflicts_converge_partial (a b : VMap K V C) (ea eb : List (Op K V C))
    (hagree : ∀ k, a.map.get k = b.map.get k) (hma : ∀ k, k ∉ a.modified) (hmb : ∀ k, k ∉ b.modified)
    (hia : Inv a) (hib : Inv b) (hlt : a.ident < b.ident) (hasym : ¬ b.ident < a.ident)
    (hea : ∀ op ∈ ea, op.isEdit = true) (heb : ∀ op ∈ eb, op.isEdit = true)
    (hver : ∀ k e, a.map.get k = some e → e.version + 1 < 2 ^ 64) (k : K)
    (hok : pending a (fun _ => False) ea k → pending b (fun _ => False) eb k →
      (run b eb).get k = none → (run a ea).get k = none) :
    let a' := ((run a ea).diff.1.merge (run b eb).diff.2).1
    let b' := ((run b eb).diff.1.merge (run a ea).diff.2).1
    a'.get k = b'.get k ∧
    (pending b (fun _ => False) eb k → a'.get k = (run b eb).get k) ∧
    (pending a (fun _ => False) ea k → ¬ pending b (fun _ => False) eb k →
      a'.get k = (run a ea).get k) ∧
    (¬ pending a (fun _ => False) ea k → ¬ pending b (fun _ => False) eb k →
      a'.get k = a.get k) := by
  intro a' b'
  have pa : k ∈ (run a ea).modified ↔ pending a (fun _ => False) ea k :=
    modified_run a _ ea hia (by simp [hma]) k
  have pb : k ∈ (run b eb).modified ↔ pending b (fun _ => False) eb k :=
    modified_run b _ eb hib (by simp [hmb]) k
  rw [← pa, ← pb] at hok ⊢
  obtain ⟨a1, a2⟩ := edits_entry a hma ea hea k
  obtain ⟨b1, b2⟩ := edits_entry b hmb eb heb k
  have ida : (run a ea).ident = a.ident := ident_run_edits a ea hea
  have idb : (run b eb).ident = b.ident := ident_run_edits b eb heb
  have notomb : ∀ e, a.map.get k = some e → e.value ≠ none := fun e he hv => hma k (hia.2 k e he hv)
  simp only [a', b']
  unfold VMap.get at *
  rw [VMap.map_merge, VMap.map_merge, VMap.map_diff_out, VMap.map_diff_out, VMap.map_diff_self,
    VMap.map_diff_self]
  simp only [VMap.ident_diff_self, VMap.ident_diff_out, ida, idb]
  have hvk := hver k
  rw [← hagree] at b1 b2
  by_cases ka : k ∈ (run a ea).modified <;> by_cases kb : k ∈ (run b eb).modified
  · simp only [ka, kb, if_true, true_implies, not_true, false_implies, and_true] at *
    obtain ⟨va, hva⟩ := a1
    obtain ⟨vb, hvb⟩ := b1
    rw [hva, hvb] at hok ⊢
    clear hva hvb a2 b2 pa pb
    generalize (match a.map.get k with | some e => VMap.bump e.version | none => 1) = ver at *
    cases va <;> cases vb <;> simp [VMap.takes, VMap.adopted, hlt, hasym] at hok ⊢
  · simp only [ka, kb, if_true, if_false, true_implies, not_true, not_false_eq_true, false_implies,
      and_true, true_and] at *
    obtain ⟨va, hva⟩ := a1
    rw [hva, b2] at *
    cases hbase : a.map.get k with
    | none => cases va <;> simp [VMap.takes, VMap.adopted]
    | some e =>
      have hlt' := hvk e hbase
      have hbump : VMap.bump e.version = e.version + 1 := Nat.mod_eq_of_lt hlt'
      cases va <;> simp [VMap.takes, VMap.adopted, hbump]
  · simp only [ka, kb, if_true, if_false, true_implies, not_true, not_false_eq_true, false_implies,
      and_true] at *
    obtain ⟨vb, hvb⟩ := b1
    rw [hvb, a2] at *
    cases hbase : a.map.get k with
    | none => cases vb <;> simp [VMap.takes, VMap.adopted]
    | some e =>
      have hlt' := hvk e hbase
      have hbump : VMap.bump e.version = e.version + 1 := Nat.mod_eq_of_lt hlt'
      cases vb <;> simp [VMap.takes, VMap.adopted, hbump]
  · simp only [ka, kb, if_false, true_implies, not_false_eq_true, false_implies,
      true_and] at *
    rw [a2, b2]
    simp

/-- Non-trivial instance of C06: both sides write key 1, side 2 also removes key 2 (side 1 did not
touch it), and side 1 creates key 3. -/
example :
    let base (i : Nat) : VMap Nat Nat Nat :=
      ⟨AMap.ofList [(1, ⟨1, some 10⟩), (2, ⟨4, some 20⟩)], FSet.empty, i⟩
    let ea : List (Op Nat Nat Nat) := [.insert 1 11, .insert 3 31]
    let eb : List (Op Nat Nat Nat) := [.insert 1 12, .remove 2]
    ([1, 2, 3].map (fun k => ((run (base 1) ea).diff.1.merge (run (base 2) eb).diff.2).1.get k)
      = [some 12, none, some 31]) ∧
    ([1, 2, 3].map (fun k => ((run (base 2) eb).diff.1.merge (run (base 1) ea).diff.2).1.get k)
      = [some 12, none, some 31]) := by
  refine ⟨by rfl, by rfl⟩

end Verif.Props.VersionedMap

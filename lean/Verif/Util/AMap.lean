/-!
# Finite maps and finite sets

Stand-ins for Rust's `std::collections::HashMap` and `HashSet`.  A map is an association list
with pairwise different keys; the list order plays the role of the (unspecified) hash iteration
order.  Nothing in this file is specific to Push-CDN.
-/

set_option linter.unusedSectionVars false

namespace Verif

/-- `HashMap<K, V>`: entries in some iteration order, keys pairwise different. -/
structure AMap (K V : Type) where
  entries : List (K × V)
  nodup : (entries.map Prod.fst).Nodup

namespace AMap
variable {K V : Type} [DecidableEq K]

/-- Lookup in a raw association list. -/
def lookupL (k : K) : List (K × V) → Option V
  | [] => none
  | e :: es => if e.1 = k then some e.2 else lookupL k es

/-- Remove every entry with key `k` from a raw association list. -/
def eraseL (k : K) (l : List (K × V)) : List (K × V) := l.filter (fun e => decide (e.1 ≠ k))

theorem lookupL_none_of_not_mem {k : K} {l : List (K × V)}
    (h : k ∉ l.map Prod.fst) : lookupL k l = none := by
  induction l with
  | nil => rfl
  | cons e es ih =>
    simp only [List.map_cons, List.mem_cons, not_or] at h
    simp only [lookupL]
    rw [if_neg (fun h' => h.1 h'.symm)]
    exact ih h.2

theorem lookupL_isSome_iff {k : K} {l : List (K × V)} :
    (lookupL k l).isSome ↔ k ∈ l.map Prod.fst := by
  induction l with
  | nil => simp [lookupL]
  | cons e es ih =>
    simp only [lookupL, List.map_cons, List.mem_cons]
    by_cases h : e.1 = k
    · simp [h]
    · rw [if_neg h, ih]
      constructor
      · exact Or.inr
      · rintro (h' | h')
        · exact absurd h'.symm h
        · exact h'

theorem lookupL_eq_some_iff {k : K} {v : V} {l : List (K × V)} (nd : (l.map Prod.fst).Nodup) :
    lookupL k l = some v ↔ (k, v) ∈ l := by
  induction l with
  | nil => simp [lookupL]
  | cons e es ih =>
    rw [List.map_cons, List.nodup_cons] at nd
    simp only [lookupL, List.mem_cons]
    by_cases h : e.1 = k
    · subst h
      simp only [if_true, Option.some.injEq]
      constructor
      · rintro rfl; left; rfl
      · rintro (h' | h')
        · exact (congrArg Prod.snd h').symm
        · exact absurd (List.mem_map_of_mem (f := Prod.fst) h') nd.1
    · rw [if_neg h, ih nd.2]
      constructor
      · exact Or.inr
      · rintro (h' | h')
        · exact absurd (congrArg Prod.fst h').symm h
        · exact h'

theorem lookupL_eraseL (k k' : K) (l : List (K × V)) :
    lookupL k' (eraseL k l) = if k = k' then none else lookupL k' l := by
  induction l with
  | nil => simp [eraseL, lookupL]
  | cons e es ih =>
    simp only [eraseL, List.filter_cons] at *
    by_cases h : e.1 = k
    · simp only [h, ne_eq, not_true, decide_false]
      rw [if_neg (by simp), ih]
      by_cases h2 : k = k'
      · simp [h2]
      · simp only [lookupL, h, if_neg h2]
    · simp only [ne_eq, h, not_false_eq_true, decide_true, if_true, lookupL, ih]
      by_cases h2 : k = k'
      · subst h2; simp [h]
      · simp [h2]

theorem map_fst_eraseL (k : K) (l : List (K × V)) :
    (eraseL k l).map Prod.fst = (l.map Prod.fst).filter (fun x => decide (x ≠ k)) := by
  simp only [eraseL, List.filter_map]
  rfl

theorem nodup_eraseL (k : K) {l : List (K × V)} (nd : (l.map Prod.fst).Nodup) :
    ((eraseL k l).map Prod.fst).Nodup := by
  rw [map_fst_eraseL]; exact nd.filter _

theorem not_mem_eraseL (k : K) (l : List (K × V)) : k ∉ (eraseL k l).map Prod.fst := by
  rw [map_fst_eraseL]; simp

/-- `HashMap::new`. -/
def empty : AMap K V := ⟨[], List.nodup_nil⟩

/-- `HashMap::get`. -/
def get (m : AMap K V) (k : K) : Option V := lookupL k m.entries

/-- `HashMap::remove`. -/
def erase (m : AMap K V) (k : K) : AMap K V := ⟨eraseL k m.entries, nodup_eraseL k m.nodup⟩

/-- `HashMap::insert` (replaces an existing entry). -/
def insert (m : AMap K V) (k : K) (v : V) : AMap K V :=
  ⟨(k, v) :: eraseL k m.entries, by
    rw [List.map_cons, List.nodup_cons]
    exact ⟨not_mem_eraseL k _, nodup_eraseL k m.nodup⟩⟩

/-- `HashMap::keys`. -/
def keys (m : AMap K V) : List K := m.entries.map Prod.fst

/-- `HashMap::len`. -/
def size (m : AMap K V) : Nat := m.entries.length

/-- `HashMap::is_empty`. -/
def isEmpty (m : AMap K V) : Bool := m.entries.isEmpty

/-- `HashMap::contains_key`. -/
def contains (m : AMap K V) (k : K) : Bool := (m.get k).isSome

instance : Inhabited (AMap K V) := ⟨empty⟩

@[simp, grind =] theorem get_empty (k : K) : (empty : AMap K V).get k = none := rfl

@[grind =] theorem get_erase (m : AMap K V) (k k' : K) :
    (m.erase k).get k' = if k = k' then none else m.get k' := lookupL_eraseL k k' m.entries

@[grind =] theorem get_insert (m : AMap K V) (k k' : K) (v : V) :
    (m.insert k v).get k' = if k = k' then some v else m.get k' := by
  simp only [get, insert, lookupL]
  by_cases h : k = k'
  · simp [h]
  · rw [if_neg h, if_neg h, lookupL_eraseL, if_neg h]

@[simp] theorem get_insert_self (m : AMap K V) (k : K) (v : V) :
    (m.insert k v).get k = some v := by simp [get_insert]

@[simp] theorem get_erase_self (m : AMap K V) (k : K) : (m.erase k).get k = none := by
  simp [get_erase]

theorem mem_keys {m : AMap K V} {k : K} : k ∈ m.keys ↔ (m.get k).isSome :=
  lookupL_isSome_iff.symm

theorem mem_entries {m : AMap K V} {k : K} {v : V} : (k, v) ∈ m.entries ↔ m.get k = some v :=
  (lookupL_eq_some_iff m.nodup).symm

theorem keys_nodup (m : AMap K V) : m.keys.Nodup := m.nodup

theorem isEmpty_iff {m : AMap K V} : m.isEmpty = true ↔ ∀ k, m.get k = none := by
  unfold isEmpty get
  cases h : m.entries with
  | nil => simp [lookupL]
  | cons e es =>
    simp only [List.isEmpty_cons, Bool.false_eq_true, false_iff]
    intro h'
    have := h' e.1
    simp [lookupL] at this

theorem eraseL_of_not_mem {k : K} {l : List (K × V)} (h : k ∉ l.map Prod.fst) :
    eraseL k l = l := by
  unfold eraseL
  rw [List.filter_eq_self]
  intro e he
  simp only [ne_eq, decide_eq_true_eq]
  rintro rfl
  exact h (List.mem_map_of_mem he)

theorem length_eraseL {k : K} {l : List (K × V)} (nd : (l.map Prod.fst).Nodup)
    (h : k ∈ l.map Prod.fst) : (eraseL k l).length + 1 = l.length := by
  induction l with
  | nil => simp at h
  | cons e es ih =>
    rw [List.map_cons, List.nodup_cons] at nd
    by_cases he : e.1 = k
    · subst he
      have : eraseL e.1 (e :: es) = eraseL e.1 es := by simp [eraseL]
      rw [this, eraseL_of_not_mem nd.1, List.length_cons]
    · have h2 : k ∈ es.map Prod.fst := by
        rcases List.mem_cons.1 h with h | h
        · exact absurd h.symm he
        · exact h
      have : eraseL k (e :: es) = e :: eraseL k es := by simp [eraseL, he]
      rw [this, List.length_cons, List.length_cons, ih nd.2 h2]

theorem size_erase_of_some {m : AMap K V} {k : K} (h : (m.get k).isSome) :
    (m.erase k).size + 1 = m.size :=
  length_eraseL m.nodup (lookupL_isSome_iff.1 h)

theorem size_erase_of_none {m : AMap K V} {k : K} (h : m.get k = none) :
    (m.erase k).size = m.size := by
  have : k ∉ m.entries.map Prod.fst := by
    intro h'; have := lookupL_isSome_iff.2 h'; simp [get] at h; simp [h] at this
  simp [size, erase, eraseL_of_not_mem this]

theorem size_insert (m : AMap K V) (k : K) (v : V) :
    (m.insert k v).size = (m.erase k).size + 1 := by
  simp [size, insert, erase]

/-- Two maps are equivalent if they answer every lookup alike. -/
def Equiv (m m' : AMap K V) : Prop := ∀ k, m.get k = m'.get k

/-- Build a map from a list, later entries overriding earlier ones (`HashMap::from_iter`). -/
def ofList (l : List (K × V)) : AMap K V := l.foldl (fun m e => m.insert e.1 e.2) empty

end AMap

/-- `HashSet<A>`: elements in some iteration order, pairwise different. -/
structure FSet (A : Type) where
  elems : List A
  nodup : elems.Nodup

namespace FSet
variable {A : Type} [DecidableEq A]

instance : Membership A (FSet A) := ⟨fun s a => a ∈ s.elems⟩

theorem mem_def {s : FSet A} {a : A} : a ∈ s ↔ a ∈ s.elems := Iff.rfl

instance (a : A) (s : FSet A) : Decidable (a ∈ s) := inferInstanceAs (Decidable (a ∈ s.elems))

/-- `HashSet::new`. -/
def empty : FSet A := ⟨[], List.nodup_nil⟩

instance : Inhabited (FSet A) := ⟨empty⟩

/-- `HashSet::insert`. -/
def insert (s : FSet A) (a : A) : FSet A :=
  if h : a ∈ s.elems then s else ⟨a :: s.elems, List.nodup_cons.2 ⟨h, s.nodup⟩⟩

/-- `HashSet::remove`. -/
def erase (s : FSet A) (a : A) : FSet A := ⟨s.elems.filter (fun x => decide (x ≠ a)), s.nodup.filter _⟩

/-- `HashSet::is_empty`. -/
def isEmpty (s : FSet A) : Bool := s.elems.isEmpty

/-- `Extend::extend`. -/
def insertMany (s : FSet A) (l : List A) : FSet A := l.foldl insert s

/-- remove several elements. -/
def eraseMany (s : FSet A) (l : List A) : FSet A := l.foldl erase s

/-- `HashSet::from_iter`. -/
def ofList (l : List A) : FSet A := insertMany empty l

/-- `HashSet::difference`, collected. -/
def diff (s t : FSet A) : List A := s.elems.filter (fun x => decide (x ∉ t))

@[simp, grind =] theorem mem_empty (a : A) : a ∈ (empty : FSet A) ↔ False := by
  simp [mem_def, empty]

@[simp, grind =] theorem mem_insert {s : FSet A} {a b : A} : b ∈ s.insert a ↔ b = a ∨ b ∈ s := by
  unfold insert
  split
  · rename_i h
    constructor
    · exact Or.inr
    · rintro (rfl | h')
      · exact h
      · exact h'
  · simp [mem_def]

@[simp, grind =] theorem mem_erase {s : FSet A} {a b : A} : b ∈ s.erase a ↔ b ≠ a ∧ b ∈ s := by
  simp [mem_def, erase, and_comm]

@[simp, grind =] theorem mem_insertMany {s : FSet A} {l : List A} {b : A} :
    b ∈ s.insertMany l ↔ b ∈ l ∨ b ∈ s := by
  unfold insertMany
  induction l generalizing s with
  | nil => simp
  | cons a l ih => simp only [List.foldl_cons, ih, mem_insert, List.mem_cons]; grind

@[simp, grind =] theorem mem_eraseMany {s : FSet A} {l : List A} {b : A} :
    b ∈ s.eraseMany l ↔ b ∉ l ∧ b ∈ s := by
  unfold eraseMany
  induction l generalizing s with
  | nil => simp
  | cons a l ih => simp only [List.foldl_cons, ih, mem_erase, List.mem_cons]; grind

@[simp, grind =] theorem mem_ofList {l : List A} {b : A} : b ∈ ofList l ↔ b ∈ l := by
  simp [ofList]

theorem isEmpty_iff {s : FSet A} : s.isEmpty = true ↔ ∀ a, a ∉ s := by
  simp only [isEmpty, List.isEmpty_iff, mem_def]
  exact List.eq_nil_iff_forall_not_mem

@[simp] theorem mem_diff {s t : FSet A} {a : A} : a ∈ s.diff t ↔ a ∈ s ∧ a ∉ t := by
  simp [diff, mem_def]

theorem nodup_diff (s t : FSet A) : (s.diff t).Nodup := s.nodup.filter _

end FSet
end Verif

import Verif.Util.AMap

/-!
# Model of `cdn-broker/src/connections/versioned_map.rs`

`Debug`/`Hash`/`Clone` bounds are dropped.  Versions are Rust `u64`; they are kept as `Nat` and the
only arithmetic on them (`+= 1`) wraps at `2^64`, as in a release build (in a debug build the same
overflow panics).
-/

namespace Verif

/-- versioned_map.rs:28-31 `VersionedValue` (`value = none` is the tombstone). -/
structure VV (V : Type) where
  version : Nat
  value : Option V
deriving DecidableEq, Repr

/-- versioned_map.rs:39-52 `VersionedMap`. -/
structure VMap (K V C : Type) where
  /-- `underlying_map` -/
  map : AMap K (VV V)
  /-- `locally_modified_keys` -/
  modified : FSet K
  /-- `conflict_identity` -/
  ident : C

namespace VMap
variable {K V C : Type} [DecidableEq K] [DecidableEq V] [LT C] [DecidableLT C]

/-- versioned_map.rs:61-67 `new`. -/
def new (c : C) : VMap K V C := ⟨AMap.empty, FSet.empty, c⟩

/-- versioned_map.rs:70-72 `is_empty`. -/
def isEmpty (m : VMap K V C) : Bool := m.map.isEmpty

/-- versioned_map.rs:76-81 `get`: tombstones read as absent. -/
def get (m : VMap K V C) (k : K) : Option V := (m.map.get k).bind VV.value

/-- `entry.version += 1` on a `u64`, versioned_map.rs:94 (release build: wraps). -/
def bump (v : Nat) : Nat := (v + 1) % 2 ^ 64

/-- versioned_map.rs:84-113 `modify_local`. -/
def modifyLocal (m : VMap K V C) (k : K) (v : Option V) : VMap K V C :=
  { m with
    map :=
      match m.map.get k with
      -- occupied entry, lines 87-99
      | some e => m.map.insert k ⟨if k ∈ m.modified then e.version else bump e.version, v⟩
      -- vacant entry, lines 102-108
      | none => m.map.insert k ⟨1, v⟩
    -- line 112
    modified := m.modified.insert k }

/-- versioned_map.rs:117-119 `insert`. -/
def insert (m : VMap K V C) (k : K) (v : V) : VMap K V C := m.modifyLocal k (some v)

/-- versioned_map.rs:123-125 `remove`. -/
def remove (m : VMap K V C) (k : K) : VMap K V C := m.modifyLocal k none

/-- versioned_map.rs:128-136 `remove_if_equals`. -/
def removeIfEquals (m : VMap K V C) (k : K) (v : V) : VMap K V C :=
  match m.map.get k with
  | some e => if e.value = some v then m.remove k else m
  | none => m

/-- versioned_map.rs:141-154 `remove_by_value_no_modify` (no caller in the code: the only call, in
`connections/mod.rs:323`, is commented out). -/
def removeByValueNoModify (m : VMap K V C) (v : V) : VMap K V C :=
  let ks := (m.map.entries.filter (fun e => decide (e.2.value = some v))).map Prod.fst
  { m with map := ks.foldl AMap.erase m.map }

/-- versioned_map.rs:158-164 `get_full`. -/
def getFull (m : VMap K V C) : VMap K V C := ⟨m.map, FSet.empty, m.ident⟩

/-- One iteration of the loop of `diff`, versioned_map.rs:174-186.  The accumulator is
`(underlying_map, diff_map)`. -/
def diffStep (acc : AMap K (VV V) × AMap K (VV V)) (k : K) : AMap K (VV V) × AMap K (VV V) :=
  match acc.1.get k with
  | some e => (if e.value.isNone then acc.1.erase k else acc.1, acc.2.insert k e)
  | none => acc

/-- versioned_map.rs:168-194 `diff`.  Returns the new `self` and the returned map. -/
def diff (m : VMap K V C) : VMap K V C × VMap K V C :=
  let r := m.modified.elems.foldl diffStep (m.map, AMap.empty)
  (⟨r.1, FSet.empty, m.ident⟩, ⟨r.2, FSet.empty, m.ident⟩)

/-- One iteration of the loop of `merge`, versioned_map.rs:206-265, for a remote map with conflict
identity `rc`.  The accumulator is `(self, changes)`. -/
def mergeStep (rc : C) (acc : VMap K V C × List (K × Option V)) (re : K × VV V) :
    VMap K V C × List (K × Option V) :=
  let m := acc.1
  match m.map.get re.1 with
  | some l =>
    -- lines 210-253: the remote entry is taken if it is newer, or equally new from a greater identity
    if l.version < re.2.version ∨ (re.2.version = l.version ∧ m.ident < rc) then
      ({ m with
         map := match re.2.value with
           | some v => m.map.insert re.1 ⟨re.2.version, some v⟩
           | none => m.map.erase re.1
         modified := m.modified.erase re.1 },
       acc.2 ++ [(re.1, re.2.value)])
    else acc
  | none =>
    -- lines 254-264
    if re.2.value.isSome then
      ({ m with map := m.map.insert re.1 re.2 }, acc.2 ++ [(re.1, re.2.value)])
    else acc

/-- versioned_map.rs:201-269 `merge`.  Returns the new `self` and the list of changes. -/
def merge (m r : VMap K V C) : VMap K V C × List (K × Option V) :=
  r.map.entries.foldl (mergeStep r.ident) (m, [])

end VMap
end Verif

import Verif.Util.AMap

/-!
# Model of `cdn-broker/src/connections/broadcast/relational_map.rs`
-/

namespace Verif

/-- relational_map.rs:14-17 `RelationalMap`. -/
structure RMap (K V : Type) where
  /-- `key_to_values` -/
  k2v : AMap K (FSet V)
  /-- `value_to_keys` -/
  v2k : AMap V (FSet K)

namespace RMap
variable {K V : Type} [DecidableEq K] [DecidableEq V]

/-- relational_map.rs:33-35 `new`. -/
def new : RMap K V := ⟨AMap.empty, AMap.empty⟩

/-- relational_map.rs:39-47 `get_keys_by_value` (`unwrap_or(&HashSet::new())` is the `none` row). -/
def getKeysByValue (m : RMap K V) (v : V) : List K :=
  match m.v2k.get v with
  | some ks => ks.elems
  | none => []

/-- relational_map.rs:51-54 `get_values`. -/
def getValues (m : RMap K V) : List V := m.v2k.keys

/-- `entry(k).or_default()`, used at relational_map.rs:59-61 and 66. -/
def bucket {A B : Type} [DecidableEq A] (m : AMap A (FSet B)) (a : A) : FSet B :=
  match m.get a with
  | some s => s
  | none => FSet.empty

/-- relational_map.rs:57-68 `associate_key_with_values`. -/
def associate (m : RMap K V) (k : K) (vs : List V) : RMap K V where
  k2v := m.k2v.insert k ((bucket m.k2v k).insertMany vs)
  v2k := vs.foldl (fun acc v => acc.insert v ((bucket acc v).insert k)) m.v2k

/-- Remove `k` from the bucket of `v` and drop the bucket if it is now empty,
relational_map.rs:75-83 and 105-113. -/
def dropFrom (k : K) (acc : AMap V (FSet K)) (v : V) : AMap V (FSet K) :=
  match acc.get v with
  | some ks => if (ks.erase k).isEmpty then acc.erase v else acc.insert v (ks.erase k)
  | none => acc

/-- relational_map.rs:71-96 `dissociate_keys_from_value`. -/
def dissociate (m : RMap K V) (k : K) (vs : List V) : RMap K V where
  v2k := vs.foldl (dropFrom k) m.v2k
  k2v :=
    match m.k2v.get k with
    | some kvs => if (kvs.eraseMany vs).isEmpty then m.k2v.erase k
                  else m.k2v.insert k (kvs.eraseMany vs)
    | none => m.k2v

/-- relational_map.rs:100-116 `remove_key`. -/
def removeKey (m : RMap K V) (k : K) : RMap K V :=
  match m.k2v.get k with
  | some vs => ⟨m.k2v.erase k, vs.elems.foldl (dropFrom k) m.v2k⟩
  | none => m

end RMap
end Verif

import Verif.Util.AMap

/-!
# Deleting the entries of a map that fail a test
-/

namespace Verif
namespace AMap
variable {K V : Type} [DecidableEq K]

theorem nodup_filter {l : List (K × V)} (nd : (l.map Prod.fst).Nodup) (p : K × V → Bool) :
    ((l.filter p).map Prod.fst).Nodup :=
  nd.sublist (List.filter_sublist.map _)

/-- Keep the entries satisfying `p`. -/
def retain (m : AMap K V) (p : K → V → Bool) : AMap K V :=
  ⟨m.entries.filter (fun e => p e.1 e.2), nodup_filter m.nodup _⟩

theorem get_retain (m : AMap K V) (p : K → V → Bool) (k : K) :
    (m.retain p).get k = (m.get k).filter (p k) := by
  cases h : (m.retain p).get k with
  | some v =>
    have := mem_entries.2 h
    simp only [retain, List.mem_filter] at this
    rw [mem_entries.1 this.1, Option.filter_some, if_pos this.2]
  | none =>
    cases h' : m.get k with
    | none => rfl
    | some v =>
      rw [Option.filter_some]
      split
      · rename_i hp
        have hm : (k, v) ∈ (m.retain p).entries := List.mem_filter.2 ⟨mem_entries.2 h', hp⟩
        rw [mem_entries.1 hm] at h
        cases h
      · rfl

end AMap
end Verif

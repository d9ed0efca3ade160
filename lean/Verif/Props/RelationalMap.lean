import Verif.Lemmas.RelationalMap

/-!
# Property C07: the subscription index is a faithful relation
-/

set_option linter.unusedSectionVars false

namespace Verif.Props.RelationalMap
open Verif

variable {K V : Type} [DecidableEq K] [DecidableEq V]

inductive Op (K V : Type) where
  | associate (k : K) (vs : List V)
  | dissociate (k : K) (vs : List V)
  | removeKey (k : K)

def step (m : RMap K V) : Op K V → RMap K V
  | .associate k vs => m.associate k vs
  | .dissociate k vs => m.dissociate k vs
  | .removeKey k => m.removeKey k

def run (m : RMap K V) (ops : List (Op K V)) : RMap K V := ops.foldl step m

/-- Specification: a plain relation between keys and values. -/
def specStep (R : K → V → Prop) : Op K V → (K → V → Prop)
  | .associate k vs => fun x y => R x y ∨ (x = k ∧ y ∈ vs)
  | .dissociate k vs => fun x y => R x y ∧ ¬ (x = k ∧ y ∈ vs)
  | .removeKey k => fun x y => R x y ∧ x ≠ k

def specRun (R : K → V → Prop) (ops : List (Op K V)) : K → V → Prop := ops.foldl specStep R

theorem inv_step (m : RMap K V) (h : m.Inv) (op : Op K V) : (step m op).Inv := by
  cases op with
  | associate k vs => exact RMap.inv_associate h k vs
  | dissociate k vs => exact RMap.inv_dissociate h k vs
  | removeKey k => exact RMap.inv_removeKey h k

theorem run_spec (m : RMap K V) (h : m.Inv) (R : K → V → Prop) (hR : ∀ k v, m.Bwd k v ↔ R k v)
    (ops : List (Op K V)) :
    (run m ops).Inv ∧ ∀ k v, (run m ops).Bwd k v ↔ specRun R ops k v := by
  induction ops generalizing m R with
  | nil => exact ⟨h, hR⟩
  | cons op ops ih =>
    refine ih _ (inv_step m h op) _ ?_
    intro k v
    cases op with
    | associate k' vs =>
      simp only [step, specStep, RMap.bwd_associate, hR]; exact or_comm
    | dissociate k' vs =>
      simp only [step, specStep, RMap.bwd_dissociate, hR]; exact and_comm
    | removeKey k' =>
      simp only [step, specStep, RMap.bwd_removeKey h, hR]; exact and_comm

/-- **C07.** After any history the two queries answer exactly like the plain relation, without
repetitions. -/
theorem C07_index_is_relation (ops : List (Op K V)) :
    let m := run RMap.new ops
    let R := specRun (fun (_ : K) (_ : V) => False) ops
    (∀ v k, k ∈ m.getKeysByValue v ↔ R k v) ∧
    (∀ v, (m.getKeysByValue v).Nodup) ∧
    (∀ v, v ∈ m.getValues ↔ ∃ k, R k v) ∧
    m.getValues.Nodup := by
  intro m R
  obtain ⟨hi, hr⟩ := run_spec (RMap.new : RMap K V) RMap.inv_new (fun _ _ => False)
    (by simp [RMap.Bwd, RMap.new]) ops
  refine ⟨fun v k => ?_, fun v => RMap.nodup_getKeysByValue _ v, fun v => ?_, RMap.nodup_getValues _⟩
  · rw [RMap.mem_getKeysByValue]; exact hr k v
  · rw [RMap.mem_getValues hi]
    constructor
    · rintro ⟨k, hk⟩; exact ⟨k, (hr k v).1 hk⟩
    · rintro ⟨k, hk⟩; exact ⟨k, (hr k v).2 hk⟩

/-- **C07**, both directions: the key-to-values direction stores the same relation. -/
theorem C07_directions_agree (ops : List (Op K V)) (k : K) (v : V) :
    (∃ s, (run RMap.new ops).k2v.get k = some s ∧ v ∈ s) ↔
    (∃ s, (run RMap.new ops).v2k.get v = some s ∧ k ∈ s) :=
  (run_spec (RMap.new : RMap K V) RMap.inv_new (fun _ _ => False)
    (by simp [RMap.Bwd, RMap.new]) ops).1.agree k v

/-- Non-trivial instance: overlapping subscriptions, repeated values, an unsubscribe and a removal. -/
example :
    let m := run (RMap.new : RMap Nat Nat)
      [.associate 1 [10, 11, 10], .associate 2 [11, 12], .dissociate 1 [11, 99], .removeKey 2,
       .associate 3 []]
    m.getKeysByValue 10 = [1] ∧ m.getKeysByValue 11 = [] ∧ m.getValues = [10] := by
  refine ⟨by rfl, by rfl, by rfl⟩

end Verif.Props.RelationalMap

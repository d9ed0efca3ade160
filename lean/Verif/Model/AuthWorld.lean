import Verif.Model.Auth
import Verif.Props.DiscoverySpec

/-!
# Many processes authenticating against one store

A history interleaves the effects of any number of processes, each running one of the six flows, with
steps of the store taken on behalf of others (heartbeats, expiry, whitelist updates).
-/

namespace Verif.Auth
open Verif Verif.Disc

variable {Pub Priv : Type}

/-- A kind of discovery store, given by its atomic steps `L`. -/
structure Store (L : Type) where
  /-- what is observed of permits in a history of steps -/
  trace : List L → List PEv
  /-- identifiers in the step can be written down and read back -/
  ok : L → Prop
  /-- the step is `issue_permit` for key `k` at broker `b`, drawing number `p` -/
  isIssue : BrokerId → Nat → Bytes → L → Prop
  /-- the step is (the last statement of) `validate_permit(b, p)` -/
  isValidate : BrokerId → Nat → L → Prop

/-- redis.rs, see Model/Discovery.lean. -/
def redisStore (global : Bool) : Store RLabel where
  trace ls := (Redis.new.run global ls).2
  ok := RLabel.Ok
  isIssue b p k l := ∃ dur t r, l = .issue b k dur t r ∧ r.toNat = p
  isValidate b p l := ∃ t, l = .validate b p t

/-- embedded.rs, see Model/Discovery.lean. -/
def embStore (global : Bool) : Store ELabel where
  trace ls := (Emb.new.run global ls).2
  ok := ELabel.Ok
  isIssue b p k l := ∃ dur t r, l = .issue b k dur t r ∧ r.toNat = p
  isValidate b p l := l = .take b p

/-- An entry of a history: an effect of process `i` with its answer and the steps of the store it caused,
or a step of the store on behalf of somebody else. -/
inductive GEv (L : Type) where
  | act (i : Nat) (e : Ev) (ls : List L)
  | other (l : L)

/-- The steps of the store in a history. -/
def labels {L : Type} : List (GEv L) → List L
  | [] => []
  | .act _ _ ls :: h => ls ++ labels h
  | .other l :: h => l :: labels h

/-- The effects of process `i` in a history. -/
def proj {L : Type} (i : Nat) : List (GEv L) → List Ev
  | [] => []
  | .act j e _ :: h => if j = i then e :: proj i h else proj i h
  | .other _ :: h => proj i h

/-- What the steps `new` add to the trace after the steps `old`. -/
def Store.added {L : Type} (st : Store L) (old new : List L) : List PEv :=
  (st.trace (old ++ new)).drop (st.trace old).length

/-- The entry `g` agrees with the store, whose steps so far are `old`. A call that issues or validates
reports what its step did, or an error: then the step may or may not have been taken. Calls that only read
may report anything here. Only the flows issue and validate permits. -/
def Fits {L : Type} (st : Store L) (old : List L) : GEv L → Prop
  | .act _ ⟨.issue b k, a⟩ ls =>
    ls = [] ∧ a = none ∨
      ∃ l p, ls = [l] ∧ st.ok l ∧ st.isIssue b p k l ∧
        ∀ r : UInt64, a = some r → r.toNat = p ∧ ∃ exp, PEv.issued b p k exp ∈ st.added old [l]
  | .act _ ⟨.validate b p, a⟩ ls =>
    ls = [] ∧ a = none ∨
      ∃ l, ls = [l] ∧ st.ok l ∧ st.isValidate b p.toNat l ∧
        ∀ res, a = some res → PEv.asked b p.toNat res ∈ st.added old [l]
  | .act _ _ ls => ls = []
  | .other l => st.ok l ∧ (∀ b p k, ¬ st.isIssue b p k l) ∧ (∀ b p, ¬ st.isValidate b p l)

/-- All entries of the history agree with the store. -/
def Consistent {L : Type} (st : Store L) (h : List (GEv L)) : Prop :=
  ∀ pre g post, h = pre ++ g :: post → Fits st (labels pre) g

/-- What a process may be doing: one of the six flows. -/
inductive Role (Pub Priv : Type) where
  | marshal
  | userToMarshal (pk : Pub) (sk : Priv)
  | userToBroker (permit : UInt64) (topics : List Topic)
  | broker (self : BrokerId)
  | brokerToBroker (pk : Pub) (sk : Priv)
  | brokerFromBroker (self : BrokerId) (key : Pub)

/-- The effects are those of the flow, possibly stopped on the way. -/
def Plays [DecidableEq Pub] (S : Scheme Pub Priv) (tr : List Ev) : Role Pub Priv → Prop
  | .marshal => ∃ r, Exec (marshalVerifyUser S) tr r
  | .userToMarshal pk sk => ∃ r, Exec (userWithMarshal S pk sk) tr r
  | .userToBroker permit topics => ∃ r, Exec (userWithBroker permit topics) tr r
  | .broker self => ∃ r, Exec (brokerVerifyUser S self) tr r
  | .brokerToBroker pk sk => ∃ r, Exec (brokerWithBroker S pk sk) tr r
  | .brokerFromBroker self key => ∃ r, Exec (brokerVerifyBroker S self key) tr r

end Verif.Auth

import Verif.Model.Discovery

/-!
# Several processes setting the whitelist at once

`set_whitelist` on SQLite is three statements (`Emb.WStmt`); those of several calls interleave, and other
processes use the store in between. On Redis a call is one step (`RLabel.setWhitelist`).
-/

namespace Verif.Disc

/-- How far a call of `set_whitelist` is (embedded.rs:325-354). -/
inductive WPhase where
  /-- before line 329 -/
  | drop
  /-- before line 331 -/
  | create
  /-- before line 335 -/
  | insert
  /-- line 353, or the error of lines 347-351 -/
  | returned (ok : Bool)
deriving DecidableEq

/-- A call with the keys it was given. -/
structure WCall where
  ks : List Bytes
  phase : WPhase
deriving DecidableEq

/-- The store and all calls made so far. -/
structure WNet where
  s : Emb
  calls : List WCall

/-- What can happen next. -/
inductive WLabel where
  /-- somebody calls `set_whitelist(ks)` -/
  | call (ks : List Bytes)
  /-- the next statement of the `i`-th call is executed -/
  | stmt (i : Nat)
  /-- something else is done with the store -/
  | other (l : ELabel)

/-- Whether a step of the store is one of the statements of `set_whitelist`. -/
def ELabel.setsWhitelist : ELabel → Bool
  | .whitelist _ => true
  | _ => false

namespace WNet

/-- One step. A label that is impossible in the current state does nothing. The statements are those of
`Emb.wstep`, in the order of embedded.rs:329, 331, 335; only the last one can fail. -/
def step (global : Bool) (n : WNet) : WLabel → WNet
  | .call ks => { n with calls := n.calls ++ [⟨ks, .drop⟩] }
  | .stmt i =>
    match n.calls[i]? with
    | some ⟨ks, .drop⟩ => ⟨(n.s.wstep .drop).1, n.calls.set i ⟨ks, .create⟩⟩
    | some ⟨ks, .create⟩ => ⟨(n.s.wstep .create).1, n.calls.set i ⟨ks, .insert⟩⟩
    | some ⟨ks, .insert⟩ =>
      ⟨(n.s.wstep (.insert ks)).1, n.calls.set i ⟨ks, .returned (n.s.wstep (.insert ks)).2⟩⟩
    | _ => n
  | .other l => if l.setsWhitelist then n else { n with s := (n.s.step global l).1 }

/-- Any schedule. -/
def run (global : Bool) (n : WNet) (ls : List WLabel) : WNet := ls.foldl (step global) n

end WNet
end Verif.Disc

import Verif.Model.Connections

/-!
# Model of the whitelist task

`run_whitelist_task` (cdn-broker/src/tasks/broker/whitelist.rs 19-44): one pass of its loop, with whatever the
other tasks of the broker do to the connection table while it waits for the store.
-/

namespace Verif.Whitelist
open Verif

variable {U B T H : Type} [DecidableEq U] [DecidableEq B] [DecidableEq T] [DecidableEq H]
  [LT B] [DecidableLT B]

/-- whitelist.rs:31-42, for one user of the list: what other tasks do until the answer is there, and the answer
(`none`: an error). -/
structure Visit (U B T H : Type) where
  user : U
  meanwhile : List (Conns.Op U B T H)
  answer : Option Bool

/-- whitelist.rs:32-41: `!check_whitelist(..).unwrap_or(true)`, then `remove_user`. -/
def visit (s : Conns U B T H) (v : Visit U B T H) : Conns U B T H :=
  let s := s.run v.meanwhile
  if !v.answer.getD true then s.removeUser v.user else s

/-- whitelist.rs:28-43: one pass over the users. In a real pass the visited users are `s.allUsers` (line 28). -/
def pass (s : Conns U B T H) (vs : List (Visit U B T H)) : Conns U B T H := vs.foldl visit s

end Verif.Whitelist

import Verif.Model.Discovery

/-!
# Checking the whitelist, command by command

`check_whitelist` asks twice: is there a whitelist, and is the key in it. Other processes use the store in
between (`Model/Discovery.lean` has the undisturbed calls).
-/

namespace Verif.Disc
open Verif

/-- redis.rs:303-326 `check_whitelist`: `SCARD whitelist` in the state `s` (nothing there: `Ok(true)`), then,
after the steps `mid` of others, `SISMEMBER whitelist k`. -/
def Redis.checkAt (global : Bool) (s : Redis) (mid : List RLabel) (k : Bytes) : Bool :=
  if s.whitelist.isEmpty then true else decide (k ∈ (s.run global mid).1.whitelist)

/-- embedded.rs:360-396 `check_whitelist`: does the table exist in the state `s` (if not, `Ok(true)`); then,
after the steps `mid` of others, is the key in it. Asking a table that does not exist is an error. -/
def Emb.checkAt (global : Bool) (s : Emb) (mid : List ELabel) (k : Bytes) : Option Bool :=
  match s.whitelist with
  | none => some true
  | some _ =>
    match (s.run global mid).1.whitelist with
    | none => none
    | some w => some (decide (k ∈ w))

end Verif.Disc

import Verif.Model.Connections

/-!
# Model of user sync between the brokers of a mesh

`tasks/broker/sync.rs:70-83` (`partial_user_sync`, called after every user connect with the default
`strong-consistency` feature, tasks/user/handler.rs:79-90, and every ten seconds, sync.rs:129-144) and
the `UserSync` arm of `broker_receive_loop` (tasks/broker/handler.rs:164-173).

`B` is the type of the brokers of the mesh. Links are reliable and in order; every broker is linked to
every other one for the whole run, so the full syncs sent when a link comes up
(tasks/broker/handler.rs:97-117) are empty and not modelled here.
-/

namespace Verif

/-- All brokers and the user sync messages under way from one to the other, oldest first. -/
structure UNet (U B T H : Type) where
  st : B → Conns U B T H
  ch : B → B → List (DirectMap U B)

/-- What can happen next. -/
inductive ULabel (U B T H : Type) where
  /-- some task of broker `b` makes a call on its table -/
  | call (b : B) (op : Conns.Op U B T H)
  /-- broker `b` runs `partial_user_sync` -/
  | sync (b : B)
  /-- broker `b'` handles the next user sync message from `b` -/
  | deliver (b b' : B)

namespace UNet
variable {U B T H : Type} [DecidableEq U] [DecidableEq B] [DecidableEq T] [DecidableEq H]
  [LT B] [DecidableLT B]

/-- All brokers freshly started. -/
def start : UNet U B T H := ⟨fun b => Conns.new b, fun _ _ => []⟩

/-- One step.
* `sync`: connections/mod.rs:143-150 under the write lock, then sync.rs:77-80, one message to every
  other broker if there is anything to say.
* `deliver`: tasks/broker/handler.rs:164-173 `apply_user_sync` under the write lock. -/
def step (n : UNet U B T H) : ULabel U B T H → UNet U B T H
  | .call b op => { n with st := fun x => if x = b then (n.st b).step op else n.st x }
  | .sync b =>
    let r := (n.st b).getPartialUserSync
    { st := fun x => if x = b then r.1 else n.st x
      ch := fun x y =>
        match r.2 with
        | some m => if x = b ∧ y ≠ b then n.ch x y ++ [m] else n.ch x y
        | none => n.ch x y }
  | .deliver b b' =>
    match n.ch b b' with
    | [] => n
    | m :: rest =>
      { st := fun x => if x = b' then (n.st b').applyUserSync m else n.st x
        ch := fun x y => if x = b ∧ y = b' then rest else n.ch x y }

/-- Any schedule. -/
def run (n : UNet U B T H) (ls : List (ULabel U B T H)) : UNet U B T H := ls.foldl step n

end UNet
end Verif

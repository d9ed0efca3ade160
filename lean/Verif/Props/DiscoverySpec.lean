import Verif.Model.Discovery
import Verif.Props.Ident

/-!
# What the properties of the discovery store talk about

Histories of atomic steps (`ELabel`, `RLabel`), the trace of what is observed of permits (`PEv`), and,
in terms of these only, when a permit is valid and what the last heartbeat of a broker was.
-/

namespace Verif.Disc
open Verif Verif.Props.Ident

/-- An identifier that can be written down and read back. -/
def Good (b : BrokerId) : Prop := NoSlash b.pub ∧ NoSlash b.priv

/-- All identifiers in a step are good. -/
def ELabel.Ok : ELabel → Prop
  | .putBroker self _ _ _ => Good self
  | .issue b _ _ _ _ => Good b
  | .take b _ => Good b
  | _ => True

/-- All identifiers in a step are good. -/
def RLabel.Ok : RLabel → Prop
  | .heartbeat self _ _ _ => Good self
  | .issue b _ _ _ _ => Good b
  | .validate b _ _ => Good b
  | _ => True

/-! ## Validity of a permit, from the trace -/

/-- The event leaves a permit `p` for `b` expiring at `exp` alone: it is not another issuance or a
redemption of it, and not an enforcement of expiry after `exp`. `Id b' b`: a permit number used for `b'`
and for `b` means the same permit. -/
def Keeps (Id : BrokerId → BrokerId → Prop) (b : BrokerId) (p exp : Nat) : PEv → Prop
  | .issued b' p' _ _ => ¬ (p' = p ∧ Id b' b)
  | .asked b' p' (some _) => ¬ (p' = p ∧ Id b' b)
  | .asked _ _ none => True
  | .swept t => t ≤ exp

/-- In the trace, permit `p` was issued for key `k` to a broker whose permits `b` may redeem (`Who`), and
nothing has happened to it since. -/
def Valid (Id Who : BrokerId → BrokerId → Prop) (tr : List PEv) (b : BrokerId) (p : Nat) (k : Bytes)
    (exp : Nat) : Prop :=
  ∃ b0 pre mid, Who b0 b ∧ tr = pre ++ .issued b0 p k exp :: mid ∧ ∀ e ∈ mid, Keeps Id b p exp e

/-- In SQLite a permit number means one permit, whoever asks. -/
def EId (_ _ : BrokerId) : Prop := True
/-- Who may redeem a permit issued for `b0`: with the feature `global-permits` everyone, otherwise `b0`. -/
def MayRedeem (global : Bool) (b0 b : BrokerId) : Prop := global = true ∨ b0 = b

/-! ## Heartbeats, from the history -/

/-- In the history `ls`, the last heartbeat `b` performed successfully reported `num` and is good until
`exp`. (The SQLite backend stores the load as a `u32` and fails for larger ones.) -/
def ELast (ls : List ELabel) (b : BrokerId) (num exp : Nat) : Prop :=
  ∃ pre mid dur t, ls = pre ++ .putBroker b num dur t :: mid ∧ num < 2 ^ 32 ∧ exp = t + dur ∧
    ∀ num' dur' t', num' < 2 ^ 32 → ELabel.putBroker b num' dur' t' ∉ mid

/-- The same for Redis, where every heartbeat succeeds. -/
def RLast (ls : List RLabel) (b : BrokerId) (num exp : Nat) : Prop :=
  ∃ pre mid dur t, ls = pre ++ .heartbeat b num dur t :: mid ∧ exp = t + dur ∧
    ∀ num' dur' t', RLabel.heartbeat b num' dur' t' ∉ mid

/-- No step of the history read a clock later than `now`. -/
def EBefore (now : Nat) : ELabel → Prop
  | .putBroker _ _ _ t => t ≤ now
  | .pruneBrokers t => t ≤ now
  | .prunePermits t => t ≤ now
  | .issue _ _ _ t _ => t ≤ now
  | _ => True

def RBefore (now : Nat) : RLabel → Prop
  | .heartbeat _ _ _ t => t ≤ now
  | .expire t => t ≤ now
  | .issue _ _ _ t _ => t ≤ now
  | .validate _ _ t => t ≤ now
  | _ => True

end Verif.Disc

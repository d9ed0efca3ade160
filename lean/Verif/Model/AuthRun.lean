import Verif.Model.Auth

/-!
# Two parties running authentication flows against each other

The connection between them is two FIFO queues without loss (what `Verif.Props.Frame` C25–C27 shows of the
connection layer, for a connection that does not fail). Clocks and the discovery store answer according to
a relation `Env`; other processes may change the store between any two steps.
-/

namespace Verif.Auth
open Verif

/-- Effects other than messages. -/
def Eff.outer : Eff → Bool
  | .recv => false
  | .send _ => false
  | _ => true

/-- How clocks and store answer: from state `s`, effect `e` can be answered by `a`, with new state. -/
def Env (σ : Type) := σ → (e : Eff) → Ans e → σ → Prop

variable {σ α β : Type}

/-- A step of one party: program, inbox and store before; program, inbox, sent messages, store after. -/
inductive PStep (env : Env σ) : Prog α → List Msg → σ → Prog α → List Msg → List Msg → σ → Prop
  | send (m : Msg) (k : Bool → Prog α) (inb : List Msg) (s : σ) :
      PStep env (.op (.send m) k) inb s (k true) inb [m] s
  | recv (m : Msg) (k : Option Msg → Prog α) (inb : List Msg) (s : σ) :
      PStep env (.op .recv k) (m :: inb) s (k (some m)) inb [] s
  | outer (e : Eff) (k : Ans e → Prog α) (a : Ans e) (inb : List Msg) (s s' : σ) (he : e.outer = true)
      (h : env s e a s') : PStep env (.op e k) inb s (k a) inb [] s'

/-- Both parties, the two queues and the store. -/
structure Conf (α β σ : Type) where
  p : Prog α
  q : Prog β
  toP : List Msg
  toQ : List Msg
  st : σ

/-- A step of one of the two parties. -/
inductive Step (envP envQ : Env σ) : Conf α β σ → Conf α β σ → Prop
  | left (c : Conf α β σ) (p' : Prog α) (inb out : List Msg) (s' : σ)
      (h : PStep envP c.p c.toP c.st p' inb out s') : Step envP envQ c ⟨p', c.q, inb, c.toQ ++ out, s'⟩
  | right (c : Conf α β σ) (q' : Prog β) (inb out : List Msg) (s' : σ)
      (h : PStep envQ c.q c.toQ c.st q' inb out s') : Step envP envQ c ⟨c.p, q', c.toP ++ out, inb, s'⟩

/-- `Run … n c c'`: from `c` the parties can get to `c'` in `n` steps, with steps `other` of other processes
on the store in between. -/
inductive Run (envP envQ : Env σ) (other : σ → σ → Prop) (c : Conf α β σ) : Nat → Conf α β σ → Prop
  | init : Run envP envQ other c 0 c
  | step (n : Nat) (c1 c2 : Conf α β σ) (h : Run envP envQ other c n c1) (hs : Step envP envQ c1 c2) :
      Run envP envQ other c (n + 1) c2
  | other (n : Nat) (c1 : Conf α β σ) (s' : σ) (h : Run envP envQ other c n c1) (hs : other c1.st s') :
      Run envP envQ other c n { c1 with st := s' }

/-- Two parties starting to talk. -/
def Conf.start (p : Prog α) (q : Prog β) (s : σ) : Conf α β σ := ⟨p, q, [], [], s⟩

end Verif.Auth

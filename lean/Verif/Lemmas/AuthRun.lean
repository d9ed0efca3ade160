import Verif.Model.AuthRun

/-! # Two-party runs: helper lemmas -/

namespace Verif.Auth
open Verif

variable {σ α β : Type}

theorem pstep_send {env : Env σ} {m : Msg} {k : Bool → Prog α} {inb : List Msg} {s : σ} {p' : Prog α}
    {inb' out : List Msg} {s' : σ} (h : PStep env (.op (.send m) k) inb s p' inb' out s') :
    p' = k true ∧ inb' = inb ∧ out = [m] ∧ s' = s := by
  cases h with
  | send => exact ⟨rfl, rfl, rfl, rfl⟩
  | outer e k a inb s s' he _ => cases he

theorem pstep_recv {env : Env σ} {k : Option Msg → Prog α} {inb : List Msg} {s : σ} {p' : Prog α}
    {inb' out : List Msg} {s' : σ} (h : PStep env (.op .recv k) inb s p' inb' out s') :
    ∃ m, inb = m :: inb' ∧ p' = k (some m) ∧ out = [] ∧ s' = s := by
  cases h with
  | recv m => exact ⟨m, rfl, rfl, rfl, rfl⟩
  | outer e k a inb s s' he _ => cases he

theorem pstep_outer {env : Env σ} {e : Eff} (he : e.outer = true) {k : Ans e → Prog α} {inb : List Msg}
    {s : σ} {p' : Prog α} {inb' out : List Msg} {s' : σ} (h : PStep env (.op e k) inb s p' inb' out s') :
    ∃ a, env s e a s' ∧ p' = k a ∧ inb' = inb ∧ out = [] := by
  cases h with
  | send => cases he
  | recv => cases he
  | outer e k a inb s s' _ h => exact ⟨a, h, rfl, rfl, rfl⟩

theorem pstep_ret {env : Env σ} {a : α} {inb : List Msg} {s : σ} {p' : Prog α} {inb' out : List Msg}
    {s' : σ} (h : PStep env (.ret a) inb s p' inb' out s') : False := by
  cases h

/-- A party waiting with an empty inbox cannot step. -/
theorem pstep_wait {env : Env σ} {k : Option Msg → Prog α} {s : σ} {p' : Prog α} {inb' out : List Msg}
    {s' : σ} (h : PStep env (.op .recv k) [] s p' inb' out s') : False := by
  obtain ⟨m, hm, _⟩ := pstep_recv h
  cases hm

/-- A family of conditions indexed by the number of steps, kept by all steps, holds of all runs. -/
theorem run_at {envP envQ : Env σ} {other : σ → σ → Prop} {c : Conf α β σ}
    {At : Nat → Conf α β σ → Prop} (h0 : At 0 c)
    (hstep : ∀ n c1 c2, At n c1 → Step envP envQ c1 c2 → At (n + 1) c2)
    (hother : ∀ n c1 s', At n c1 → other c1.st s' → At n { c1 with st := s' })
    {n : Nat} {c' : Conf α β σ} (h : Run envP envQ other c n c') : At n c' := by
  induction h with
  | init => exact h0
  | step n c1 c2 _ hs ih => exact hstep n c1 c2 ih hs
  | other n c1 s' _ hs ih => exact hother n c1 s' ih hs

end Verif.Auth

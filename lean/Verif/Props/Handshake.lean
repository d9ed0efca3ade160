import Verif.Model.Handshake
import Verif.Lemmas.AuthRun
import Verif.Props.Auth
import Verif.Props.AuthRun
import Verif.Props.Ident

/-!
# C63: when two honest brokers get to know each other; C37 for the dialing side
-/

namespace Verif.Props.Handshake
open Verif Verif.Auth Verif.Disc Verif.Props.Auth Verif.Props.AuthRun

variable {Pub Priv : Type}

/-! ## The dialing side of C37 -/

/-- `authenticate_with_broker` returns an identity exactly if it sent one message, with its own key and a
signature by its own private key over the time its clock showed, in the broker–broker namespace, and the
answer had permit 1 and that identity as its text. -/
theorem C37_dialer_iff (S : Scheme Pub Priv) (pk : Pub) (sk : Priv) (tr : List Auth.Ev) (id : BrokerId) :
    Exec (brokerWithBroker S pk sk) tr (some (some id)) ↔
    ∃ ts pkb sig text, S.serialize pk = some pkb ∧
      S.rawSign sk (ascii "espresso-cdn-broker-broker-auth" ++ le8 ts) = some sig ∧
      BrokerId.parse text.toList = some id ∧
      tr = [⟨.clock, some ts⟩, ⟨.send (.authKey pkb ts sig), true⟩,
        ⟨.recv, some (.authResponse 1 text)⟩] := by
  constructor
  · intro h
    unfold brokerWithBroker at h
    rcases exec_op.1 h with ⟨-, hr⟩ | ⟨a, t1, rfl, h1⟩
    · cases hr
    cases a with
    | none => cases h1
    | some ts =>
      simp only at h1
      cases hs : S.sign sk .brokerBroker ts with
      | none => rw [hs] at h1; cases h1
      | some sig =>
        rw [hs] at h1
        cases hp : S.serialize pk with
        | none => rw [hp] at h1; cases h1
        | some pkb =>
          rw [hp] at h1
          rcases exec_op.1 h1 with ⟨-, hr⟩ | ⟨a, t2, rfl, h2⟩
          · cases hr
          cases a with
          | false => cases h2
          | true =>
            rcases exec_op.1 h2 with ⟨-, hr⟩ | ⟨a, t3, rfl, h3⟩
            · cases hr
            cases a with
            | none => cases h3
            | some m =>
              cases m with
              | authResponse permit text =>
                simp only at h3
                by_cases h1 : permit = 1
                · rw [if_pos h1] at h3
                  subst h1
                  generalize hid : BrokerId.parse text.toList = o at h3
                  cases h3
                  exact ⟨ts, pkb, sig, text, rfl, hs, hid, rfl⟩
                · rw [if_neg h1] at h3; cases h3
              | _ => cases h3
  · rintro ⟨ts, pkb, sig, text, hp, hs, hid, rfl⟩
    unfold brokerWithBroker
    refine .op _ _ _ _ _ ?_
    have hs' : S.sign sk .brokerBroker ts = some sig := hs
    simp only [hs', hp]
    refine .op _ _ _ _ _ (.op _ _ _ _ _ ?_)
    simp only [if_true]
    rw [hid]
    exact .ret _

/-! ## Phases -/

/-- The state of the world: the clock readings so far, in order; `true` marks those of the dialing broker. -/
abbrev HConf := Conf (Option BrokerId) (Option BrokerId) (List (Bool × UInt64))

section
variable (pkb : Bytes) (sig : UInt64 → Bytes) (P Q : BrokerId)

def K (t : UInt64) : Msg := .authKey pkb t (sig t)
def R (b : BrokerId) : Msg := .authResponse 1 (String.ofList b.display)

def Refuse (p : Prog (Option BrokerId)) : Prop :=
  ∃ t k, p = .op (.send (.authResponse 0 t)) k ∧ k true = .ret none

def P5 (p : Prog (Option BrokerId)) : Prop := ∃ k, p = .op (.send (R P)) k ∧ k true = .ret (some Q)
def P4 (t3 : UInt64) (p : Prog (Option BrokerId)) : Prop :=
  ∃ k, p = .op .clock k ∧ ∀ t4, if tooOld t4 t3 then Refuse (k (some t4)) else P5 P Q (k (some t4))
def P3 (p : Prog (Option BrokerId)) : Prop :=
  ∃ k, p = .op .recv k ∧ ∀ t3, P4 P Q t3 (k (some (K pkb sig t3)))
def P2 (p : Prog (Option BrokerId)) : Prop :=
  ∃ k, p = .op .recv k ∧ P3 pkb sig P Q (k (some (R Q))) ∧ ∀ t, k (some (.authResponse 0 t)) = .ret none
def P1 (t1 : UInt64) (p : Prog (Option BrokerId)) : Prop :=
  ∃ k, p = .op (.send (K pkb sig t1)) k ∧ P2 pkb sig P Q (k true)
def P0 (p : Prog (Option BrokerId)) : Prop :=
  ∃ k, p = .op .clock k ∧ ∀ t1, P1 pkb sig P Q t1 (k (some t1))

def Q5 (p : Prog (Option BrokerId)) : Prop :=
  ∃ k, p = .op .recv k ∧ k (some (R P)) = .ret (some P) ∧ ∀ t, k (some (.authResponse 0 t)) = .ret none
def Q4 (t3 : UInt64) (p : Prog (Option BrokerId)) : Prop :=
  ∃ k, p = .op (.send (K pkb sig t3)) k ∧ Q5 P (k true)
def Q3 (p : Prog (Option BrokerId)) : Prop :=
  ∃ k, p = .op .clock k ∧ ∀ t3, Q4 pkb sig P t3 (k (some t3))
def Q2 (p : Prog (Option BrokerId)) : Prop :=
  ∃ k, p = .op (.send (R Q)) k ∧ Q3 pkb sig P (k true)
def Q1 (t1 : UInt64) (p : Prog (Option BrokerId)) : Prop :=
  ∃ k, p = .op .clock k ∧ ∀ t2, if tooOld t2 t1 then Refuse (k (some t2)) else Q2 pkb sig P Q (k (some t2))
def Q0 (p : Prog (Option BrokerId)) : Prop :=
  ∃ k, p = .op .recv k ∧ ∀ t1, Q1 pkb sig P Q t1 (k (some (K pkb sig t1)))

/-- The reachable situations, by number of steps. -/
def At : Nat → HConf → Prop
  | 0, c => P0 pkb sig P Q c.p ∧ Q0 pkb sig P Q c.q ∧ c.toP = [] ∧ c.toQ = [] ∧ c.st = []
  | 1, c => ∃ t1, P1 pkb sig P Q t1 c.p ∧ Q0 pkb sig P Q c.q ∧ c.toP = [] ∧ c.toQ = [] ∧ c.st = [(true, t1)]
  | 2, c => ∃ t1, P2 pkb sig P Q c.p ∧ Q0 pkb sig P Q c.q ∧ c.toP = [] ∧ c.toQ = [K pkb sig t1] ∧ c.st = [(true, t1)]
  | 3, c => ∃ t1, P2 pkb sig P Q c.p ∧ Q1 pkb sig P Q t1 c.q ∧ c.toP = [] ∧ c.toQ = [] ∧ c.st = [(true, t1)]
  | 4, c => ∃ t1 t2, P2 pkb sig P Q c.p ∧
      (tooOld t2 t1 = true ∧ Refuse c.q ∨ tooOld t2 t1 = false ∧ Q2 pkb sig P Q c.q) ∧
      c.toP = [] ∧ c.toQ = [] ∧ c.st = [(true, t1), (false, t2)]
  | 5, c => ∃ t1 t2, P2 pkb sig P Q c.p ∧
      (tooOld t2 t1 = true ∧ c.q = .ret none ∧ (∃ t, c.toP = [.authResponse 0 t]) ∨
        tooOld t2 t1 = false ∧ Q3 pkb sig P c.q ∧ c.toP = [R Q]) ∧
      c.toQ = [] ∧ c.st = [(true, t1), (false, t2)]
  | 6, c => c.toQ = [] ∧
      ((∃ t1 t2, tooOld t2 t1 = true ∧ c.p = .ret none ∧ c.q = .ret none ∧ c.toP = [] ∧ c.st = [(true, t1), (false, t2)]) ∨
       (∃ t1 t2 t3, tooOld t2 t1 = false ∧ P2 pkb sig P Q c.p ∧ Q4 pkb sig P t3 c.q ∧ c.toP = [R Q] ∧
          c.st = [(true, t1), (false, t2), (false, t3)]) ∨
       (∃ t1 t2, tooOld t2 t1 = false ∧ P3 pkb sig P Q c.p ∧ Q3 pkb sig P c.q ∧ c.toP = [] ∧ c.st = [(true, t1), (false, t2)]))
  | 7, c => c.toQ = [] ∧ ∃ t1 t2 t3, tooOld t2 t1 = false ∧ c.st = [(true, t1), (false, t2), (false, t3)] ∧
      (P2 pkb sig P Q c.p ∧ Q5 P c.q ∧ c.toP = [R Q, K pkb sig t3] ∨
       P3 pkb sig P Q c.p ∧ Q4 pkb sig P t3 c.q ∧ c.toP = [])
  | 8, c => c.toQ = [] ∧ ∃ t1 t2 t3, tooOld t2 t1 = false ∧ c.st = [(true, t1), (false, t2), (false, t3)] ∧
      P3 pkb sig P Q c.p ∧ Q5 P c.q ∧ c.toP = [K pkb sig t3]
  | 9, c => c.toQ = [] ∧ ∃ t1 t2 t3, tooOld t2 t1 = false ∧ c.st = [(true, t1), (false, t2), (false, t3)] ∧
      P4 P Q t3 c.p ∧ Q5 P c.q ∧ c.toP = []
  | 10, c => c.toQ = [] ∧ c.toP = [] ∧ ∃ t1 t2 t3 t4, tooOld t2 t1 = false ∧ c.st = [(true, t1), (false, t2), (false, t3), (true, t4)] ∧ Q5 P c.q ∧
      (tooOld t4 t3 = true ∧ Refuse c.p ∨ tooOld t4 t3 = false ∧ P5 P Q c.p)
  | 11, c => c.toP = [] ∧ ∃ t1 t2 t3 t4, tooOld t2 t1 = false ∧ c.st = [(true, t1), (false, t2), (false, t3), (true, t4)] ∧ Q5 P c.q ∧
      (tooOld t4 t3 = true ∧ c.p = .ret none ∧ (∃ t, c.toQ = [.authResponse 0 t]) ∨
       tooOld t4 t3 = false ∧ c.p = .ret (some Q) ∧ c.toQ = [R P])
  | 12, c => c.toP = [] ∧ c.toQ = [] ∧ ∃ t1 t2 t3 t4, tooOld t2 t1 = false ∧ c.st = [(true, t1), (false, t2), (false, t3), (true, t4)] ∧
      (tooOld t4 t3 = true ∧ c.p = .ret none ∧ c.q = .ret none ∨
       tooOld t4 t3 = false ∧ c.p = .ret (some Q) ∧ c.q = .ret (some P))
  | _ + 13, _ => False

/-- A broker whose clock may show any time in `A`. The readings are recorded. -/
def clock (dialer : Bool) (A : UInt64 → Prop) : Env (List (Bool × UInt64))
  | s, .clock, a, s' => ∃ t, A t ∧ a = some t ∧ s' = s ++ [(dialer, t)]
  | _, _, _, _ => False

variable {pkb sig P Q} {A B : UInt64 → Prop}

theorem at_step (n : Nat) (c c' : HConf) (h : At pkb sig P Q n c) (hs : Auth.Step (clock true A) (clock false B) c c') :
    At pkb sig P Q (n + 1) c' := by
  match n, h with
  | 0, ⟨⟨k, hk, hp⟩, hq, h1, h2, h3⟩ =>
    cases hs with
    | left p' inb out s' h =>
      rw [hk, h1, h3] at h
      obtain ⟨a, ⟨t, -, rfl, rfl⟩, rfl, rfl, rfl⟩ := pstep_outer rfl h
      exact ⟨t, hp t, hq, rfl, by simp [h2], rfl⟩
    | right q' inb out s' h =>
      obtain ⟨k', hk', _⟩ := hq
      rw [hk', h2] at h
      exact (pstep_wait h).elim
  | 1, ⟨t1, ⟨k, hk, hp⟩, hq, h1, h2, h3⟩ =>
    cases hs with
    | left p' inb out s' h =>
      rw [hk, h1] at h
      obtain ⟨rfl, rfl, rfl, rfl⟩ := pstep_send h
      exact ⟨t1, hp, hq, rfl, by simp [h2], h3⟩
    | right q' inb out s' h =>
      obtain ⟨k', hk', _⟩ := hq
      rw [hk', h2] at h
      exact (pstep_wait h).elim
  | 2, ⟨t1, hp, ⟨k, hk, hq⟩, h1, h2, h3⟩ =>
    cases hs with
    | left p' inb out s' h =>
      obtain ⟨k', hk', _⟩ := hp
      rw [hk', h1] at h
      exact (pstep_wait h).elim
    | right q' inb out s' h =>
      rw [hk, h2] at h
      obtain ⟨m', hm, rfl, rfl, rfl⟩ := pstep_recv h
      simp only [List.cons.injEq] at hm
      obtain ⟨rfl, rfl⟩ := hm
      exact ⟨t1, hp, hq t1, by simp [h1], rfl, h3⟩
  | 3, ⟨t1, hp, ⟨k, hk, hq⟩, h1, h2, h3⟩ =>
    cases hs with
    | left p' inb out s' h =>
      obtain ⟨k', hk', _⟩ := hp
      rw [hk', h1] at h
      exact (pstep_wait h).elim
    | right q' inb out s' h =>
      rw [hk, h2, h3] at h
      obtain ⟨a, ⟨t, -, rfl, rfl⟩, rfl, rfl, rfl⟩ := pstep_outer rfl h
      refine ⟨t1, t, hp, ?_, by simp [h1], rfl, rfl⟩
      have := hq t
      by_cases ho : tooOld t t1 = true
      · rw [if_pos ho] at this; exact Or.inl ⟨ho, this⟩
      · rw [if_neg ho] at this; exact Or.inr ⟨by simpa using ho, this⟩
  | 4, ⟨t1, t2, hp, hq, h1, h2, h3⟩ =>
    cases hs with
    | left p' inb out s' h =>
      obtain ⟨k', hk', _⟩ := hp
      rw [hk', h1] at h
      exact (pstep_wait h).elim
    | right q' inb out s' h =>
      rcases hq with ⟨ho, t, k, hk, hq⟩ | ⟨ho, k, hk, hq⟩
      · rw [hk] at h
        obtain ⟨rfl, rfl, rfl, rfl⟩ := pstep_send h
        exact ⟨t1, t2, hp, Or.inl ⟨ho, hq, t, by simp [h1]⟩, h2, h3⟩
      · rw [hk] at h
        obtain ⟨rfl, rfl, rfl, rfl⟩ := pstep_send h
        exact ⟨t1, t2, hp, Or.inr ⟨ho, hq, by simp [h1]⟩, h2, h3⟩
  | 5, ⟨t1, t2, ⟨k, hk, hp⟩, hq, h2, h3⟩ =>
    cases hs with
    | left p' inb out s' h =>
      rw [hk] at h
      obtain ⟨m', hm, rfl, rfl, rfl⟩ := pstep_recv h
      rcases hq with ⟨ho, hq, t, ht⟩ | ⟨ho, hq, ht⟩
      · rw [ht] at hm
        simp only [List.cons.injEq] at hm
        obtain ⟨rfl, rfl⟩ := hm
        exact ⟨by simp [h2], Or.inl ⟨t1, t2, ho, hp.2 t, hq, rfl, h3⟩⟩
      · rw [ht] at hm
        simp only [List.cons.injEq] at hm
        obtain ⟨rfl, rfl⟩ := hm
        exact ⟨by simp [h2], Or.inr (Or.inr ⟨t1, t2, ho, hp.1, hq, rfl, h3⟩)⟩
    | right q' inb out s' h =>
      rcases hq with ⟨ho, hq, t, ht⟩ | ⟨ho, ⟨k', hk', hq⟩, ht⟩
      · rw [hq] at h; exact (pstep_ret h).elim
      · rw [hk', h2, h3] at h
        obtain ⟨a, ⟨t, -, rfl, rfl⟩, rfl, rfl, rfl⟩ := pstep_outer rfl h
        exact ⟨rfl, Or.inr (Or.inl ⟨t1, t2, t, ho, ⟨k, hk, hp⟩, hq t, by simp [ht], rfl⟩)⟩
  | 6, ⟨h2, Or.inl ⟨t1, t2, ho, hp, hq, h1, h3⟩⟩ =>
    cases hs with
    | left p' inb out s' h => rw [hp] at h; exact (pstep_ret h).elim
    | right q' inb out s' h => rw [hq] at h; exact (pstep_ret h).elim
  | 6, ⟨h2, Or.inr (Or.inl ⟨t1, t2, t3, ho, ⟨k, hk, hp⟩, ⟨k', hk', hq⟩, h1, h3⟩)⟩ =>
    cases hs with
    | left p' inb out s' h =>
      rw [hk, h1] at h
      obtain ⟨m', hm, rfl, rfl, rfl⟩ := pstep_recv h
      simp only [List.cons.injEq] at hm
      obtain ⟨rfl, rfl⟩ := hm
      exact ⟨by simp [h2], t1, t2, t3, ho, h3, Or.inr ⟨hp.1, ⟨k', hk', hq⟩, rfl⟩⟩
    | right q' inb out s' h =>
      rw [hk'] at h
      obtain ⟨rfl, rfl, rfl, rfl⟩ := pstep_send h
      exact ⟨h2, t1, t2, t3, ho, h3, Or.inl ⟨⟨k, hk, hp⟩, hq, by simp [h1]⟩⟩
  | 6, ⟨h2, Or.inr (Or.inr ⟨t1, t2, ho, hp, ⟨k', hk', hq⟩, h1, h3⟩)⟩ =>
    cases hs with
    | left p' inb out s' h =>
      obtain ⟨k, hk, _⟩ := hp
      rw [hk, h1] at h
      exact (pstep_wait h).elim
    | right q' inb out s' h =>
      rw [hk', h2, h3] at h
      obtain ⟨a, ⟨t, -, rfl, rfl⟩, rfl, rfl, rfl⟩ := pstep_outer rfl h
      exact ⟨rfl, t1, t2, t, ho, rfl, Or.inr ⟨hp, hq t, by simp [h1]⟩⟩
  | 7, ⟨h2, t1, t2, t3, ho, h3, Or.inl ⟨⟨k, hk, hp⟩, hq, h1⟩⟩ =>
    cases hs with
    | left p' inb out s' h =>
      rw [hk, h1] at h
      obtain ⟨m', hm, rfl, rfl, rfl⟩ := pstep_recv h
      simp only [List.cons.injEq] at hm
      obtain ⟨rfl, rfl⟩ := hm
      exact ⟨by simp [h2], t1, t2, t3, ho, h3, hp.1, hq, rfl⟩
    | right q' inb out s' h =>
      obtain ⟨k', hk', _⟩ := hq
      rw [hk', h2] at h
      exact (pstep_wait h).elim
  | 7, ⟨h2, t1, t2, t3, ho, h3, Or.inr ⟨hp, ⟨k', hk', hq⟩, h1⟩⟩ =>
    cases hs with
    | left p' inb out s' h =>
      obtain ⟨k, hk, _⟩ := hp
      rw [hk, h1] at h
      exact (pstep_wait h).elim
    | right q' inb out s' h =>
      rw [hk'] at h
      obtain ⟨rfl, rfl, rfl, rfl⟩ := pstep_send h
      exact ⟨h2, t1, t2, t3, ho, h3, hp, hq, by simp [h1]⟩
  | 8, ⟨h2, t1, t2, t3, ho, h3, ⟨k, hk, hp⟩, hq, h1⟩ =>
    cases hs with
    | left p' inb out s' h =>
      rw [hk, h1] at h
      obtain ⟨m', hm, rfl, rfl, rfl⟩ := pstep_recv h
      simp only [List.cons.injEq] at hm
      obtain ⟨rfl, rfl⟩ := hm
      exact ⟨by simp [h2], t1, t2, t3, ho, h3, hp t3, hq, rfl⟩
    | right q' inb out s' h =>
      obtain ⟨k', hk', _⟩ := hq
      rw [hk', h2] at h
      exact (pstep_wait h).elim
  | 9, ⟨h2, t1, t2, t3, ho, h3, ⟨k, hk, hp⟩, hq, h1⟩ =>
    cases hs with
    | left p' inb out s' h =>
      rw [hk, h1, h3] at h
      obtain ⟨a, ⟨t, -, rfl, rfl⟩, rfl, rfl, rfl⟩ := pstep_outer rfl h
      refine ⟨by simp [h2], rfl, t1, t2, t3, t, ho, rfl, hq, ?_⟩
      have := hp t
      by_cases ho : tooOld t t3 = true
      · rw [if_pos ho] at this; exact Or.inl ⟨ho, this⟩
      · rw [if_neg ho] at this; exact Or.inr ⟨by simpa using ho, this⟩
    | right q' inb out s' h =>
      obtain ⟨k', hk', _⟩ := hq
      rw [hk', h2] at h
      exact (pstep_wait h).elim
  | 10, ⟨h2, h1, t1, t2, t3, t4, ho, h3, hq, hp⟩ =>
    cases hs with
    | left p' inb out s' h =>
      rcases hp with ⟨ho', t, k, hk, hp⟩ | ⟨ho', k, hk, hp⟩
      · rw [hk, h1] at h
        obtain ⟨rfl, rfl, rfl, rfl⟩ := pstep_send h
        exact ⟨rfl, t1, t2, t3, t4, ho, h3, hq, Or.inl ⟨ho', hp, t, by simp [h2]⟩⟩
      · rw [hk, h1] at h
        obtain ⟨rfl, rfl, rfl, rfl⟩ := pstep_send h
        exact ⟨rfl, t1, t2, t3, t4, ho, h3, hq, Or.inr ⟨ho', hp, by simp [h2]⟩⟩
    | right q' inb out s' h =>
      obtain ⟨k', hk', _⟩ := hq
      rw [hk', h2] at h
      exact (pstep_wait h).elim
  | 11, ⟨h1, t1, t2, t3, t4, ho, h3, ⟨k, hk, hq⟩, hp⟩ =>
    cases hs with
    | left p' inb out s' h =>
      rcases hp with ⟨_, hp, _⟩ | ⟨_, hp, _⟩ <;> rw [hp] at h <;> exact (pstep_ret h).elim
    | right q' inb out s' h =>
      rw [hk] at h
      obtain ⟨m', hm, rfl, rfl, rfl⟩ := pstep_recv h
      rcases hp with ⟨ho', hp, t, ht⟩ | ⟨ho', hp, ht⟩
      · rw [ht] at hm
        simp only [List.cons.injEq] at hm
        obtain ⟨rfl, rfl⟩ := hm
        exact ⟨by simp [h1], rfl, t1, t2, t3, t4, ho, h3, Or.inl ⟨ho', hp, hq.2 t⟩⟩
      · rw [ht] at hm
        simp only [List.cons.injEq] at hm
        obtain ⟨rfl, rfl⟩ := hm
        exact ⟨by simp [h1], rfl, t1, t2, t3, t4, ho, h3, Or.inr ⟨ho', hp, hq.1⟩⟩
  | 12, ⟨h1, h2, t1, t2, t3, t4, ho, h3, hd⟩ =>
    cases hs with
    | left p' inb out s' h =>
      rcases hd with ⟨_, hp, _⟩ | ⟨_, hp, _⟩ <;> rw [hp] at h <;> exact (pstep_ret h).elim
    | right q' inb out s' h =>
      rcases hd with ⟨_, _, hp⟩ | ⟨_, _, hp⟩ <;> rw [hp] at h <;> exact (pstep_ret h).elim
  | _ + 13, h => exact h.elim

theorem clock_left {c : HConf} {k : Option UInt64 → Prog (Option BrokerId)} (h : c.p = .op .clock k)
    (hA : ∃ t, A t) :
    ∃ c', Auth.Step (clock true A) (clock false B) c c' :=
  let ⟨t, ht⟩ := hA
  ⟨_, .left c _ _ _ _ (by rw [h]; exact .outer .clock k (some t) _ _ _ rfl ⟨t, ht, rfl, rfl⟩)⟩
theorem clock_right {c : HConf} {k : Option UInt64 → Prog (Option BrokerId)} (h : c.q = .op .clock k)
    (hB : ∃ t, B t) :
    ∃ c', Auth.Step (clock true A) (clock false B) c c' :=
  let ⟨t, ht⟩ := hB
  ⟨_, .right c _ _ _ _ (by rw [h]; exact .outer .clock k (some t) _ _ _ rfl ⟨t, ht, rfl, rfl⟩)⟩
theorem send_left {c : HConf} {m : Msg} {k : Bool → Prog (Option BrokerId)} (h : c.p = .op (.send m) k) :
    ∃ c', Auth.Step (clock true A) (clock false B) c c' := ⟨_, .left c _ _ _ _ (by rw [h]; exact .send m k _ _)⟩
theorem send_right {c : HConf} {m : Msg} {k : Bool → Prog (Option BrokerId)} (h : c.q = .op (.send m) k) :
    ∃ c', Auth.Step (clock true A) (clock false B) c c' := ⟨_, .right c _ _ _ _ (by rw [h]; exact .send m k _ _)⟩
theorem recv_left {c : HConf} {m : Msg} {r : List Msg} {k : Option Msg → Prog (Option BrokerId)}
    (h : c.p = .op .recv k) (hm : c.toP = m :: r) : ∃ c', Auth.Step (clock true A) (clock false B) c c' :=
  ⟨_, .left c _ _ _ _ (by rw [h, hm]; exact .recv m k _ _)⟩
theorem recv_right {c : HConf} {m : Msg} {r : List Msg} {k : Option Msg → Prog (Option BrokerId)}
    (h : c.q = .op .recv k) (hm : c.toQ = m :: r) : ∃ c', Auth.Step (clock true A) (clock false B) c c' :=
  ⟨_, .right c _ _ _ _ (by rw [h, hm]; exact .recv m k _ _)⟩

/-- Where it stops. -/
theorem at_end (hA : ∃ t, A t) (hB : ∃ t, B t) (n : Nat) (c : HConf) (h : At pkb sig P Q n c) :
    n ≤ 12 ∧ ((∃ c', Auth.Step (clock true A) (clock false B) c c') ∨
      (∃ t1 t2, c.st = [(true, t1), (false, t2)] ∧ tooOld t2 t1 = true ∧ c.p = .ret none ∧ c.q = .ret none) ∨
      ∃ t1 t2 t3 t4, c.st = [(true, t1), (false, t2), (false, t3), (true, t4)] ∧ tooOld t2 t1 = false ∧
        (tooOld t4 t3 = true ∧ c.p = .ret none ∧ c.q = .ret none ∨
         tooOld t4 t3 = false ∧ c.p = .ret (some Q) ∧ c.q = .ret (some P))) := by
  match n, h with
  | 0, ⟨⟨k, hk, hp⟩, hq, h1, h2, h3⟩ => exact ⟨by omega, Or.inl (clock_left hk hA)⟩
  | 1, ⟨t1, ⟨k, hk, hp⟩, hq, h1, h2, h3⟩ => exact ⟨by omega, Or.inl (send_left hk)⟩
  | 2, ⟨t1, hp, ⟨k, hk, hq⟩, h1, h2, h3⟩ => exact ⟨by omega, Or.inl (recv_right hk h2)⟩
  | 3, ⟨t1, hp, ⟨k, hk, hq⟩, h1, h2, h3⟩ => exact ⟨by omega, Or.inl (clock_right hk hB)⟩
  | 4, ⟨t1, t2, hp, Or.inl ⟨ho, t, k, hk, hq⟩, h1, h2, h3⟩ => exact ⟨by omega, Or.inl (send_right hk)⟩
  | 4, ⟨t1, t2, hp, Or.inr ⟨ho, k, hk, hq⟩, h1, h2, h3⟩ => exact ⟨by omega, Or.inl (send_right hk)⟩
  | 5, ⟨t1, t2, ⟨k, hk, hp⟩, Or.inl ⟨ho, hq, t, ht⟩, h2, h3⟩ => exact ⟨by omega, Or.inl (recv_left hk ht)⟩
  | 5, ⟨t1, t2, ⟨k, hk, hp⟩, Or.inr ⟨ho, hq, ht⟩, h2, h3⟩ => exact ⟨by omega, Or.inl (recv_left hk ht)⟩
  | 6, ⟨h2, Or.inl ⟨t1, t2, ho, hp, hq, h1, h3⟩⟩ =>
    exact ⟨by omega, Or.inr (Or.inl ⟨t1, t2, h3, ho, hp, hq⟩)⟩
  | 6, ⟨h2, Or.inr (Or.inl ⟨t1, t2, t3, ho, ⟨k, hk, hp⟩, ⟨k', hk', hq⟩, h1, h3⟩)⟩ =>
    exact ⟨by omega, Or.inl (send_right hk')⟩
  | 6, ⟨h2, Or.inr (Or.inr ⟨t1, t2, ho, hp, ⟨k', hk', hq⟩, h1, h3⟩)⟩ =>
    exact ⟨by omega, Or.inl (clock_right hk' hB)⟩
  | 7, ⟨h2, t1, t2, t3, ho, h3, Or.inl ⟨⟨k, hk, hp⟩, hq, h1⟩⟩ => exact ⟨by omega, Or.inl (recv_left hk h1)⟩
  | 7, ⟨h2, t1, t2, t3, ho, h3, Or.inr ⟨hp, ⟨k', hk', hq⟩, h1⟩⟩ => exact ⟨by omega, Or.inl (send_right hk')⟩
  | 8, ⟨h2, t1, t2, t3, ho, h3, ⟨k, hk, hp⟩, hq, h1⟩ => exact ⟨by omega, Or.inl (recv_left hk h1)⟩
  | 9, ⟨h2, t1, t2, t3, ho, h3, ⟨k, hk, hp⟩, hq, h1⟩ => exact ⟨by omega, Or.inl (clock_left hk hA)⟩
  | 10, ⟨h2, h1, t1, t2, t3, t4, ho, h3, hq, Or.inl ⟨_, t, k, hk, _⟩⟩ => exact ⟨by omega, Or.inl (send_left hk)⟩
  | 10, ⟨h2, h1, t1, t2, t3, t4, ho, h3, hq, Or.inr ⟨_, k, hk, _⟩⟩ => exact ⟨by omega, Or.inl (send_left hk)⟩
  | 11, ⟨h1, t1, t2, t3, t4, ho, h3, ⟨k, hk, hq⟩, Or.inl ⟨_, _, t, ht⟩⟩ =>
    exact ⟨by omega, Or.inl (recv_right hk ht)⟩
  | 11, ⟨h1, t1, t2, t3, t4, ho, h3, ⟨k, hk, hq⟩, Or.inr ⟨_, _, ht⟩⟩ =>
    exact ⟨by omega, Or.inl (recv_right hk ht)⟩
  | 12, ⟨h1, h2, t1, t2, t3, t4, ho, h3, hd⟩ =>
    exact ⟨by omega, Or.inr (Or.inr ⟨t1, t2, t3, t4, h3, ho, hd⟩)⟩
  | _ + 13, h => exact h.elim

theorem at_start [DecidableEq Pub] (S : Scheme Pub Priv) (pk : Pub) (sk : Priv)
    (hs : ∀ t, S.sign sk .brokerBroker t = some (sig t))
    (hv : ∀ t, S.verify pk .brokerBroker t (sig t) = true) (he : S.serialize pk = some pkb)
    (hd : S.deserialize pkb = some pk) (hP : BrokerId.parse P.display = some P)
    (hQ : BrokerId.parse Q.display = some Q) :
    At pkb sig P Q 0 (Conf.start (handshakeOut S P pk sk) (handshakeIn S Q pk sk) []) := by
  refine ⟨⟨_, rfl, fun t1 => ?_⟩, ⟨_, rfl, fun t1 => ?_⟩, rfl, rfl, rfl⟩
  · simp only [hs, he]
    refine ⟨_, rfl, _, rfl, ?_, fun t => ?_⟩
    · simp only [R, String.toList_ofList, hQ, if_true, Prog.andThen]
      refine ⟨_, rfl, fun t3 => ?_⟩
      simp only [K, hd, hv, Prog.andThen, Bool.true_eq_false, if_false]
      refine ⟨_, rfl, fun t4 => ?_⟩
      by_cases ho : tooOld t4 t3 = true
      · rw [if_pos ho]; dsimp only; rw [if_pos ho]
        exact ⟨_, _, rfl, rfl⟩
      · rw [if_neg ho]; dsimp only; rw [if_neg ho]
        simp only [ne_eq, not_true_eq_false, if_false]
        exact ⟨_, rfl, rfl⟩
    · rfl
  · simp only [K, hd, hv, Prog.andThen, Bool.true_eq_false, if_false]
    refine ⟨_, rfl, fun t2 => ?_⟩
    by_cases ho : tooOld t2 t1 = true
    · rw [if_pos ho]; dsimp only; rw [if_pos ho]
      exact ⟨_, _, rfl, rfl⟩
    · rw [if_neg ho]; dsimp only; rw [if_neg ho]
      simp only [ne_eq, not_true_eq_false, if_false]
      refine ⟨_, rfl, _, rfl, fun t3 => ?_⟩
      simp only [hs, he]
      refine ⟨_, rfl, _, rfl, ?_, fun t => rfl⟩
      simp only [R, String.toList_ofList, hP, if_true]

theorem in_step {c c' : HConf} (h : ∀ x ∈ c.st, if x.1 then A x.2 else B x.2)
    (hs : Auth.Step (clock true A) (clock false B) c c') : ∀ x ∈ c'.st, if x.1 then A x.2 else B x.2 := by
  obtain ⟨p, q, toP, toQ, st⟩ := c
  cases hs with
  | left p' inb out s' hp =>
    cases hp with
    | send => exact h
    | recv => exact h
    | outer e k a inb s s' he hc =>
      cases e <;> try exact hc.elim
      obtain ⟨t, ht, -, rfl⟩ := hc
      intro x hx
      rcases List.mem_append.1 hx with hx | hx
      · exact h x hx
      · rw [List.mem_singleton.1 hx]; exact ht
  | right p' inb out s' hp =>
    cases hp with
    | send => exact h
    | recv => exact h
    | outer e k a inb s s' he hc =>
      cases e <;> try exact hc.elim
      obtain ⟨t, ht, -, rfl⟩ := hc
      intro x hx
      rcases List.mem_append.1 hx with hx | hx
      · exact h x hx
      · rw [List.mem_singleton.1 hx]; exact ht
end

/-! ## C63 -/

/-- No other process is involved. -/
def nobody (_ _ : List (Bool × UInt64)) : Prop := False

/-- What happens in all interleavings when broker `P` dials broker `Q`, both honest and holding the same
key: within twelve steps both are done. The clocks are read at most four times: by `P` when signing
(`t1`), by `Q` when verifying (`t2`) and when signing (`t3`), and by `P` when verifying (`t4`). If `t1` is
fresh at `t2` and `t3` at `t4`, each knows the other by its identity; otherwise both fail.
Missing for C63: clocks that differ, see `C63_false`. -/
theorem C63_outcome_partial [DecidableEq Pub] (S : Scheme Pub Priv) (pk : Pub) (sk : Priv) (pkb : Bytes)
    (hh : Honest S pk sk pkb) (P Q : BrokerId) (hP : Good P) (hQ : Good Q)
    (A B : UInt64 → Prop) (hA : ∃ t, A t) (hB : ∃ t, B t) (hA5 : ∀ t, A t → 5 ≤ t.toNat)
    (hB5 : ∀ t, B t → 5 ≤ t.toNat) (n : Nat) (c : HConf)
    (hrun : Run (clock true A) (clock false B) nobody
      (Conf.start (handshakeOut S P pk sk) (handshakeIn S Q pk sk) []) n c) :
    n ≤ 12 ∧ ((∃ c', Auth.Step (clock true A) (clock false B) c c') ∨
      (∃ t1 t2, A t1 ∧ B t2 ∧ ¬ Fresh t2 t1 ∧ c.p = .ret none ∧ c.q = .ret none) ∨
      (∃ t1 t2 t3 t4, A t1 ∧ B t2 ∧ B t3 ∧ A t4 ∧ Fresh t2 t1 ∧ ¬ Fresh t4 t3 ∧
        c.p = .ret none ∧ c.q = .ret none) ∨
      (∃ t1 t2 t3 t4, A t1 ∧ B t2 ∧ B t3 ∧ A t4 ∧ Fresh t2 t1 ∧ Fresh t4 t3 ∧
        c.p = .ret (some Q) ∧ c.q = .ret (some P))) := by
  have hsig : ∃ sig : UInt64 → Bytes, ∀ t, S.sign sk .brokerBroker t = some (sig t) :=
    ⟨fun t => (hh.signs (signedBytes .brokerBroker t)).choose,
      fun t => (hh.signs (signedBytes .brokerBroker t)).choose_spec⟩
  obtain ⟨sig, hs⟩ := hsig
  have hst := at_start (P := P) (Q := Q) S pk sk hs (fun t => hh.verifies _ _ (hs t)) hh.encodes hh.decodes
    (Ident.C42_round_trip P hP.1 hP.2) (Ident.C42_round_trip Q hQ.1 hQ.2)
  have hat : At pkb sig P Q n c ∧ ∀ x ∈ c.st, if x.1 then A x.2 else B x.2 :=
    run_at (At := fun n c => At pkb sig P Q n c ∧ ∀ x ∈ c.st, if x.1 then A x.2 else B x.2)
      ⟨hst, by simp [Conf.start]⟩ (fun n c1 c2 h hs => ⟨at_step n c1 c2 h.1 hs, in_step h.2 hs⟩)
      (fun n c1 s' _ h => h.elim) hrun
  have fresh : ∀ t t', 5 ≤ t.toNat → (tooOld t t' = true ↔ ¬ Fresh t t') := by
    intro t t' h5
    rw [← tooOld_iff t t' h5]; simp
  obtain ⟨hn, h⟩ := at_end hA hB n c hat.1
  refine ⟨hn, ?_⟩
  rcases h with h | ⟨t1, t2, hst, ho, hp, hq⟩ | ⟨t1, t2, t3, t4, hst, ho, ⟨ho', hp, hq⟩ | ⟨ho', hp, hq⟩⟩
  · exact Or.inl h
  · have hin := hat.2
    rw [hst] at hin
    have h2 : B t2 := hin (false, t2) (by simp)
    exact Or.inr (Or.inl ⟨t1, t2, hin (true, t1) (by simp), h2, (fresh _ _ (hB5 _ h2)).1 ho, hp, hq⟩)
  · have hin := hat.2
    rw [hst] at hin
    have h2 : B t2 := hin (false, t2) (by simp)
    have h4 : A t4 := hin (true, t4) (by simp)
    exact Or.inr (Or.inr (Or.inl ⟨t1, t2, t3, t4, hin (true, t1) (by simp), h2, hin (false, t3) (by simp), h4,
      (tooOld_iff _ _ (hB5 _ h2)).1 ho, (fresh _ _ (hA5 _ h4)).1 ho', hp, hq⟩))
  · have hin := hat.2
    rw [hst] at hin
    have h2 : B t2 := hin (false, t2) (by simp)
    have h4 : A t4 := hin (true, t4) (by simp)
    exact Or.inr (Or.inr (Or.inr ⟨t1, t2, t3, t4, hin (true, t1) (by simp), h2, hin (false, t3) (by simp), h4,
      (tooOld_iff _ _ (hB5 _ h2)).1 ho, (tooOld_iff _ _ (hA5 _ h4)).1 ho', hp, hq⟩))

/-- Brokers with the same clock always succeed: in every interleaving, when they are done, each knows the
other. -/
theorem C63_same_clock_partial [DecidableEq Pub] (S : Scheme Pub Priv) (pk : Pub) (sk : Priv) (pkb : Bytes)
    (hh : Honest S pk sk pkb) (P Q : BrokerId) (hP : Good P) (hQ : Good Q) (t : UInt64) (ht : 5 ≤ t.toNat)
    (n : Nat) (c : HConf)
    (hrun : Run (clock true (· = t)) (clock false (· = t)) nobody
      (Conf.start (handshakeOut S P pk sk) (handshakeIn S Q pk sk) []) n c) :
    n ≤ 12 ∧ ((∃ c', Auth.Step (clock true (· = t)) (clock false (· = t)) c c') ∨
      c.p = .ret (some Q) ∧ c.q = .ret (some P)) := by
  obtain ⟨hn, h⟩ := C63_outcome_partial S pk sk pkb hh P Q hP hQ (· = t) (· = t) ⟨t, rfl⟩ ⟨t, rfl⟩
    (fun _ h => h ▸ ht) (fun _ h => h ▸ ht) n c hrun
  refine ⟨hn, ?_⟩
  have hf : Fresh t t := ⟨Nat.le_refl _, by omega⟩
  rcases h with h | ⟨t1, t2, rfl, rfl, hx, _⟩ | ⟨t1, t2, t3, t4, rfl, rfl, rfl, rfl, _, hx, _⟩ |
    ⟨t1, t2, t3, t4, rfl, rfl, rfl, rfl, _, _, hx⟩
  · exact Or.inl h
  · exact absurd hf hx
  · exact absurd hf hx
  · exact Or.inr hx

/-- C63 is false as stated, for all schemes, keys and identities: if one clock is ahead of the other, by
however little, and the handshake takes less time than that, then it fails on both sides whichever broker
dials. Here: the readings of one broker are all less than those of the other. -/
theorem C63_false [DecidableEq Pub] (S : Scheme Pub Priv) (pk : Pub) (sk : Priv) (pkb : Bytes)
    (hh : Honest S pk sk pkb) (P Q : BrokerId) (hP : Good P) (hQ : Good Q)
    (A B : UInt64 → Prop) (hA : ∃ t, A t) (hB : ∃ t, B t) (hA5 : ∀ t, A t → 5 ≤ t.toNat)
    (hB5 : ∀ t, B t → 5 ≤ t.toNat)
    (hskew : (∀ a b, A a → B b → a.toNat < b.toNat) ∨ (∀ a b, A a → B b → b.toNat < a.toNat))
    (n : Nat) (c : HConf)
    (hrun : Run (clock true A) (clock false B) nobody
      (Conf.start (handshakeOut S P pk sk) (handshakeIn S Q pk sk) []) n c) :
    n ≤ 12 ∧ ((∃ c', Auth.Step (clock true A) (clock false B) c c') ∨
      c.p = .ret none ∧ c.q = .ret none) := by
  obtain ⟨hn, h⟩ := C63_outcome_partial S pk sk pkb hh P Q hP hQ A B hA hB hA5 hB5 n c hrun
  refine ⟨hn, ?_⟩
  rcases h with h | ⟨_, _, _, _, _, h⟩ | ⟨_, _, _, _, _, _, _, _, _, _, h⟩ |
    ⟨t1, t2, t3, t4, a1, b2, b3, a4, f1, f2, _⟩
  · exact Or.inl h
  · exact Or.inr h
  · exact Or.inr h
  · rcases hskew with hk | hk
    · have := hk t4 t3 a4 b3
      exact absurd f2.1 (by omega)
    · have := hk t1 t2 a1 b2
      exact absurd f1.1 (by omega)

/-- The key pair 7 of the toy scheme is honest. -/
theorem toy_honest : Honest toy 7 7 [7] where
  encodes := rfl
  decodes := rfl
  signs m := ⟨_, rfl⟩
  verifies m sig h := by
    have : sig = 7 :: m := (Option.some.inj h).symm
    simp [toy, this]

/-- With clocks one second apart, `a` and `b` cannot connect, whichever way. -/
example (n : Nat) (c : HConf)
    (hrun : Run (clock true (· = 100)) (clock false (· = 101)) nobody
      (Conf.start (handshakeOut toy bA 7 7) (handshakeIn toy ⟨"b".toList, "B".toList⟩ 7 7) []) n c) :
    n ≤ 12 ∧ ((∃ c', Auth.Step (clock true (· = 100)) (clock false (· = 101)) c c') ∨
      c.p = .ret none ∧ c.q = .ret none) :=
  C63_false toy 7 7 [7] toy_honest bA ⟨"b".toList, "B".toList⟩ (by unfold Good Ident.NoSlash; decide)
    (by unfold Good Ident.NoSlash; decide) (· = 100) (· = 101) ⟨_, rfl⟩ ⟨_, rfl⟩
    (fun t h => by rw [show t = 100 from h]; decide) (fun t h => by rw [show t = 101 from h]; decide)
    (Or.inl fun a b h1 h2 => by rw [show a = 100 from h1, show b = 101 from h2]; decide) n c hrun

/-- With the same clock they connect. -/
example (n : Nat) (c : HConf)
    (hrun : Run (clock true (· = 100)) (clock false (· = 100)) nobody
      (Conf.start (handshakeOut toy bA 7 7) (handshakeIn toy ⟨"b".toList, "B".toList⟩ 7 7) []) n c) :
    n ≤ 12 ∧ ((∃ c', Auth.Step (clock true (· = 100)) (clock false (· = 100)) c c') ∨
      c.p = .ret (some ⟨"b".toList, "B".toList⟩) ∧ c.q = .ret (some bA)) :=
  C63_same_clock_partial toy 7 7 [7] toy_honest _ _ (by unfold Good Ident.NoSlash; decide)
    (by unfold Good Ident.NoSlash; decide) 100 (by decide) n c hrun

end Verif.Props.Handshake

import Verif.Lemmas.Failover

/-!
# Property C91: a client whose broker fails is soon connected to another one
-/

set_option linter.unusedSectionVars false

namespace Verif.Props.Failover
open Verif Verif.Failover

variable {B : Type} [DecidableEq B]

/-- **C91**, what holds: if the client notices within `d` that its connection is gone, and is used every `gap`, then it has a
connection to a broker that is up at the latest 72 seconds after the trouble ended (or 12 seconds after it noticed and was used,
if that is later), and the delays of the runtime and of the answers. `b0` is any broker that was up when the trouble ended. -/
theorem C91_connected_partial (c : Cfg) (d : Nat) (hd : c.detect = some d) (hb1 : c.beat ≤ 60000) (hr : 2 * c.resp < 10000)
    (ls : List (Lab B)) (s0 : St B) (h0 : Run c St.init ls s0) (hh : s0.healed = some s0.now) (b0 : B) (hu : s0.up b0 = true)
    (ls' : List (Lab B)) (s : St B) (h : Run c s0 ls' s) (hl : Lab.trouble ∉ ls')
    (ht : s0.now + max 60000 (d + c.gap) + 12000 + 2 * c.late + 2 * c.resp < s.now) :
    ∃ b, s.cl = .on b true ∧ s.up b = true := by
  have hp := good_run c b0 d (s0.now + max 60000 (d + c.gap)) ls s0 h0 hh hu hd (by omega) (by omega) hb1 hr ls' s h hl
  have hg := glob_run c _ _ (h0.append h)
  have p6 := hp.cl; have g4 := hg.cl
  cases hc : s.cl with
  | on b a =>
    rw [hc] at p6 g4
    cases a with
    | true => exact ⟨b, rfl, g4⟩
    | false => simp only [clGood] at p6; omega
  | off si => rw [hc] at p6 g4; simp only [clGood, clOk] at p6 g4; omega
  | att st si x =>
    rw [hc] at p6 g4; simp only [clGood, clOk] at p6 g4
    by_cases hk : s0.now + max 60000 (d + c.gap) < st
    · have := p6.2 hk
      cases x with
      | none => dsimp only at this; omega
      | some b => dsimp only at this; omega
    · omega
  | nap due => rw [hc] at p6 g4; simp only [clGood, clOk] at p6 g4; omega


/-! ## What does not hold -/

/-- Two brokers, `false` and `true`; `false` keeps writing heartbeats and a millisecond passes. -/
theorem wait_one (c : Cfg) (hb : 0 < c.beat) (s : St Bool) (h : Nat) (hh : s.healed = some h) (h0 : s.up false = true)
    (h1 : s.up true = false) (ha : ∀ st si x, s.cl = .att st si x → False) (hn : ∀ due, s.cl = .nap due → s.now < due)
    (ho : ∀ si, s.cl = .off si → False) (hd : ∀ b, s.cl = .on b false → c.detect = none) :
    ∃ s', Run c s [.beat false, .tick] s' ∧ s'.now = s.now + 1 ∧ s'.healed = some h ∧ s'.up = s.up ∧ s'.cl = s.cl ∧
      s'.entry true = s.entry true := by
  refine ⟨_, .snoc (.snoc .nil (.beat false h0)) (.tick ?_ ?_ ?_ ?_ ?_ ?_ ?_), rfl, hh, rfl, rfl, rfl⟩
  · intro st si x e; exact (ha st si x e).elim
  · intro due e; have := hn due e; dsimp only; omega
  · intro si e; exact (ho si e).elim
  · intro h st si _ e; exact (ha _ _ _ e).elim
  · intro h st si b _ e; exact (ha _ _ _ e).elim
  · intro h b d _ e e'; rw [hd b e] at e'; cases e'
  · intro h b _ hu
    cases b with
    | false => simp only [setAt, if_pos]; omega
    | true => dsimp only at hu; rw [h1] at hu; cases hu

/-- **C91** is false over TCP: a client whose broker disappears without a word, and that only waits for messages, is never
connected again, although another broker is there all the time. -/
theorem C91_false (c : Cfg) (hd : c.detect = none) (hb : 0 < c.beat) (t : Nat) :
    ∃ ls s0 ls' s, Run c (St.init (B := Bool)) ls s0 ∧ s0.healed = some s0.now ∧ s0.up false = true ∧
      Run c s0 ls' s ∧ Lab.trouble ∉ ls' ∧ s.now = s0.now + t ∧ s.cl = .on true false ∧ s.up true = false := by
  have h0 : ∃ ls s0, Run c (St.init (B := Bool)) ls s0 ∧ s0.healed = some s0.now ∧ s0.up false = true ∧ s0.up true = false ∧
      s0.cl = .on true false :=
    ⟨_, _, .snoc (.snoc (.snoc (.snoc (.snoc (.snoc (.snoc (.snoc .nil (.start false rfl)) (.start true rfl)) (.beat true rfl)) (.use 0 rfl))
      (.named 0 0 true 60000 rfl rfl (by decide))) (.admitted 0 0 true rfl rfl)) (.down true rfl)) (.heal rfl), rfl, rfl, rfl, rfl⟩
  obtain ⟨ls, s0, r0, e1, e2, e3, e4⟩ := h0
  suffices h : ∃ ls' s, Run c s0 ls' s ∧ Lab.trouble ∉ ls' ∧ s.now = s0.now + t ∧ s.cl = .on true false ∧ s.up = s0.up ∧
      s.healed = s0.healed by
    obtain ⟨ls', s, r1, e5, e6, e7, e8, _⟩ := h
    exact ⟨ls, s0, ls', s, r0, e1, e2, r1, e5, e6, e7, by rw [e8]; exact e3⟩
  induction t with
  | zero => exact ⟨[], s0, .nil, by simp, rfl, e4, rfl, rfl⟩
  | succ t ih =>
    obtain ⟨a, s1, r1, f1, f2, f3, f4, f5⟩ := ih
    obtain ⟨s2, r2, g1, g2, g3, g4, _⟩ := wait_one c hb s1 s0.now (by rw [f5, e1]) (by rw [f4]; exact e2) (by rw [f4]; exact e3)
      (by rw [f3]; intro _ _ _ h; cases h) (by rw [f3]; intro _ h; cases h) (by rw [f3]; intro _ h; cases h) (fun _ _ => hd)
    exact ⟨a ++ [.beat false, .tick], s2, r1.append r2, by simp [f1], by omega, by rw [g4, f3], by rw [g3, f4], by rw [g2, e1]⟩

/-- Waiting for the end of a pause. -/
theorem wait_nap (c : Cfg) (hb : 0 < c.beat) (n : Nat) : ∀ (s : St Bool) (h : Nat), s.healed = some h → s.up false = true →
    s.up true = false → s.cl = .nap (s.now + n) →
    ∃ ls s', Run c s ls s' ∧ Lab.trouble ∉ ls ∧ s'.now = s.now + n ∧ s'.healed = some h ∧ s'.up = s.up ∧ s'.cl = s.cl ∧
      s'.entry true = s.entry true := by
  induction n with
  | zero => intro s h e1 e2 e3 e4; exact ⟨[], s, .nil, by simp, rfl, e1, rfl, rfl, rfl⟩
  | succ n ih =>
    intro s h e1 e2 e3 e4
    obtain ⟨s1, r1, g1, g2, g3, g4, g5⟩ := wait_one c hb s h e1 e2 e3 (by rw [e4]; intro _ _ _ h; cases h)
      (by rw [e4]; intro due h; cases h; omega) (by rw [e4]; intro _ h; cases h) (by rw [e4]; intro _ h; cases h)
    obtain ⟨a, s2, r2, f1, f2, f3, f4, f5, f6⟩ := ih s1 h g2 (by rw [g3]; exact e2) (by rw [g3]; exact e3)
      (by rw [g4, e4, g1]; congr 1; omega)
    exact ⟨[.beat false, .tick] ++ a, s2, r1.append r2, by simp [f1], by omega, f3, by rw [f4, g3], by rw [f5, g4], by rw [f6, g5]⟩

/-- **C91**, it may take a minute: as long as the entry of the dead broker is in the store the marshal may name it each time,
although another broker is there. The client notices at once and tries every two seconds. -/
theorem C91_late (c : Cfg) (hb : 0 < c.beat) :
    ∃ ls s0 ls' s, Run c (St.init (B := Bool)) ls s0 ∧ s0.healed = some s0.now ∧ s0.up false = true ∧
      s0.cl = .att s0.now s0.now none ∧
      Run c s0 ls' s ∧ Lab.trouble ∉ ls' ∧ s.now = s0.now + 60000 ∧ ∀ b a, s.cl ≠ .on b a := by
  have h0 : ∃ ls s0, Run c (St.init (B := Bool)) ls s0 ∧ s0.healed = some s0.now ∧ s0.up false = true ∧ s0.up true = false ∧
      s0.cl = .att s0.now s0.now none ∧ s0.entry true = some 60000 ∧ s0.now = 0 :=
    ⟨_, _, .snoc (.snoc (.snoc (.snoc (.snoc (.snoc (.snoc (.snoc (.snoc (.snoc .nil (.start false rfl)) (.start true rfl)) (.beat true rfl))
      (.use 0 rfl)) (.named 0 0 true 60000 rfl rfl (by decide))) (.admitted 0 0 true rfl rfl)) (.down true rfl)) (.notice true rfl))
      (.use 0 rfl)) (.heal rfl), rfl, rfl, rfl, rfl, rfl, rfl⟩
  obtain ⟨ls, s0, r0, e1, e2, e3, e4, e5, e6⟩ := h0
  suffices h : ∀ k, k ≤ 30 → ∃ ls' s, Run c s0 ls' s ∧ Lab.trouble ∉ ls' ∧ s.now = s0.now + 2000 * k ∧ s.cl = .att s.now s.now none ∧
      s.up = s0.up ∧ s.healed = s0.healed ∧ s.entry true = some 60000 by
    obtain ⟨ls', s, r1, f1, f2, f3, _⟩ := h 30 (Nat.le_refl _)
    exact ⟨ls, s0, ls', s, r0, e1, e2, e4, r1, f1, f2, by rw [f3]; intro _ _ h; cases h⟩
  intro k
  induction k with
  | zero => intro _; exact ⟨[], s0, .nil, by simp, rfl, e4, rfl, rfl, e5⟩
  | succ k ih =>
    intro hk
    obtain ⟨a, s1, r1, f1, f2, f3, f4, f5, f6⟩ := ih (by omega)
    have q1 := Step.named (c := c) (s := s1) s1.now s1.now true 60000 f3 f6 (by omega)
    have q2 := Step.refused (c := c) (s := { s1 with cl := .att s1.now s1.now (some true) }) s1.now s1.now true rfl
      (by dsimp only; rw [f4]; exact e3)
    have r12 : Run c s1 [.named true, .refused] { s1 with cl := .nap (s1.now + 2000) } := .snoc (.snoc .nil q1) q2
    obtain ⟨b, s2, r2, g1, g2, g3, g4, g5, g6⟩ := wait_nap c hb 2000 _ s0.now (by dsimp only; rw [f5]; exact e1)
      (by dsimp only; rw [f4]; exact e2) (by dsimp only; rw [f4]; exact e3)
      (show ({ s1 with cl := .nap (s1.now + 2000) } : St Bool).cl = .nap (s1.now + 2000) from rfl)
    have q3 := Step.wake (c := c) (s := s2) (s1.now + 2000) g5 (by rw [g2]; exact Nat.le_refl _)
    refine ⟨a ++ ([.named true, .refused] ++ (b ++ [.wake])), _, r1.append (Run.append r12 (.snoc r2 q3)), ?_, ?_, rfl, ?_,
      ?_, ?_⟩
    · simp [f1, g1]
    · have g2 : s2.now = s1.now + 2000 := g2
      show s2.now = _
      rw [g2, f2]; omega
    · dsimp only at g4 ⊢; rw [g4, f4]
    · dsimp only at g3 ⊢; rw [g3, e1]
    · dsimp only at g6 ⊢; rw [g6, f6]

/-- Waiting while connected. -/
theorem wait_on (c : Cfg) (hb : 0 < c.beat) (n : Nat) : ∀ (s : St Bool) (h : Nat), s.healed = some h → s.up false = true →
    s.up true = false → s.cl = .on false true →
    ∃ ls s', Run c s ls s' ∧ Lab.trouble ∉ ls ∧ s'.now = s.now + n := by
  induction n with
  | zero => intro s h e1 e2 e3 e4; exact ⟨[], s, .nil, by simp, rfl⟩
  | succ n ih =>
    intro s h e1 e2 e3 e4
    obtain ⟨s1, r1, g1, g2, g3, g4, g5⟩ := wait_one c hb s h e1 e2 e3 (by rw [e4]; intro _ _ _ h; cases h)
      (by rw [e4]; intro due h; cases h) (by rw [e4]; intro _ h; cases h) (by rw [e4]; intro _ h; cases h)
    obtain ⟨a, s2, r2, f1, f2⟩ := ih s1 h g2 (by rw [g3]; exact e2) (by rw [g3]; exact e3) (by rw [g4, e4])
    exact ⟨[.beat false, .tick] ++ a, s2, r1.append r2, by simp [f1], by omega⟩

/-- The hypotheses of `C91_connected_partial` are met: a broker goes down, the client notices and is connected to the other one,
and time passes. -/
example : ∃ ls s0 ls' s, Run ⟨100, 15000, 100, some 1000, 5⟩ (St.init (B := Bool)) ls s0 ∧ s0.healed = some s0.now ∧ s0.up false = true ∧
    s0.cl = .on true false ∧ Run ⟨100, 15000, 100, some 1000, 5⟩ s0 ls' s ∧ Lab.trouble ∉ ls' ∧ s0.now + 72210 < s.now := by
  have h0 : ∃ ls s0 ls' s, Run ⟨100, 15000, 100, some 1000, 5⟩ (St.init (B := Bool)) ls s0 ∧ s0.healed = some s0.now ∧ s0.up false = true ∧
    s0.cl = .on true false ∧ Run ⟨100, 15000, 100, some 1000, 5⟩ s0 ls' s ∧ Lab.trouble ∉ ls' ∧ s.cl = .on false true ∧
    s.healed = some s0.now ∧ s.up false = true ∧ s.up true = false ∧ s.now = s0.now :=
    ⟨_, _, _, _, .snoc (.snoc (.snoc (.snoc (.snoc (.snoc (.snoc (.snoc .nil (.start false rfl)) (.start true rfl)) (.beat true rfl))
      (.use 0 rfl)) (.named 0 0 true 60000 rfl rfl (by decide))) (.admitted 0 0 true rfl rfl)) (.down true rfl)) (.heal rfl), rfl, rfl, rfl,
      .snoc (.snoc (.snoc (.snoc (.snoc .nil (.notice true rfl)) (.use 0 rfl)) (.beat false rfl))
        (.named 0 0 false 60000 rfl rfl (by decide))) (.admitted 0 0 false rfl rfl), by simp, rfl, rfl, rfl, rfl, rfl⟩
  obtain ⟨ls, s0, ls', s, h1, h2, h3, h4, h5, h6, h7, h8, h9, h10, h11⟩ := h0
  obtain ⟨a, s2, r, f1, f2⟩ := wait_on ⟨100, 15000, 100, some 1000, 5⟩ (by decide) 72211 s s0.now h8 h9 h10 h7
  exact ⟨ls, s0, ls' ++ a, s2, h1, h2, h3, h4, h5.append r, by simp [h6, f1], by rw [f2, h11]; omega⟩

/-! ## Time can always go on -/

/-- In every state that can be reached only finitely many brokers are up. -/
theorem up_finite (c : Cfg) (ls : List (Lab B)) (s : St B) (h : Run c St.init ls s) : ∃ l : List B, ∀ b, s.up b = true → b ∈ l := by
  induction h with
  | nil => exact ⟨[], fun b h => by simp [St.init] at h⟩
  | snoc h q ih =>
    obtain ⟨l, hl⟩ := ih
    cases q with
    | start b hb =>
      refine ⟨b :: l, fun b' h' => ?_⟩
      simp only [setAt] at h'
      by_cases he : b' = b
      · exact he ▸ List.mem_cons_self
      · rw [if_neg he] at h'
        exact List.mem_cons_of_mem _ (hl b' h')
    | down b hh =>
      refine ⟨l, fun b' h' => ?_⟩
      simp only [setAt] at h'
      by_cases he : b' = b
      · rw [if_pos he] at h'; cases h'
      · rw [if_neg he] at h'; exact hl b' h'
    | _ => exact ⟨l, hl⟩

/-- Every broker in the list that is up writes a heartbeat. -/
theorem beat_all (c : Cfg) : ∀ (l : List B) (s : St B), ∃ ls s', Run c s ls s' ∧ Lab.trouble ∉ ls ∧ s'.now = s.now ∧
    s'.up = s.up ∧ s'.healed = s.healed ∧ s'.cl = s.cl ∧ (∀ b, s.beatAt b = s.now → s'.beatAt b = s.now) ∧
    ∀ b ∈ l, s.up b = true → s'.beatAt b = s.now := by
  intro l
  induction l with
  | nil => intro s; exact ⟨[], s, .nil, by simp, rfl, rfl, rfl, rfl, fun _ h => h, fun b h => by cases h⟩
  | cons b l ih =>
    intro s
    by_cases hb : s.up b = true
    · obtain ⟨ls, s', r, h1, h2, h3, h4, h5, h6, h7⟩ :=
        ih { s with entry := setAt s.entry b (some (s.now + 60000)), beatAt := setAt s.beatAt b s.now }
      refine ⟨[.beat b] ++ ls, s', Run.append (.snoc .nil (.beat b hb)) r, by simp [h1], h2, h3, h4, h5, ?_, ?_⟩
      · intro b' e
        refine h6 b' ?_
        by_cases he : b' = b
        · simp [setAt, he]
        · simp [setAt, he, e]
      · intro b' hm hu
        rcases List.mem_cons.1 hm with rfl | hm
        · exact h6 b' (by simp [setAt])
        · exact h7 b' hm hu
    · obtain ⟨ls, s', r, h1, h2, h3, h4, h5, h6, h7⟩ := ih s
      refine ⟨ls, s', r, h1, h2, h3, h4, h5, h6, fun b' hm hu => ?_⟩
      rcases List.mem_cons.1 hm with rfl | hm
      · exact absurd hu hb
      · exact h7 b' hm hu

/-- The client is not due. -/
def Calm (c : Cfg) (s : St B) : Prop :=
  (∀ st si x, s.cl = .att st si x → s.now < st + 10000 + c.late) ∧
  (∀ due, s.cl = .nap due → s.now < due + c.late) ∧
  (∀ si, s.cl = .off si → s.now < si + c.gap) ∧
  (∀ h st si, s.healed = some h → s.cl = .att st si none → s.now < max h si + c.resp) ∧
  (∀ h st si b, s.healed = some h → s.cl = .att st si (some b) → s.up b = true → s.now < max h si + c.resp) ∧
  (∀ h b d, s.healed = some h → s.cl = .on b false → c.detect = some d → s.now < h + d)

theorem calm_cl (c : Cfg) (s : St B) (x : Cl B) (h : Calm c { s with cl := x }) (ls : List (Lab B)) (ht : Lab.trouble ∉ ls)
    (r : Run c s ls { s with cl := x }) :
    ∃ ls s', Run c s ls s' ∧ Lab.trouble ∉ ls ∧ Calm c s' ∧ s'.now = s.now ∧ s'.up = s.up ∧ s'.healed = s.healed ∧
      s'.beatAt = s.beatAt := ⟨ls, _, r, ht, h, rfl, rfl, rfl, rfl⟩

theorem calm_nap (c : Cfg) (s : St B) : Calm c { s with cl := .nap (s.now + 2000) } := by
  refine ⟨?_, ?_, ?_, ?_, ?_, ?_⟩
  · intro _ _ _ e; cases e
  · intro due e; cases e; dsimp only; omega
  · intro _ e; cases e
  · intro _ _ _ _ e; cases e
  · intro _ _ _ _ _ e; cases e
  · intro _ _ _ _ e; cases e

theorem calm_att (c : Cfg) (hr : 0 < c.resp) (s : St B) (st : Nat) (x : Option B) (h : s.now < st + 10000 + c.late) :
    Calm c { s with cl := .att st s.now x } := by
  refine ⟨?_, ?_, ?_, ?_, ?_, ?_⟩
  · intro _ _ _ e; cases e; exact h
  · intro due e; cases e
  · intro _ e; cases e
  · intro _ _ _ _ e; cases e; dsimp only; omega
  · intro _ _ _ _ _ e; cases e; dsimp only; omega
  · intro _ _ _ _ e; cases e

theorem calm_off (c : Cfg) (hg : 0 < c.gap) (s : St B) : Calm c { s with cl := .off s.now } := by
  refine ⟨?_, ?_, ?_, ?_, ?_, ?_⟩
  · intro _ _ _ e; cases e
  · intro due e; cases e
  · intro _ e; cases e; dsimp only; omega
  · intro _ _ _ _ e; cases e
  · intro _ _ _ _ _ e; cases e
  · intro _ _ _ _ e; cases e

theorem calm_on (c : Cfg) (s : St B) (b : B) : Calm c { s with cl := .on b true } := by
  refine ⟨?_, ?_, ?_, ?_, ?_, ?_⟩
  · intro _ _ _ e; cases e
  · intro due e; cases e
  · intro _ e; cases e
  · intro _ _ _ _ e; cases e
  · intro _ _ _ _ _ e; cases e
  · intro _ _ _ _ e; cases e

/-- The client does what it has to do now. -/
theorem calm_run (c : Cfg) (hr : 0 < c.resp) (hg : 0 < c.gap) (s : St B) :
    ∃ ls s', Run c s ls s' ∧ Lab.trouble ∉ ls ∧ Calm c s' ∧ s'.now = s.now ∧ s'.up = s.up ∧ s'.healed = s.healed ∧
      s'.beatAt = s.beatAt := by
  cases hc : s.cl with
  | on b a =>
    by_cases hq : Calm c s
    · exact ⟨[], s, .nil, by simp, hq, rfl, rfl, rfl, rfl⟩
    · cases a with
      | true => exact absurd (by simpa [← hc] using calm_on c s b) hq
      | false => exact calm_cl c s _ (calm_off c hg s) [.notice] (by simp) (.snoc .nil (.notice b hc))
  | off si => exact calm_cl c s _ (calm_att c hr s s.now none (by omega)) [.use] (by simp) (.snoc .nil (.use si hc))
  | nap due =>
    by_cases hd : due ≤ s.now
    · exact calm_cl c s _ (calm_att c hr s s.now none (by omega)) [.wake] (by simp) (.snoc .nil (.wake due hc hd))
    · refine ⟨[], s, .nil, by simp, ⟨?_, ?_, ?_, ?_, ?_, ?_⟩, rfl, rfl, rfl, rfl⟩
      · intro _ _ _ e; rw [hc] at e; cases e
      · intro due e; rw [hc] at e; cases e; omega
      · intro _ e; rw [hc] at e; cases e
      · intro _ _ _ _ e; rw [hc] at e; cases e
      · intro _ _ _ _ _ e; rw [hc] at e; cases e
      · intro _ _ _ _ e; rw [hc] at e; cases e
  | att st si x =>
    by_cases ht : st + 10000 ≤ s.now
    · exact calm_cl c s _ (calm_nap c s) [.timeout] (by simp) (.snoc .nil (.timeout st si x hc ht))
    · cases x with
      | none =>
        by_cases he : ∃ b e, s.entry b = some e ∧ s.now ≤ e
        · obtain ⟨b, e, h1, h2⟩ := he
          exact calm_cl c s _ (calm_att c hr s st (some b) (by omega)) [.named b] (by simp)
            (.snoc .nil (.named st si b e hc h1 h2))
        · exact calm_cl c s _ (calm_nap c s) [.empty] (by simp)
            (.snoc .nil (.empty st si hc (fun b e h => Nat.lt_of_not_le (fun h' => he ⟨b, e, h, h'⟩))))
      | some b =>
        cases hu : s.up b with
        | true => exact calm_cl c s _ (calm_on c s b) [.admitted b] (by simp) (.snoc .nil (.admitted st si b hc hu))
        | false => exact calm_cl c s _ (calm_nap c s) [.refused] (by simp) (.snoc .nil (.refused st si b hc hu))

/-- **C91**, it is not an empty promise: from every state that can be reached time can go on for as long as one likes without any
trouble. (So in a good period there are runs as long as `C91_connected_partial` asks for, whatever went before.) -/
theorem C91_goes_on_partial (c : Cfg) (hb : 0 < c.beat) (hr : 0 < c.resp) (hg : 0 < c.gap) (ls : List (Lab B)) (s : St B)
    (h : Run c St.init ls s) (n : Nat) :
    ∃ ls' s', Run c s ls' s' ∧ Lab.trouble ∉ ls' ∧ s'.now = s.now + n := by
  induction n generalizing ls s with
  | zero => exact ⟨[], s, .nil, by simp, rfl⟩
  | succ n ih =>
    obtain ⟨l, hl⟩ := up_finite c ls s h
    obtain ⟨l1, s1, r1, h1, h2, h3, h4, h5, _, h7⟩ := beat_all c l s
    obtain ⟨l2, s2, r2, k1, ⟨q1, q2, q3, q4, q5, q6⟩, k3, k4, k5, k6⟩ := calm_run c hr hg s1
    have q := Step.tick (c := c) (s := s2) q1 q2 q3 q4 q5 q6 (by
      intro h b _ hu
      rw [k4, h3] at hu
      rw [k6, h7 b (hl b hu) hu, k3, h2]
      omega)
    have r : Run c s (l1 ++ (l2 ++ [.tick])) { s2 with now := s2.now + 1 } := r1.append (.snoc r2 q)
    obtain ⟨l3, s3, r3, m1, m2⟩ := ih _ _ (h.append r)
    refine ⟨(l1 ++ (l2 ++ [.tick])) ++ l3, s3, r.append r3, by simp [h1, k1, m1], ?_⟩
    dsimp only at m2
    rw [m2, k3, h2]
    omega

end Verif.Props.Failover

import Verif.Model.Failover

/-! # Invariants of the failover model -/

set_option linter.unusedSectionVars false

namespace Verif.Failover
variable {B : Type} [DecidableEq B]

/-- What holds in every state about the client. -/
def clOk (c : Cfg) (s : St B) : Cl B → Prop
  | .on b true => s.up b = true
  | .on _ false => True
  | .off si => si ≤ s.now ∧ s.now ≤ si + c.gap
  | .att st si _ => st ≤ si ∧ si ≤ s.now ∧ s.now ≤ st + 10000 + c.late
  | .nap due => due ≤ s.now + 2000 ∧ s.now ≤ due + c.late

structure Glob (c : Cfg) (s : St B) : Prop where
  healed : ∀ h, s.healed = some h → h ≤ s.now
  entry : ∀ b e, s.entry b = some e → e ≤ s.now + 60000
  beatAt : ∀ b, s.beatAt b ≤ s.now
  cl : clOk c s s.cl

theorem glob_init (c : Cfg) : Glob c (St.init (B := B)) := by
  constructor <;> simp [St.init, clOk]

theorem glob_step (c : Cfg) (s s' : St B) (l : Lab B) (g : Glob c s) (hs : Step c s l s') : Glob c s' := by
  obtain ⟨g1, g2, g3, g4⟩ := g
  cases hs with
  | tick ha hn ho hm hb hd hh =>
    refine ⟨fun h e => by have := g1 h e; dsimp only; omega, fun b e h => by have := g2 b e h; dsimp only; omega,
      fun b => by have := g3 b; dsimp only; omega, ?_⟩
    dsimp only
    cases hc : s.cl with
    | on b a => cases a with
      | true => rw [hc] at g4; exact g4
      | false => trivial
    | off si => rw [hc] at g4; simp only [clOk] at g4 ⊢; have := ho si hc; omega
    | att st si x => rw [hc] at g4; simp only [clOk] at g4 ⊢; have := ha st si x hc; omega
    | nap due => rw [hc] at g4; simp only [clOk] at g4 ⊢; have := hn due hc; omega
  | heal h =>
    refine ⟨(fun h' e => by cases e; exact Nat.le_refl _), g2, g3, ?_⟩
    dsimp only
    cases hc : s.cl with
    | on b a => rw [hc] at g4; cases a <;> exact g4
    | _ => rw [hc] at g4; exact g4
  | trouble =>
    refine ⟨(fun h' e => by cases e), g2, g3, ?_⟩
    dsimp only
    cases hc : s.cl with
    | on b a => rw [hc] at g4; cases a <;> exact g4
    | _ => rw [hc] at g4; exact g4
  | down b h =>
    refine ⟨g1, g2, g3, ?_⟩
    dsimp only
    cases hc : s.cl with
    | on b' a =>
      rw [hc] at g4
      simp only [Cl.lose]
      cases a with
      | true =>
        by_cases e : b' = b
        · simp [e, clOk]
        · simp only [clOk] at g4; simp [e, clOk, setAt, g4]
      | false => simp [clOk]
    | off si => rw [hc] at g4; exact g4
    | att st si x => rw [hc] at g4; exact g4
    | nap due => rw [hc] at g4; exact g4
  | start b h =>
    refine ⟨g1, g2, ?_, ?_⟩
    · intro b'; simp only [setAt]; split
      · exact Nat.le_refl _
      · exact g3 b'
    · dsimp only
      cases hc : s.cl with
      | on b' a =>
        rw [hc] at g4
        cases a with
        | true => simp only [clOk, setAt] at g4 ⊢; split <;> simp [g4]
        | false => trivial
      | off si => rw [hc] at g4; exact g4
      | att st si x => rw [hc] at g4; exact g4
      | nap due => rw [hc] at g4; exact g4
  | beat b h =>
    refine ⟨g1, ?_, ?_, ?_⟩
    · intro b' e he; simp only [setAt] at he; split at he
      · cases he; exact Nat.le_refl _
      · exact g2 b' e he
    · intro b'; simp only [setAt]; split
      · exact Nat.le_refl _
      · exact g3 b'
    · dsimp only
      cases hc : s.cl with
      | on b' a => rw [hc] at g4; cases a <;> exact g4
      | off si => rw [hc] at g4; exact g4
      | att st si x => rw [hc] at g4; exact g4
      | nap due => rw [hc] at g4; exact g4
  | cut b a h hc => exact ⟨g1, g2, g3, trivial⟩
  | notice b hc => exact ⟨g1, g2, g3, by simp [clOk]⟩
  | use si hc => exact ⟨g1, g2, g3, by simp [clOk]; omega⟩
  | named st si b e hc he hn => rw [hc] at g4; simp only [clOk] at g4; exact ⟨g1, g2, g3, by simp only [clOk]; omega⟩
  | empty st si hc he => exact ⟨g1, g2, g3, by simp only [clOk]; omega⟩
  | admitted st si b hc hu => exact ⟨g1, g2, g3, hu⟩
  | refused st si b hc hu => exact ⟨g1, g2, g3, by simp only [clOk]; omega⟩
  | timeout st si x hc ht => exact ⟨g1, g2, g3, by simp only [clOk]; omega⟩
  | fails st si x h hc => exact ⟨g1, g2, g3, by simp only [clOk]; omega⟩
  | wake due hc hd => exact ⟨g1, g2, g3, by simp only [clOk]; omega⟩

theorem glob_run (c : Cfg) (ls : List (Lab B)) (s : St B) (h : Run c St.init ls s) : Glob c s := by
  induction h with
  | nil => exact glob_init c
  | snoc _ hs ih => exact glob_step c _ _ _ ih hs

/-- Where the client is when there has been no trouble since `h`. From `K` on attempts succeed. -/
def clGood (c : Cfg) (h d K : Nat) (s : St B) : Cl B → Prop
  | .on _ true => True
  | .on _ false => s.now ≤ h + d
  | .off si => si ≤ h + d
  | .att st si x => st ≤ K + 12000 + 2 * c.late ∧ (K < st →
      match x with
      | none => si = st ∧ s.now ≤ si + c.resp
      | some b => s.up b = true ∧ si ≤ st + c.resp ∧ s.now ≤ si + c.resp)
  | .nap due => due ≤ K + 12000 + c.late

structure Good (c : Cfg) (b0 : B) (h d K : Nat) (s : St B) : Prop where
  healed : s.healed = some h
  dead : ∀ b e, s.up b = false → s.entry b = some e → e ≤ h + 60000
  up0 : s.up b0 = true
  beat0 : s.now ≤ max h (s.beatAt b0) + c.beat
  entry0 : s.beatAt b0 ≤ h ∨ s.entry b0 = some (s.beatAt b0 + 60000)
  cl : clGood c h d K s s.cl

theorem good_step (c : Cfg) (b0 : B) (h d K : Nat) (s s' : St B) (l : Lab B) (g : Glob c s) (p : Good c b0 h d K s)
    (hd : c.detect = some d) (hK1 : h + 60000 ≤ K) (hK2 : h + d + c.gap ≤ K) (hb1 : c.beat ≤ 60000) (hr : 2 * c.resp < 10000)
    (hl : l ≠ .trouble) (hs : Step c s l s') : Good c b0 h d K s' := by
  obtain ⟨g1, g2, g3, g4⟩ := g
  obtain ⟨p1, p2, p3, p4, p5, p6⟩ := p
  have hh := g1 h p1
  have same : ∀ s1 : St B, s1.now = s.now → s1.up = s.up → clGood c h d K s s.cl → clGood c h d K s1 s.cl := by
    intro s1 e1 e2 hp
    cases hc : s.cl with
    | on b a => rw [hc] at hp; cases a <;> simp_all [clGood]
    | off si => rw [hc] at hp; simpa [clGood] using hp
    | att st si x => rw [hc] at hp; cases x <;> simpa [clGood, e1, e2] using hp
    | nap due => rw [hc] at hp; simpa [clGood] using hp
  cases hs with
  | tick ha hn ho hm hb hd' hh' =>
    refine ⟨p1, p2, p3, by have := hh' h b0 p1 p3; dsimp only; omega, p5, ?_⟩
    dsimp only
    cases hc : s.cl with
    | on b a => cases a with
      | true => trivial
      | false => have := hd' h b d p1 hc hd; simp only [clGood]; omega
    | off si => rw [hc] at p6; exact p6
    | att st si x =>
      rw [hc] at p6 g4; simp only [clGood, clOk] at p6 g4 ⊢
      refine ⟨p6.1, fun hk => ?_⟩
      have p7 := p6.2 hk
      cases x with
      | none =>
        have := hm h st si p1 hc
        exact ⟨p7.1, by omega⟩
      | some b =>
        have := hb h st si b p1 hc p7.1
        exact ⟨p7.1, p7.2.1, by omega⟩
    | nap due => rw [hc] at p6; exact p6
  | heal h' => rw [p1] at h'; cases h'
  | trouble => exact absurd rfl hl
  | down b h' => rw [p1] at h'; cases h'
  | start b h' =>
    have hb : b0 ≠ b := by rintro rfl; rw [p3] at h'; cases h'
    refine ⟨p1, ?_, by simp [setAt, hb, p3], by simpa [setAt, hb] using p4, by simpa [setAt, hb] using p5, ?_⟩
    · intro b' e hu he; simp only [setAt] at hu; split at hu
      · cases hu
      · exact p2 b' e hu he
    · dsimp only
      cases hc : s.cl with
      | on b a => rw [hc] at p6; cases a <;> exact p6
      | off si => rw [hc] at p6; exact p6
      | att st si x =>
        rw [hc] at p6; simp only [clGood] at p6 ⊢
        refine ⟨p6.1, fun hk => ?_⟩
        have p7 := p6.2 hk
        cases x with
        | none => exact p7
        | some b' => exact ⟨by simp only [setAt]; split <;> simp [p7.1], p7.2⟩
      | nap due => rw [hc] at p6; exact p6
  | beat b h' =>
    refine ⟨p1, ?_, p3, ?_, ?_, same _ rfl rfl p6⟩
    · intro b' e hu he; simp only [setAt] at he; split at he
      · rename_i e'; subst e'; dsimp only at hu; rw [h'] at hu; cases hu
      · exact p2 b' e hu he
    · simp only [setAt]; split
      · omega
      · exact p4
    · simp only [setAt]; split
      · rename_i e'; right; rfl
      · exact p5
  | cut b a h' hc => rw [p1] at h'; cases h'
  | notice b hc => rw [hc] at p6; exact ⟨p1, p2, p3, p4, p5, p6⟩
  | use si hc =>
    rw [hc] at p6 g4; simp only [clGood, clOk] at p6 g4
    exact ⟨p1, p2, p3, p4, p5, by simp only [clGood]; exact ⟨by omega, fun hk => by omega⟩⟩
  | named st si b e hc he hn =>
    rw [hc] at p6 g4; simp only [clGood, clOk] at p6 g4
    refine ⟨p1, p2, p3, p4, p5, ?_⟩
    simp only [clGood]
    refine ⟨p6.1, fun hk => ?_⟩
    have p7 := p6.2 hk
    refine ⟨?_, by omega, by omega⟩
    cases hu : s.up b with
    | true => rfl
    | false => have := p2 b e hu he; omega
  | empty st si hc he =>
    rw [hc] at p6 g4; simp only [clGood, clOk] at p6 g4
    refine ⟨p1, p2, p3, p4, p5, ?_⟩
    simp only [clGood]
    by_cases hk : K < st
    · exfalso
      rcases p5 with p5 | p5
      · have : max h (s.beatAt b0) = h := by omega
        omega
      · have := he b0 _ p5
        omega
    · omega
  | admitted st si b hc hu => exact ⟨p1, p2, p3, p4, p5, trivial⟩
  | refused st si b hc hu =>
    rw [hc] at p6 g4; simp only [clGood, clOk] at p6 g4
    refine ⟨p1, p2, p3, p4, p5, ?_⟩
    simp only [clGood]
    by_cases hk : K < st
    · have := (p6.2 hk).1; rw [hu] at this; cases this
    · omega
  | timeout st si x hc ht =>
    rw [hc] at p6 g4; simp only [clGood, clOk] at p6 g4
    refine ⟨p1, p2, p3, p4, p5, ?_⟩
    simp only [clGood]
    by_cases hk : K < st
    · have := p6.2 hk
      cases x with
      | none => dsimp only at this; omega
      | some b => dsimp only at this; omega
    · omega
  | fails st si x h' hc => rw [p1] at h'; cases h'
  | wake due hc hd' =>
    rw [hc] at p6 g4; simp only [clGood, clOk] at p6 g4
    exact ⟨p1, p2, p3, p4, p5, by simp only [clGood]; exact ⟨by omega, fun _ => ⟨trivial, by omega⟩⟩⟩

theorem good_start (c : Cfg) (b0 : B) (d K : Nat) (s : St B) (g : Glob c s) (hh : s.healed = some s.now) (hu : s.up b0 = true)
    (hK1 : s.now + 60000 ≤ K) : Good c b0 s.now d K s := by
  obtain ⟨g1, g2, g3, g4⟩ := g
  refine ⟨hh, fun b e _ he => g2 b e he, hu, by omega, .inl (g3 b0), ?_⟩
  cases hc : s.cl with
  | on b a => cases a <;> simp [clGood]
  | off si => rw [hc] at g4; simp only [clOk] at g4; simp only [clGood]; omega
  | att st si x => rw [hc] at g4; simp only [clOk] at g4; simp only [clGood]; exact ⟨by omega, fun hk => by omega⟩
  | nap due => rw [hc] at g4; simp only [clOk] at g4; simp only [clGood]; omega

theorem Run.append {c : Cfg} {s s1 s2 : St B} {a b : List (Lab B)} (h1 : Run c s a s1) (h2 : Run c s1 b s2) : Run c s (a ++ b) s2 := by
  induction h2 with
  | nil => simpa using h1
  | snoc _ hs ih => rw [← List.append_assoc]; exact .snoc ih hs

theorem good_run (c : Cfg) (b0 : B) (d K : Nat) (ls : List (Lab B)) (s0 : St B) (h0 : Run c St.init ls s0)
    (hh : s0.healed = some s0.now) (hu : s0.up b0 = true) (hd : c.detect = some d) (hK1 : s0.now + 60000 ≤ K)
    (hK2 : s0.now + d + c.gap ≤ K) (hb1 : c.beat ≤ 60000) (hr : 2 * c.resp < 10000)
    (ls' : List (Lab B)) (s : St B) (h : Run c s0 ls' s) (hl : Lab.trouble ∉ ls') : Good c b0 s0.now d K s := by
  induction h with
  | nil => exact good_start c b0 d K s0 (glob_run c _ _ h0) hh hu hK1
  | @snoc ls1 s1 l s2 hr1 hs ih =>
    rw [List.mem_append, not_or] at hl
    exact good_step c b0 s0.now d K s1 s2 l (glob_run c _ _ (h0.append hr1)) (ih hl.1) hd hK1 hK2 hb1 hr
      (fun e => hl.2 (by simp [e])) hs

end Verif.Failover

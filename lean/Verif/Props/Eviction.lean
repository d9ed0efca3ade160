import Verif.Model.Eviction

/-!
# C88: somebody taken off the whitelist is off the network soon
-/

set_option linter.unusedSectionVars false

namespace Verif.Props.Eviction
open Verif Verif.Eviction

variable {B : Type} [DecidableEq B]

/-- The whitelist exists and does not have the key, neither as it was received nor as it is serialised. -/
def Off (c : Cfg) (k : Bytes) (w : Option (List Bytes)) : Prop := ∃ l, w = some l ∧ k ∉ l ∧ c.canon k ∉ l

theorem next_off {w : Option (List Bytes)} {l : List Bytes} {k : Bytes} (hw : w = some l) (hk : k ∉ l) (q : Query)
    (hq : q ≠ .answered true) : q.next w k ≠ .answered true := by
  subst hw
  cases q with
  | first => simp [Query.next]
  | second => simp [Query.next, hk]
  | answered y => simpa [Query.next] using hq

/-- What always holds. -/
structure Timely (c : Cfg) (s : St B) : Prop where
  marsh : ∀ m ∈ s.marsh, m.due ≤ s.now + 5000 ∧ s.now ≤ m.due + c.late
  permits : ∀ x ∈ s.permits, x.expiry ≤ s.now + 30000
  admit : ∀ a ∈ s.admit, a.since ≤ s.now ∧ s.now ≤ a.since + 5000 + c.late ∧ s.task a.here ≠ none
  sleep : ∀ b d, s.task b = some (.sleep d) → d ≤ s.now + 60000 ∧ s.now ≤ d + c.late
  pass : ∀ b d q us, s.task b = some (.pass d q us) → d ≤ s.now + c.passD ∧ s.now ≤ d + c.late
  users : ∀ b, s.task b = none → s.users b = []

theorem setAt_self {A : Type} (f : B → A) (b : B) (a : A) : setAt f b a b = a := if_pos rfl
theorem setAt_ne {A : Type} (f : B → A) {b b' : B} (a : A) (h : b' ≠ b) : setAt f b a b' = f b' := if_neg h

theorem timely_init (c : Cfg) : Timely c (St.init : St B) := by
  constructor <;> simp [St.init]

theorem timely_step {c : Cfg} {s s' : St B} {l : Lab B} (h : Timely c s) (hs : Step c s l s') : Timely c s' := by
  obtain ⟨h1, h2, h3, h4, h5, h6⟩ := h
  cases hs with
  | tick hm ha ht =>
    refine ⟨fun m hm' => ?_, fun x hx => ?_, fun a ha' => ?_, fun b d hd => ?_, fun b d q us hd => ?_, h6⟩ <;> dsimp only at *
    · have := hm m hm'; have := h1 m hm'; omega
    · have := h2 x hx; omega
    · have := ha a ha'; have := h3 a ha'; exact ⟨by omega, by omega, this.2.2⟩
    · have := ht b _ hd; have := h4 b d hd; simp only [Task.due] at *; omega
    · have := ht b _ hd; have := h5 b d q us hd; simp only [Task.due] at *; omega
  | setWhite w => exact ⟨h1, h2, h3, h4, h5, h6⟩
  | ask key =>
    refine ⟨fun m hm => ?_, h2, h3, h4, h5, h6⟩
    rcases List.mem_cons.1 hm with rfl | hm
    · dsimp only; omega
    · exact h1 m hm
  | marshQuery m p q hm =>
    refine ⟨fun m' hm' => ?_, h2, h3, h4, h5, h6⟩
    rcases List.mem_append.1 hm' with hm' | hm'
    · exact h1 m' (by rw [hm]; simp [hm'])
    · rcases List.mem_cons.1 hm' with rfl | hm'
      · exact h1 m (by rw [hm]; simp)
      · exact h1 m' (by rw [hm]; simp [hm'])
  | issue m p q b t hm hq ht =>
    refine ⟨fun m' hm' => ?_, fun x hx => ?_, h3, h4, h5, h6⟩
    · exact h1 m' (by rw [hm]; rcases List.mem_append.1 hm' with h | h <;> simp [h])
    · rcases List.mem_cons.1 hx with rfl | hx
      · dsimp only; omega
      · exact h2 x hx
  | marshEnds m p q hm =>
    refine ⟨fun m' hm' => ?_, h2, h3, h4, h5, h6⟩
    exact h1 m' (by rw [hm]; rcases List.mem_append.1 hm' with h | h <;> simp [h])
  | arrive b hb =>
    refine ⟨h1, h2, fun a ha => ?_, h4, h5, h6⟩
    rcases List.mem_cons.1 ha with rfl | ha
    · exact ⟨Nat.le_refl _, by dsimp only; omega, hb⟩
    · exact h3 a ha
  | validate a p q x p' q' t hm ha hx hb ht hn he =>
    refine ⟨h1, fun y hy => ?_, fun a' ha' => ?_, h4, h5, h6⟩
    · exact h2 y (by rw [hx]; rcases List.mem_append.1 hy with h | h <;> simp [h])
    · rcases List.mem_append.1 ha' with h | h
      · exact h3 a' (by rw [hm]; simp [h])
      · rcases List.mem_cons.1 h with rfl | h
        · exact h3 a (by rw [hm]; simp)
        · exact h3 a' (by rw [hm]; simp [h])
  | register a p q key hm ha =>
    refine ⟨h1, h2, fun a' ha' => ?_, h4, h5, fun b hb => ?_⟩
    · exact h3 a' (by rw [hm]; rcases List.mem_append.1 ha' with h | h <;> simp [h])
    · have hne : b ≠ a.here := by
        rintro rfl
        exact (h3 a (by rw [hm]; simp)).2.2 hb
      dsimp only
      rw [setAt_ne _ _ hne]
      exact h6 b hb
  | admitEnds a p q hm =>
    refine ⟨h1, h2, fun a' ha' => ?_, h4, h5, h6⟩
    exact h3 a' (by rw [hm]; rcases List.mem_append.1 ha' with h | h <;> simp [h])
  | leave b key =>
    refine ⟨h1, h2, h3, h4, h5, fun b' hb => ?_⟩
    by_cases e : b' = b
    · subst e; dsimp only; rw [setAt_self, h6 b' hb]; rfl
    · dsimp only; rw [setAt_ne _ _ e]; exact h6 b' hb
  | start b =>
    refine ⟨h1, h2, fun a ha => ?_, fun b' d hd => ?_, fun b' d q us hd => ?_, fun b' hb => ?_⟩
    · have ha := List.mem_filter.1 ha
      have := h3 a ha.1
      refine ⟨this.1, this.2.1, ?_⟩
      dsimp only
      rw [setAt_ne _ _ (by simpa using ha.2)]
      exact this.2.2
    · dsimp only at hd
      by_cases e : b' = b
      · subst e; rw [setAt_self] at hd; cases hd; dsimp only; omega
      · rw [setAt_ne _ _ e] at hd; exact h4 b' d hd
    · dsimp only at hd
      by_cases e : b' = b
      · subst e; rw [setAt_self] at hd; cases hd
      · rw [setAt_ne _ _ e] at hd; exact h5 b' d q us hd
    · dsimp only at hb ⊢
      by_cases e : b' = b
      · subst e; exact setAt_self _ _ _
      · rw [setAt_ne _ _ e] at hb ⊢; exact h6 b' hb
  | wake b d hd he =>
    have := h4 b d hd
    refine ⟨h1, h2, fun a ha => ⟨(h3 a ha).1, (h3 a ha).2.1, ?_⟩, fun b' d' hd' => ?_, fun b' d' q us hd' => ?_, fun b' hb => ?_⟩
    · dsimp only
      by_cases e : a.here = b
      · rw [e, setAt_self]; simp
      · rw [setAt_ne _ _ e]; exact (h3 a ha).2.2
    · dsimp only at hd'
      by_cases e : b' = b
      · subst e; rw [setAt_self] at hd'; cases hd'
      · rw [setAt_ne _ _ e] at hd'; exact h4 b' d' hd'
    · dsimp only at hd'
      by_cases e : b' = b
      · subst e; rw [setAt_self] at hd'; cases hd'; dsimp only; omega
      · rw [setAt_ne _ _ e] at hd'; exact h5 b' d' q us hd'
    · dsimp only at hb
      by_cases e : b' = b
      · subst e; rw [setAt_self] at hb; cases hb
      · rw [setAt_ne _ _ e] at hb; exact h6 b' hb
  | taskQuery b d q u us hd =>
    have := h5 b d _ _ hd
    refine ⟨h1, h2, fun a ha => ⟨(h3 a ha).1, (h3 a ha).2.1, ?_⟩, fun b' d' hd' => ?_, fun b' d' q us hd' => ?_, fun b' hb => ?_⟩
    · dsimp only
      by_cases e : a.here = b
      · rw [e, setAt_self]; simp
      · rw [setAt_ne _ _ e]; exact (h3 a ha).2.2
    · dsimp only at hd'
      by_cases e : b' = b
      · subst e; rw [setAt_self] at hd'; cases hd'
      · rw [setAt_ne _ _ e] at hd'; exact h4 b' d' hd'
    · dsimp only at hd'
      by_cases e : b' = b
      · subst e; rw [setAt_self] at hd'; cases hd'; exact this
      · rw [setAt_ne _ _ e] at hd'; exact h5 b' d' q us hd'
    · dsimp only at hb
      by_cases e : b' = b
      · subst e; rw [setAt_self] at hb; cases hb
      · rw [setAt_ne _ _ e] at hb; exact h6 b' hb
  | failed b d q u us hd hq =>
    have := h5 b d _ _ hd
    refine ⟨h1, h2, fun a ha => ⟨(h3 a ha).1, (h3 a ha).2.1, ?_⟩, fun b' d' hd' => ?_, fun b' d' q us hd' => ?_, fun b' hb => ?_⟩
    · dsimp only
      by_cases e : a.here = b
      · rw [e, setAt_self]; simp
      · rw [setAt_ne _ _ e]; exact (h3 a ha).2.2
    · dsimp only at hd'
      by_cases e : b' = b
      · subst e; rw [setAt_self] at hd'; cases hd'
      · rw [setAt_ne _ _ e] at hd'; exact h4 b' d' hd'
    · dsimp only at hd'
      by_cases e : b' = b
      · subst e; rw [setAt_self] at hd'; cases hd'; exact this
      · rw [setAt_ne _ _ e] at hd'; exact h5 b' d' q us hd'
    · dsimp only at hb
      by_cases e : b' = b
      · subst e; rw [setAt_self] at hb; cases hb
      · rw [setAt_ne _ _ e] at hb; exact h6 b' hb
  | spared b d u us hd =>
    have := h5 b d _ _ hd
    refine ⟨h1, h2, fun a ha => ⟨(h3 a ha).1, (h3 a ha).2.1, ?_⟩, fun b' d' hd' => ?_, fun b' d' q us hd' => ?_, fun b' hb => ?_⟩
    · dsimp only
      by_cases e : a.here = b
      · rw [e, setAt_self]; simp
      · rw [setAt_ne _ _ e]; exact (h3 a ha).2.2
    · dsimp only at hd'
      by_cases e : b' = b
      · subst e; rw [setAt_self] at hd'; cases hd'
      · rw [setAt_ne _ _ e] at hd'; exact h4 b' d' hd'
    · dsimp only at hd'
      by_cases e : b' = b
      · subst e; rw [setAt_self] at hd'; cases hd'; exact this
      · rw [setAt_ne _ _ e] at hd'; exact h5 b' d' q us hd'
    · dsimp only at hb
      by_cases e : b' = b
      · subst e; rw [setAt_self] at hb; cases hb
      · rw [setAt_ne _ _ e] at hb; exact h6 b' hb
  | kicked b d u us hd =>
    have := h5 b d _ _ hd
    refine ⟨h1, h2, fun a ha => ⟨(h3 a ha).1, (h3 a ha).2.1, ?_⟩, fun b' d' hd' => ?_, fun b' d' q us hd' => ?_, fun b' hb => ?_⟩
    · dsimp only
      by_cases e : a.here = b
      · rw [e, setAt_self]; simp
      · rw [setAt_ne _ _ e]; exact (h3 a ha).2.2
    · dsimp only at hd'
      by_cases e : b' = b
      · subst e; rw [setAt_self] at hd'; cases hd'
      · rw [setAt_ne _ _ e] at hd'; exact h4 b' d' hd'
    · dsimp only at hd'
      by_cases e : b' = b
      · subst e; rw [setAt_self] at hd'; cases hd'; exact this
      · rw [setAt_ne _ _ e] at hd'; exact h5 b' d' q us hd'
    · dsimp only at hb ⊢
      by_cases e : b' = b
      · subst e; rw [setAt_self] at hb; cases hb
      · rw [setAt_ne _ _ e] at hb ⊢; exact h6 b' hb
  | rest b d q hd =>
    have := h5 b d _ _ hd
    refine ⟨h1, h2, fun a ha => ⟨(h3 a ha).1, (h3 a ha).2.1, ?_⟩, fun b' d' hd' => ?_, fun b' d' q us hd' => ?_, fun b' hb => ?_⟩
    · dsimp only
      by_cases e : a.here = b
      · rw [e, setAt_self]; simp
      · rw [setAt_ne _ _ e]; exact (h3 a ha).2.2
    · dsimp only at hd'
      by_cases e : b' = b
      · subst e; rw [setAt_self] at hd'; cases hd'; dsimp only; omega
      · rw [setAt_ne _ _ e] at hd'; exact h4 b' d' hd'
    · dsimp only at hd'
      by_cases e : b' = b
      · subst e; rw [setAt_self] at hd'; cases hd'
      · rw [setAt_ne _ _ e] at hd'; exact h5 b' d' q us hd'
    · dsimp only at hb
      by_cases e : b' = b
      · subst e; rw [setAt_self] at hb; cases hb
      · rw [setAt_ne _ _ e] at hb; exact h6 b' hb

theorem timely_run {c : Cfg} {s s' : St B} {ls : List (Lab B)} (h : Timely c s) (hr : Run c s ls s') : Timely c s' := by
  induction hr with
  | nil => exact h
  | snoc _ hs ih => exact timely_step ih hs

/-! ## After the key `k` was taken off the whitelist at time `t` -/

/-- No permit for the key is valid after this. -/
def lastPermit (c : Cfg) (t : Nat) : Nat := t + 5000 + c.late + 30000
/-- No verification that found such a permit is under way after this. -/
def lastAdmit (c : Cfg) (t : Nat) : Nat := lastPermit c t + 5000 + c.late
/-- The last pass that began until then is over. -/
def lastPass (c : Cfg) (t : Nat) : Nat := lastAdmit c t + c.passD + c.late
/-- The next pass has begun. -/
def nextPass (c : Cfg) (t : Nat) : Nat := lastPass c t + 60000 + c.late

structure Fading (c : Cfg) (k : Bytes) (t : Nat) (s : St B) : Prop where
  off : Off c k s.white
  now : t ≤ s.now
  marsh : ∀ m ∈ s.marsh, m.key = k → m.query = .answered true → m.due ≤ t + 5000
  permits : ∀ x ∈ s.permits, x.key = k → x.expiry ≤ lastPermit c t
  admit : ∀ a ∈ s.admit, a.key = some k → a.since ≤ lastPermit c t
  sleep : ∀ b d, s.task b = some (.sleep d) → k ∈ s.users b → d ≤ lastPass c t + 60000
  pass : ∀ b d q us, s.task b = some (.pass d q us) → k ∈ s.users b →
    d ≤ lastAdmit c t + c.passD ∨
      (d ≤ nextPass c t + c.passD ∧ k ∈ us ∧ ∀ us', us = k :: us' → q ≠ .answered true)

theorem fading_init {c : Cfg} {k : Bytes} {s : St B} (h : Timely c s) (hoff : Off c k s.white) : Fading c k s.now s := by
  refine ⟨hoff, Nat.le_refl _, fun m hm _ _ => (h.marsh m hm).1, fun x hx _ => ?_, fun a ha _ => ?_, fun b d hd _ => ?_,
    fun b d q us hd _ => .inl ?_⟩
  · have := h.permits x hx; unfold lastPermit; omega
  · have := h.admit a ha; unfold lastPermit; omega
  · have := h.sleep b d hd; unfold lastPass lastAdmit lastPermit; omega
  · have := h.pass b d q us hd; unfold lastAdmit lastPermit; omega

/-- Nobody registers with the key once it is too late for that. -/
theorem fading_step {c : Cfg} {k : Bytes} {t : Nat} {s s' : St B} {l : Lab B} (ht : Timely c s) (h : Fading c k t s)
    (hs : Step c s l s') (hw : ∀ w, l = .setWhite w → Off c k w) (hf : ∀ b, l ≠ .failed b k) : Fading c k t s' := by
  have hle1 : lastPermit c t + 5000 + c.late = lastAdmit c t := rfl
  have hle2 : lastAdmit c t + c.passD + c.late = lastPass c t := rfl
  have hle3 : lastPass c t + 60000 + c.late = nextPass c t := rfl
  have hle0 : t + 5000 + c.late + 30000 = lastPermit c t := rfl
  obtain ⟨h1, h2, h3, h4, h5, h6, h7⟩ := h
  cases hs with
  | tick _ _ _ => exact ⟨h1, by dsimp only; omega, h3, h4, h5, h6, h7⟩
  | setWhite w => exact ⟨hw w rfl, h2, h3, h4, h5, h6, h7⟩
  | ask key =>
    refine ⟨h1, h2, fun m hm hk hq => ?_, h4, h5, h6, h7⟩
    rcases List.mem_cons.1 hm with rfl | hm
    · cases hq
    · exact h3 m hm hk hq
  | marshQuery m p q hm =>
    refine ⟨h1, h2, fun m' hm' hk hq => ?_, h4, h5, h6, h7⟩
    rcases List.mem_append.1 hm' with hm' | hm'
    · exact h3 m' (by rw [hm]; simp [hm']) hk hq
    · rcases List.mem_cons.1 hm' with rfl | hm'
      · obtain ⟨l, hl, -, hc⟩ := h1
        dsimp only at hk hq
        by_cases hqq : m.query = .answered true
        · exact h3 m (by rw [hm]; simp) hk hqq
        · subst hk
          exact absurd hq (next_off hl hc _ hqq)
      · exact h3 m' (by rw [hm]; simp [hm']) hk hq
  | issue m p q b t' hm hq ht' =>
    refine ⟨h1, h2, fun m' hm' => ?_, fun x hx hk => ?_, h5, h6, h7⟩
    · exact h3 m' (by rw [hm]; rcases List.mem_append.1 hm' with h | h <;> simp [h])
    · rcases List.mem_cons.1 hx with rfl | hx
      · dsimp only at hk ⊢
        have := h3 m (by rw [hm]; simp) hk hq
        have := ht.marsh m (by rw [hm]; simp)
        omega
      · exact h4 x hx hk
  | marshEnds m p q hm =>
    refine ⟨h1, h2, fun m' hm' => ?_, h4, h5, h6, h7⟩
    exact h3 m' (by rw [hm]; rcases List.mem_append.1 hm' with h | h <;> simp [h])
  | arrive b hb =>
    refine ⟨h1, h2, h3, h4, fun a ha hk => ?_, h6, h7⟩
    rcases List.mem_cons.1 ha with rfl | ha
    · cases hk
    · exact h5 a ha hk
  | validate a p q x p' q' t' hm ha hx hb ht' hn he =>
    refine ⟨h1, h2, h3, fun y hy => ?_, fun a' ha' hk => ?_, h6, h7⟩
    · exact h4 y (by rw [hx]; rcases List.mem_append.1 hy with h | h <;> simp [h])
    · rcases List.mem_append.1 ha' with h | h
      · exact h5 a' (by rw [hm]; simp [h]) hk
      · rcases List.mem_cons.1 h with rfl | h
        · dsimp only at hk ⊢
          have := h4 x (by rw [hx]; simp) (Option.some.inj hk)
          omega
        · exact h5 a' (by rw [hm]; simp [h]) hk
  | register a p q key hm ha =>
    have hu : ∀ b, k ∈ setAt s.users a.here (key :: (s.users a.here).filter (· ≠ key)) b →
        k ∈ s.users b ∨ (b = a.here ∧ key = k) := by
      intro b hk
      by_cases e : b = a.here
      · subst e
        rw [setAt_self] at hk
        rcases List.mem_cons.1 hk with rfl | hk
        · exact .inr ⟨rfl, rfl⟩
        · exact .inl (List.mem_filter.1 hk).1
      · rw [setAt_ne _ _ e] at hk; exact .inl hk
    have hnow : key = k → s.now ≤ lastAdmit c t := by
      rintro rfl
      have := h5 a (by rw [hm]; simp) ha
      have := ht.admit a (by rw [hm]; simp)
      omega
    refine ⟨h1, h2, h3, h4, fun a' ha' => ?_, fun b d hd hk => ?_, fun b d q us hd hk => ?_⟩
    · exact h5 a' (by rw [hm]; rcases List.mem_append.1 ha' with h | h <;> simp [h])
    · rcases hu b hk with hk | ⟨-, hk⟩
      · exact h6 b d hd hk
      · have := hnow hk; have := ht.sleep b d hd; omega
    · rcases hu b hk with hk | ⟨-, hk⟩
      · exact h7 b d q us hd hk
      · have := hnow hk; have := ht.pass b d q us hd; exact .inl (by omega)
  | admitEnds a p q hm =>
    refine ⟨h1, h2, h3, h4, fun a' ha' => ?_, h6, h7⟩
    exact h5 a' (by rw [hm]; rcases List.mem_append.1 ha' with h | h <;> simp [h])
  | leave b key =>
    have hu : ∀ b', k ∈ setAt s.users b ((s.users b).filter (· ≠ key)) b' → k ∈ s.users b' := by
      intro b' hk
      by_cases e : b' = b
      · subst e; rw [setAt_self] at hk; exact (List.mem_filter.1 hk).1
      · rw [setAt_ne _ _ e] at hk; exact hk
    exact ⟨h1, h2, h3, h4, h5, fun b d hd hk => h6 b d hd (hu b hk), fun b d q us hd hk => h7 b d q us hd (hu b hk)⟩
  | start b =>
    refine ⟨h1, h2, h3, h4, fun a ha => h5 a (List.mem_filter.1 ha).1, fun b' d hd hk => ?_, fun b' d q us hd hk => ?_⟩
    · dsimp only at hd hk
      by_cases e : b' = b
      · subst e; rw [setAt_self] at hk; cases hk
      · rw [setAt_ne _ _ e] at hd hk; exact h6 b' d hd hk
    · dsimp only at hd hk
      by_cases e : b' = b
      · subst e; rw [setAt_self] at hk; cases hk
      · rw [setAt_ne _ _ e] at hd hk; exact h7 b' d q us hd hk
  | wake b d hd hn =>
    refine ⟨h1, h2, h3, h4, h5, fun b' d' hd' hk => ?_, fun b' d' q us hd' hk => ?_⟩ <;> dsimp only at hd' hk
    · by_cases e : b' = b
      · subst e; rw [setAt_self] at hd'; cases hd'
      · rw [setAt_ne _ _ e] at hd'; exact h6 b' d' hd' hk
    · by_cases e : b' = b
      · subst e; rw [setAt_self] at hd'; cases hd'
        have := h6 b' d hd hk
        have := ht.sleep b' d hd
        exact .inr ⟨by omega, hk, fun _ _ => by simp⟩
      · rw [setAt_ne _ _ e] at hd'; exact h7 b' d' q us hd' hk
  | taskQuery b d q u us hd =>
    refine ⟨h1, h2, h3, h4, h5, fun b' d' hd' hk => ?_, fun b' d' q' us' hd' hk => ?_⟩ <;> dsimp only at hd' hk
    · by_cases e : b' = b
      · subst e; rw [setAt_self] at hd'; cases hd'
      · rw [setAt_ne _ _ e] at hd'; exact h6 b' d' hd' hk
    · by_cases e : b' = b
      · subst e; rw [setAt_self] at hd'; cases hd'
        rcases h7 b' d q (u :: us) hd hk with h | ⟨h, h', h''⟩
        · exact .inl h
        · refine .inr ⟨h, h', fun us' hus => ?_⟩
          obtain ⟨l, hl, hc, -⟩ := h1
          cases hus
          exact next_off hl hc _ (h'' _ rfl)
      · rw [setAt_ne _ _ e] at hd'; exact h7 b' d' q' us' hd' hk
  | failed b d q u us hd hq =>
    have hne : u ≠ k := fun e => hf b (by rw [e])
    refine ⟨h1, h2, h3, h4, h5, fun b' d' hd' hk => ?_, fun b' d' q' us' hd' hk => ?_⟩ <;> dsimp only at hd' hk
    · by_cases e : b' = b
      · subst e; rw [setAt_self] at hd'; cases hd'
      · rw [setAt_ne _ _ e] at hd'; exact h6 b' d' hd' hk
    · by_cases e : b' = b
      · subst e; rw [setAt_self] at hd'; cases hd'
        rcases h7 b' d q (u :: us) hd hk with h | ⟨h, h', -⟩
        · exact .inl h
        · refine .inr ⟨h, ?_, fun _ _ => by simp⟩
          exact (List.mem_cons.1 h').resolve_left (Ne.symm hne)
      · rw [setAt_ne _ _ e] at hd'; exact h7 b' d' q' us' hd' hk
  | spared b d u us hd =>
    refine ⟨h1, h2, h3, h4, h5, fun b' d' hd' hk => ?_, fun b' d' q' us' hd' hk => ?_⟩ <;> dsimp only at hd' hk
    · by_cases e : b' = b
      · subst e; rw [setAt_self] at hd'; cases hd'
      · rw [setAt_ne _ _ e] at hd'; exact h6 b' d' hd' hk
    · by_cases e : b' = b
      · subst e; rw [setAt_self] at hd'; cases hd'
        rcases h7 b' d _ (u :: us) hd hk with h | ⟨h, h', h''⟩
        · exact .inl h
        · refine .inr ⟨h, ?_, fun _ _ => by simp⟩
          rcases List.mem_cons.1 h' with rfl | h'
          · exact absurd rfl (h'' _ rfl)
          · exact h'
      · rw [setAt_ne _ _ e] at hd'; exact h7 b' d' q' us' hd' hk
  | kicked b d u us hd =>
    have hu : ∀ b', k ∈ setAt s.users b ((s.users b).filter (· ≠ u)) b' → k ∈ s.users b' ∧ (b' = b → k ≠ u) := by
      intro b' hk
      by_cases e : b' = b
      · subst e; rw [setAt_self] at hk
        exact ⟨(List.mem_filter.1 hk).1, fun _ => by simpa using (List.mem_filter.1 hk).2⟩
      · rw [setAt_ne _ _ e] at hk; exact ⟨hk, fun e' => absurd e' e⟩
    refine ⟨h1, h2, h3, h4, h5, fun b' d' hd' hk => ?_, fun b' d' q' us' hd' hk => ?_⟩ <;> dsimp only at hd' hk
    · by_cases e : b' = b
      · subst e; rw [setAt_self] at hd'; cases hd'
      · rw [setAt_ne _ _ e] at hd'; exact h6 b' d' hd' (hu b' hk).1
    · by_cases e : b' = b
      · subst e; rw [setAt_self] at hd'; cases hd'
        rcases h7 b' d _ (u :: us) hd (hu b' hk).1 with h | ⟨h, h', h''⟩
        · exact .inl h
        · refine .inr ⟨h, ?_, fun _ _ => by simp⟩
          exact (List.mem_cons.1 h').resolve_left ((hu b' hk).2 rfl)
      · rw [setAt_ne _ _ e] at hd'; exact h7 b' d' q' us' hd' (hu b' hk).1
  | rest b d q hd =>
    refine ⟨h1, h2, h3, h4, h5, fun b' d' hd' hk => ?_, fun b' d' q' us' hd' hk => ?_⟩ <;> dsimp only at hd' hk
    · by_cases e : b' = b
      · subst e; rw [setAt_self] at hd'; cases hd'
        rcases h7 b' d q [] hd hk with h | ⟨-, h, -⟩
        · have := ht.pass b' d q [] hd; omega
        · cases h
      · rw [setAt_ne _ _ e] at hd'; exact h6 b' d' hd' hk
    · by_cases e : b' = b
      · subst e; rw [setAt_self] at hd'; cases hd'
      · rw [setAt_ne _ _ e] at hd'; exact h7 b' d' q' us' hd' hk

/-- **C88.** After any run `ls` the key `k` is off the whitelist, and stays off during `ls'`, in which the whitelist tasks get
answers about it. Once 100 seconds, twice the duration of a pass and five times the delay of the runtime have gone by, no
broker has a user with this key. -/
theorem C88_off_the_network {c : Cfg} {s0 s : St B} {ls ls' : List (Lab B)} (k : Bytes) (h0 : Run c St.init ls s0)
    (hoff : Off c k s0.white) (h : Run c s0 ls' s) (hstay : ∀ w, Lab.setWhite w ∈ ls' → Off c k w)
    (hans : ∀ b, Lab.failed b k ∉ ls') (htime : s0.now + 100000 + 2 * c.passD + 5 * c.late < s.now) (b : B) :
    k ∉ s.users b := by
  have ht0 := timely_run (timely_init c) h0
  have hfade : Fading c k s0.now s := by
    clear htime
    induction h with
    | nil => exact fading_init ht0 hoff
    | snoc h hs ih =>
      refine fading_step (timely_run ht0 h) (ih (fun w hw => hstay w (by simp [hw])) fun b hb => hans b (by simp [hb])) hs ?_ ?_
      · rintro w rfl; exact hstay w (by simp)
      · rintro b rfl; exact hans b (by simp)
  have ht := timely_run ht0 h
  intro hk
  cases htask : s.task b with
  | none => rw [ht.users b htask] at hk; cases hk
  | some x =>
    cases x with
    | sleep d =>
      have := hfade.sleep b d htask hk
      have := ht.sleep b d htask
      unfold lastPass lastAdmit lastPermit at *
      omega
    | pass d q us =>
      have := ht.pass b d q us htask
      have := hfade.pass b d q us htask hk
      simp only [nextPass, lastPass, lastAdmit, lastPermit] at this
      omega

/-! ## Runs -/

theorem run_trans {c : Cfg} {s s' s'' : St B} {ls ls' : List (Lab B)} (h : Run c s ls s') (h' : Run c s' ls' s'') :
    Run c s (ls ++ ls') s'' := by
  induction h' with
  | nil => simpa using h
  | snoc _ hs ih => rw [← List.append_assoc]; exact .snoc ih hs

theorem run_cons {c : Cfg} {s s' s'' : St B} {l : Lab B} {ls : List (Lab B)} (h : Step c s l s') (h' : Run c s' ls s'') :
    Run c s (l :: ls) s'' := run_trans (ls := [l]) (.snoc .nil h) h'

/-- Time passes while nobody is due. -/
theorem ticks {c : Cfg} (s : St B) (n : Nat) (hm : ∀ m ∈ s.marsh, s.now + n ≤ m.due)
    (ha : ∀ a ∈ s.admit, s.now + n ≤ a.since + 5000) (ht : ∀ b t, s.task b = some t → s.now + n ≤ t.due) :
    ∃ ls, (∀ l ∈ ls, l = .tick) ∧ Run c s ls { s with now := s.now + n } := by
  induction n with
  | zero => exact ⟨[], by simp, .nil⟩
  | succ n ih =>
    obtain ⟨ls, hl, h⟩ := ih (fun m h => by have := hm m h; omega) (fun a h => by have := ha a h; omega)
      fun b t h => by have := ht b t h; omega
    refine ⟨ls ++ [.tick], fun l hm => (List.mem_append.1 hm).elim (hl l) List.mem_singleton.1, .snoc h (.tick (fun m h => ?_) (fun a h => ?_) fun b t h => ?_)⟩
    · have := hm m h; dsimp only; omega
    · have := ha a h; dsimp only; omega
    · have := ht b t h; dsimp only; omega

/-- One broker with one user, whose whitelist task begins to sleep at time `n`; the whitelist is empty. -/
def lonely (b : B) (k : Bytes) (n : Nat) : St B :=
  ⟨n, some [], [], [], [], setAt (fun _ => []) b [k], setAt (fun _ => none) b (some (.sleep (n + 60000)))⟩

theorem off_nil (c : Cfg) (k : Bytes) : Off c k (some []) := ⟨[], rfl, by simp, by simp⟩

theorem setAt_setAt {A : Type} (f : B → A) (b : B) (a a' : A) : setAt (setAt f b a) b a' = setAt f b a' := by
  funext x; unfold setAt; split <;> rfl

/-- It logs in before the whitelist exists. -/
theorem run_lonely (c : Cfg) (b : B) (k : Bytes) : ∃ ls, Run c St.init ls (lonely b k 0) := by
  have : ∃ ls s, Run c St.init ls s ∧ s = lonely b k 0 := by
    refine ⟨_, _, run_cons (.start b) <| run_cons (.ask k) <| run_cons (.marshQuery _ [] [] rfl) <|
      run_cons (.issue _ [] [] b 0 rfl rfl (Nat.le_refl _)) <| run_cons (.arrive b ?_) <|
      run_cons (.validate _ [] [] _ [] [] 0 rfl rfl rfl (.inl rfl) (Nat.le_refl _) (Nat.le_refl _) (Nat.zero_le _)) <|
      run_cons (.register _ [] [] k rfl rfl) <| run_cons (.setWhite (some [])) .nil, ?_⟩
    · simp [St.init, setAt]
    · simp [St.init, lonely, setAt_setAt, setAt_self]
  obtain ⟨ls, s, h, rfl⟩ := this
  exact ⟨ls, h⟩

theorem lonely_due {b b' : B} {k : Bytes} {n : Nat} {t : Task} (h : (lonely b k n).task b' = some t) :
    t.due = n + 60000 := by
  by_cases e : b' = b
  · subst e; simp only [lonely, setAt_self, Option.some.injEq] at h; subst h; rfl
  · simp only [lonely, setAt_ne _ _ e] at h; cases h

/-- A minute passes. -/
theorem run_sleep (c : Cfg) (b : B) (k : Bytes) (n : Nat) :
    ∃ ls, (∀ l ∈ ls, l = .tick) ∧ Run c (lonely b k n) ls { lonely b k n with now := n + 60000 } :=
  ticks (lonely b k n) 60000 (by simp [lonely]) (by simp [lonely]) fun b' t h => by
    rw [lonely_due h]; exact Nat.le_refl _

/-- It passes, and the query fails. -/
theorem run_minute (c : Cfg) (b : B) (k : Bytes) (n : Nat) :
    ∃ ls, (∀ w, Lab.setWhite w ∉ ls) ∧ Run c (lonely b k n) ls (lonely b k (n + 60000)) := by
  obtain ⟨ls, hl, h⟩ := run_sleep c b k n
  have : ∃ s, Run c { lonely b k n with now := n + 60000 } [.wake b, .failed b k, .rest b] s ∧
      s = lonely b k (n + 60000) := by
    refine ⟨_, run_cons (.wake b (n + 60000) ?_ (Nat.le_refl _)) <|
      run_cons (.failed b (n + 60000 + c.passD) .first k [] ?_ (by simp)) <|
      run_cons (.rest b (n + 60000 + c.passD) .first (setAt_self _ _ _)) .nil, ?_⟩
    · simp only [lonely, setAt_self]
    · simp only [lonely, setAt_self]
    · simp only [lonely, setAt_setAt]
  obtain ⟨s, h', rfl⟩ := this
  refine ⟨_, fun w hm => ?_, run_trans h h'⟩
  rcases List.mem_append.1 hm with hm | hm
  · cases hl _ hm
  · simp at hm

/-- Answers are needed: if the queries fail, a user who is off the whitelist stays for as long as you like. -/
theorem C88_needs_answers (c : Cfg) (b : B) (k : Bytes) (n : Nat) :
    ∃ ls s0 ls' s, Run c St.init ls s0 ∧ Off c k s0.white ∧ Run c s0 ls' s ∧ (∀ w, Lab.setWhite w ∉ ls') ∧
      s0.now + n ≤ s.now ∧ k ∈ s.users b := by
  obtain ⟨ls, h⟩ := run_lonely c b k
  have : ∃ ls', (∀ w, Lab.setWhite w ∉ ls') ∧ Run c (lonely b k 0) ls' (lonely b k (n * 60000)) := by
    clear h
    induction n with
    | zero => exact ⟨[], by simp, by rw [Nat.zero_mul]; exact .nil⟩
    | succ n ih =>
      obtain ⟨ls', hw, h⟩ := ih
      obtain ⟨ls2, hw2, h2⟩ := run_minute c b k (n * 60000)
      refine ⟨_, fun w hm => ?_, by rw [Nat.succ_mul]; exact run_trans h h2⟩
      rcases List.mem_append.1 hm with hm | hm
      · exact hw w hm
      · exact hw2 w hm
  obtain ⟨ls', hw, h'⟩ := this
  exact ⟨ls, _, ls', _, h, off_nil c k, h', hw, by simp only [lonely]; omega, by simp [lonely, setAt_self]⟩

/-- The forty seconds are real: a user asks a marshal at time 0, is found allowed, and is taken off the whitelist at once.
They get their permit five seconds later, use it after thirty more, and are admitted after another five. -/
theorem C88_late_login (c : Cfg) (b : B) (k : Bytes) :
    ∃ ls s0 ls' s, Run c St.init ls s0 ∧ s0.now = 0 ∧ Off c k s0.white ∧ Run c s0 ls' s ∧ (∀ w, Lab.setWhite w ∉ ls') ∧
      (∀ b, Lab.failed b k ∉ ls') ∧ s.now = 40000 ∧ s0.users b = [] ∧ s.users b = [k] := by
  have h0 : ∃ s0 : St B, Run c St.init [.start b, .ask k, .marshQuery, .setWhite (some [])] s0 ∧
      s0 = ⟨0, some [], [⟨k, 5000, .answered true⟩], [], [], fun _ => [], setAt (fun _ => none) b (some (.sleep 60000))⟩ := by
    refine ⟨_, run_cons (.start b) <| run_cons (.ask k) <| run_cons (.marshQuery _ [] [] rfl) <|
      run_cons (.setWhite (some [])) .nil, ?_⟩
    have : setAt (fun _ : B => ([] : List Bytes)) b [] = fun _ => [] := by funext x; simp [setAt]
    simp [St.init, this, Query.next]
  obtain ⟨s0, h0, rfl⟩ := h0
  have ht : ∀ b' t, setAt (fun _ => none) b (some (Task.sleep 60000)) b' = some t → t.due = 60000 := by
    intro b' t h
    by_cases e : b' = b
    · subst e; rw [setAt_self] at h; cases h; rfl
    · rw [setAt_ne _ _ e] at h; cases h
  obtain ⟨l1, q1, h1⟩ := ticks (c := c) (⟨0, some [], [⟨k, 5000, .answered true⟩], [], [], fun _ => [],
    setAt (fun _ => none) b (some (.sleep 60000))⟩ : St B) 5000 (fun m hm => by
      simp only [List.mem_singleton] at hm; subst hm; simp only; omega)
    (fun _ h => absurd h List.not_mem_nil) fun b' t h => by rw [ht b' t h]; simp only; omega
  have h2 : Step c (⟨0 + 5000, some [], [⟨k, 5000, .answered true⟩], [], [], fun _ => [],
      setAt (fun _ => none) b (some (.sleep 60000))⟩ : St B) (.issue b k) ⟨5000, some [], [], [⟨b, k, 5000 + 30000⟩], [],
      fun _ => [], setAt (fun _ => none) b (some (.sleep 60000))⟩ :=
    .issue ⟨k, 5000, .answered true⟩ [] [] b 5000 rfl rfl (Nat.le_refl _)
  obtain ⟨l3, q3, h3⟩ := ticks (c := c) (⟨5000, some [], [], [⟨b, k, 5000 + 30000⟩], [], fun _ => [],
    setAt (fun _ => none) b (some (.sleep 60000))⟩ : St B) 30000 (fun _ h => absurd h List.not_mem_nil) (fun _ h => absurd h List.not_mem_nil)
    fun b' t h => by rw [ht b' t h]; simp only; omega
  have h4 : Step c (⟨5000 + 30000, some [], [], [⟨b, k, 5000 + 30000⟩], [], fun _ => [],
      setAt (fun _ => none) b (some (.sleep 60000))⟩ : St B) (.arrive b)
      ⟨5000 + 30000, some [], [], [⟨b, k, 5000 + 30000⟩], [⟨b, 5000 + 30000, none⟩], fun _ => [],
      setAt (fun _ => none) b (some (.sleep 60000))⟩ := .arrive b (by simp [setAt_self])
  have h5 : Step c (⟨5000 + 30000, some [], [], [⟨b, k, 5000 + 30000⟩], [⟨b, 5000 + 30000, none⟩], fun _ => [],
      setAt (fun _ => none) b (some (.sleep 60000))⟩ : St B) (.validate b k)
      ⟨5000 + 30000, some [], [], [], [⟨b, 5000 + 30000, some k⟩], fun _ => [],
      setAt (fun _ => none) b (some (.sleep 60000))⟩ :=
    .validate ⟨b, 5000 + 30000, none⟩ [] [] ⟨b, k, 5000 + 30000⟩ [] [] (5000 + 30000) rfl rfl rfl (.inl rfl)
      (Nat.le_refl _) (Nat.le_refl _) (Nat.le_refl _)
  obtain ⟨l6, q6, h6⟩ := ticks (c := c) (⟨5000 + 30000, some [], [], [], [⟨b, 5000 + 30000, some k⟩], fun _ => [],
      setAt (fun _ => none) b (some (.sleep 60000))⟩ : St B) 5000 (fun _ h => absurd h List.not_mem_nil) (fun m hm => by
      simp only [List.mem_singleton] at hm; subst hm; simp only; omega)
    fun b' t h => by rw [ht b' t h]; simp only; omega
  have h7 := Step.register (c := c) (s := (⟨5000 + 30000 + 5000, some [], [], [], [⟨b, 5000 + 30000, some k⟩], fun _ => [],
      setAt (fun _ => none) b (some (.sleep 60000))⟩ : St B)) ⟨b, 5000 + 30000, some k⟩ [] [] k rfl rfl
  have h := run_trans h1 (run_cons h2 (run_trans h3 (run_cons h4 (run_cons h5 (run_trans h6 (run_cons h7 .nil))))))
  refine ⟨_, _, _, _, h0, rfl, off_nil c k, h, ?_, ?_, by simp, rfl, by simp [setAt_self]⟩
  all_goals
    intro w hm
    simp only [List.mem_append, List.mem_cons, List.not_mem_nil, or_false, reduceCtorEq, false_or] at hm
    rcases hm with hm | hm | hm
    · cases q1 _ hm
    · cases q3 _ hm
    · cases q6 _ hm

/-- A case of C88: the user of `lonely` is asked about after a minute, and is gone when two minutes have gone by. -/
example (c : Cfg) (hc : c.passD = 0) (hl : c.late = 0) (b : B) (k : Bytes) :
    ∃ ls s0 ls' s, Run c St.init ls s0 ∧ Off c k s0.white ∧ Run c s0 ls' s ∧ (∀ w, Lab.setWhite w ∈ ls' → Off c k w) ∧
      (∀ b, Lab.failed b k ∉ ls') ∧ s0.now + 100000 + 2 * c.passD + 5 * c.late < s.now ∧ k ∈ s0.users b ∧
      ∀ b, k ∉ s.users b := by
  obtain ⟨ls, h⟩ := run_lonely c b k
  obtain ⟨l1, q1, h1⟩ := run_sleep c b k 0
  have h2 : ∃ s, Run c { lonely b k 0 with now := 0 + 60000 } [.wake b, .taskQuery b, .taskQuery b, .kicked b k, .rest b] s ∧
      s = { lonely b k 60000 with users := fun _ => [] } := by
    refine ⟨_, run_cons (.wake b (0 + 60000) ?_ (Nat.le_refl _)) <|
      run_cons (.taskQuery b (0 + 60000 + c.passD) .first k [] ?_) <|
      run_cons (.taskQuery b (0 + 60000 + c.passD) .second k [] ?_) <|
      run_cons (.kicked b (0 + 60000 + c.passD) k [] ?_) <|
      run_cons (.rest b (0 + 60000 + c.passD) .first (setAt_self _ _ _)) .nil, ?_⟩
    · simp only [lonely, setAt_self]
    · simp only [lonely, setAt_self]
    · simp only [lonely, setAt_self, Query.next]; simp
    · simp only [lonely, setAt_self, Query.next]; simp
    · have : setAt (fun _ : B => ([] : List Bytes)) b [] = fun _ => [] := by funext x; simp [setAt]
      simp [lonely, setAt_setAt, setAt_self, this]
  obtain ⟨s, h2, e⟩ := h2
  obtain ⟨l3, q3, h3⟩ := ticks (c := c) s 60000 (by simp [e, lonely]) (by simp [e, lonely]) fun b' t h => by
    have h : (lonely b k 60000).task b' = some t := by rw [e] at h; exact h
    rw [lonely_due h, e]; exact Nat.le_refl _
  have h' := run_trans h1 (run_trans h2 h3)
  have hn : s.now + 60000 = 120000 := by rw [e]; simp only [lonely]
  have hw : ∀ w, Lab.setWhite w ∉ l1 ++ ([.wake b, .taskQuery b, .taskQuery b, .kicked b k, .rest b] ++ l3) := by
    intro w hm
    rcases List.mem_append.1 hm with hm | hm
    · cases q1 _ hm
    · rcases List.mem_append.1 hm with hm | hm
      · simp at hm
      · cases q3 _ hm
  have hf : ∀ b', Lab.failed b' k ∉ l1 ++ ([.wake b, .taskQuery b, .taskQuery b, .kicked b k, .rest b] ++ l3) := by
    intro w hm
    rcases List.mem_append.1 hm with hm | hm
    · cases q1 _ hm
    · rcases List.mem_append.1 hm with hm | hm
      · simp at hm
      · cases q3 _ hm
  have ht : (lonely b k 0).now + 100000 + 2 * c.passD + 5 * c.late < s.now + 60000 := by
    rw [hn, hc, hl]; simp only [lonely]; omega
  exact ⟨ls, _, _, _, h, off_nil c k, h', fun w hm => absurd hm (hw w), hf, ht, by simp [lonely, setAt_self],
    C88_off_the_network k h (off_nil c k) h' (fun w hm => absurd hm (hw w)) hf ht⟩

/-! ## Time can always go on -/

/-- Only finitely many brokers have been started. -/
theorem tasks_finite {c : Cfg} {ls : List (Lab B)} {s : St B} (h : Run c St.init ls s) :
    ∃ l : List B, ∀ b, s.task b ≠ none → b ∈ l := by
  induction h with
  | nil => exact ⟨[], fun b h => by simp [St.init] at h⟩
  | snoc h q ih =>
    obtain ⟨l, hl⟩ := ih
    cases q with
    | start b =>
      refine ⟨b :: l, fun b' h' => ?_⟩
      by_cases he : b' = b
      · exact he ▸ List.mem_cons_self
      · exact List.mem_cons_of_mem _ (hl b' (by simpa [setAt_ne _ _ he] using h'))
    | wake b d e | taskQuery b d q u us e | failed b d q u us e | spared b d u us e | kicked b d u us e | rest b d q e =>
      refine ⟨l, fun b' h' => ?_⟩
      by_cases he : b' = b
      · exact he ▸ hl b (by rw [e]; exact fun x => by cases x)
      · exact hl b' (by simpa [setAt_ne _ _ he] using h')
    | _ => exact ⟨l, hl⟩

/-- Nobody changes the whitelist and no query fails. -/
def Quiet (ls : List (Lab B)) : Prop := (∀ w, Lab.setWhite w ∉ ls) ∧ ∀ b k, Lab.failed b k ∉ ls

theorem Quiet.append {l l' : List (Lab B)} (h : Quiet l) (h' : Quiet l') : Quiet (l ++ l') :=
  ⟨fun w hm => (List.mem_append.1 hm).elim (h.1 w) (h'.1 w), fun b k hm => (List.mem_append.1 hm).elim (h.2 b k) (h'.2 b k)⟩

/-- What stays as it is while a task works. -/
structure Beside (b : B) (s s' : St B) : Prop where
  now : s'.now = s.now
  marsh : s'.marsh = s.marsh
  admit : s'.admit = s.admit
  task : ∀ b', b' ≠ b → s'.task b' = s.task b'

theorem Beside.trans {b : B} {s s' s'' : St B} (h : Beside b s s') (h' : Beside b s' s'') : Beside b s s'' :=
  ⟨h'.now.trans h.now, h'.marsh.trans h.marsh, h'.admit.trans h.admit, fun b' hb => (h'.task b' hb).trans (h.task b' hb)⟩

/-- A pass of the whitelist task can be completed at once. -/
theorem finish_pass {c : Cfg} (b : B) : ∀ (us : List Bytes) (d : Nat) (q : Query) (s : St B), s.task b = some (.pass d q us) →
    ∃ ls s', Run c s ls s' ∧ Quiet ls ∧ Beside b s s' ∧ s'.task b = some (.sleep (s.now + 60000)) := by
  intro us
  induction us with
  | nil =>
    intro d q s h
    exact ⟨[.rest b], _, .snoc .nil (.rest b d q h), by simp [Quiet], ⟨rfl, rfl, rfl, fun b' hb => setAt_ne _ _ hb⟩, setAt_self _ _ _⟩
  | cons u us ih =>
    -- once the query is answered
    have fin : ∀ (d : Nat) (y : Bool) (s : St B), s.task b = some (.pass d (.answered y) (u :: us)) →
        ∃ ls s', Run c s ls s' ∧ Quiet ls ∧ Beside b s s' ∧ s'.task b = some (.sleep (s.now + 60000)) := by
      intro d y s h
      cases y with
      | true =>
        obtain ⟨ls, s', r, h1, h2, h3⟩ := ih d .first { s with task := setAt s.task b (some (.pass d .first us)) } (setAt_self _ _ _)
        exact ⟨[.spared b u] ++ ls, s', run_trans (.snoc .nil (.spared b d u us h)) r, Quiet.append (by simp [Quiet]) h1,
          ⟨h2.now, h2.marsh, h2.admit, fun b' hb => (h2.task b' hb).trans (setAt_ne _ _ hb)⟩, h3⟩
      | false =>
        obtain ⟨ls, s', r, h1, h2, h3⟩ := ih d .first
          { s with task := setAt s.task b (some (.pass d .first us)), users := setAt s.users b ((s.users b).filter (· ≠ u)) } (setAt_self _ _ _)
        exact ⟨[.kicked b u] ++ ls, s', run_trans (.snoc .nil (.kicked b d u us h)) r, Quiet.append (by simp [Quiet]) h1,
          ⟨h2.now, h2.marsh, h2.admit, fun b' hb => (h2.task b' hb).trans (setAt_ne _ _ hb)⟩, h3⟩
    -- one more query
    have ask : ∀ (d : Nat) (q : Query) (s : St B), s.task b = some (.pass d q (u :: us)) →
        ∃ s', Step c s (.taskQuery b) s' ∧ Beside b s s' ∧ s'.task b = some (.pass d (q.next s.white u) (u :: us)) := by
      intro d q s h
      exact ⟨_, .taskQuery b d q u us h, ⟨rfl, rfl, rfl, fun b' hb => setAt_ne _ _ hb⟩, setAt_self _ _ _⟩
    have snd : ∀ (d : Nat) (q : Query) (s : St B), q = .second ∨ (∃ y, q = .answered y) →
        s.task b = some (.pass d q (u :: us)) →
        ∃ ls s', Run c s ls s' ∧ Quiet ls ∧ Beside b s s' ∧ s'.task b = some (.sleep (s.now + 60000)) := by
      intro d q s hq h
      rcases hq with rfl | ⟨y, rfl⟩
      · obtain ⟨s1, k1, k2, k3⟩ := ask d _ s h
        obtain ⟨ls, s', r, h1, h2, h3⟩ := fin d _ s1 k3
        exact ⟨[.taskQuery b] ++ ls, s', run_trans (.snoc .nil k1) r, Quiet.append (by simp [Quiet]) h1, k2.trans h2, by rw [h3, k2.now]⟩
      · exact fin d y s h
    intro d q s h
    cases hq : q with
    | first =>
      subst hq
      obtain ⟨s1, k1, k2, k3⟩ := ask d _ s h
      obtain ⟨ls, s', r, h1, h2, h3⟩ := snd d _ s1 (by by_cases hw : s.white = none <;> simp [Query.next, hw]) k3
      exact ⟨[.taskQuery b] ++ ls, s', run_trans (.snoc .nil k1) r, Quiet.append (by simp [Quiet]) h1, k2.trans h2, by rw [h3, k2.now]⟩
    | second => exact snd d q s (.inl hq) h
    | answered y => exact snd d q s (.inr ⟨y, hq⟩) h

/-- The task has nothing to do now. -/
def Rests (s : St B) (b : B) : Prop := s.task b = none ∨ ∃ d, s.task b = some (.sleep d) ∧ s.now < d

theorem tend {c : Cfg} (b : B) (s : St B) : ∃ ls s', Run c s ls s' ∧ Quiet ls ∧ Beside b s s' ∧ Rests s' b ∧
    (s.task b = none → s'.task b = none) := by
  have self : Beside b s s := ⟨rfl, rfl, rfl, fun _ _ => rfl⟩
  cases h : s.task b with
  | none => exact ⟨[], s, .nil, by simp [Quiet], self, .inl h, fun _ => h⟩
  | some t =>
    cases t with
    | pass d q us =>
      obtain ⟨ls, s', r, h1, h2, h3⟩ := finish_pass (c := c) b us d q s h
      exact ⟨ls, s', r, h1, h2, .inr ⟨_, h3, by rw [h2.now]; omega⟩, fun e => by cases e⟩
    | sleep d =>
      by_cases hd : d ≤ s.now
      · obtain ⟨ls, s', r, h1, h2, h3⟩ := finish_pass (c := c) b (s.users b) _ .first
          { s with task := setAt s.task b (some (.pass (s.now + c.passD) .first (s.users b))) } (setAt_self _ _ _)
        exact ⟨[.wake b] ++ ls, s', run_trans (.snoc .nil (.wake b d h hd)) r, Quiet.append (by simp [Quiet]) h1,
          ⟨h2.now, h2.marsh, h2.admit, fun b' hb => (h2.task b' hb).trans (setAt_ne _ _ hb)⟩, .inr ⟨_, h3, by rw [h2.now]; simp⟩, fun e => by cases e⟩
      · exact ⟨[], s, .nil, by simp [Quiet], self, .inr ⟨d, h, Nat.lt_of_not_le hd⟩, fun e => by cases e⟩

theorem tend_all {c : Cfg} : ∀ (l : List B) (s : St B), ∃ ls s', Run c s ls s' ∧ Quiet ls ∧ s'.now = s.now ∧
    s'.marsh = s.marsh ∧ s'.admit = s.admit ∧ (∀ b ∈ l, Rests s' b) ∧ (∀ b, Rests s b → Rests s' b) ∧
    ∀ b, s.task b = none → s'.task b = none := by
  intro l
  induction l with
  | nil => intro s; exact ⟨[], s, .nil, by simp [Quiet], rfl, rfl, rfl, by simp, fun _ h => h, fun _ h => h⟩
  | cons b l ih =>
    intro s
    obtain ⟨l1, s1, r1, h1, h2, h3, h4⟩ := tend (c := c) b s
    obtain ⟨l2, s2, r2, k1, k2, k3, k4, k5, k6, k7⟩ := ih s1
    have keep : ∀ b', Rests s b' → Rests s1 b' := by
      intro b' hr
      by_cases he : b' = b
      · exact he ▸ h3
      · simpa [Rests, h2.task b' he, h2.now] using hr
    refine ⟨l1 ++ l2, s2, run_trans r1 r2, h1.append k1, k2.trans h2.now, k3.trans h2.marsh, k4.trans h2.admit, ?_,
      fun b' hr => k6 b' (keep b' hr), fun b' hb => k7 b' ?_⟩
    · intro b' hm
      rcases List.mem_cons.1 hm with rfl | hm
      · exact k6 _ h3
      · exact k5 b' hm
    · by_cases he : b' = b
      · subst he; exact h4 hb
      · rw [h2.task b' he]; exact hb

theorem clear_marsh {c : Cfg} : ∀ (l : List Marsh) (s : St B), s.marsh = l →
    ∃ ls, Run c s ls { s with marsh := [] } ∧ Quiet ls := by
  intro l
  induction l with
  | nil => intro s h; exact ⟨[], by rw [show ({ s with marsh := [] } : St B) = s by rw [← h]]; exact .nil, by simp [Quiet]⟩
  | cons m l ih =>
    intro s h
    obtain ⟨ls, r, h1⟩ := ih { s with marsh := l } rfl
    exact ⟨[.marshEnds] ++ ls, run_trans (.snoc .nil (.marshEnds m [] l h)) r, Quiet.append (by simp [Quiet]) h1⟩

theorem clear_admit {c : Cfg} : ∀ (l : List (Admit B)) (s : St B), s.admit = l →
    ∃ ls, Run c s ls { s with admit := [] } ∧ Quiet ls := by
  intro l
  induction l with
  | nil => intro s h; exact ⟨[], by rw [show ({ s with admit := [] } : St B) = s by rw [← h]]; exact .nil, by simp [Quiet]⟩
  | cons m l ih =>
    intro s h
    obtain ⟨ls, r, h1⟩ := ih { s with admit := l } rfl
    exact ⟨[.admitEnds] ++ ls, run_trans (.snoc .nil (.admitEnds m [] l h)) r, Quiet.append (by simp [Quiet]) h1⟩

/-- **C88**, it is not an empty promise: from every state that can be reached time can go on for as long as one likes, with
the whitelist as it is and all queries answered. -/
theorem C88_goes_on (c : Cfg) (ls : List (Lab B)) (s : St B) (h : Run c St.init ls s) (n : Nat) :
    ∃ ls' s', Run c s ls' s' ∧ (∀ w, Lab.setWhite w ∉ ls') ∧ (∀ b k, Lab.failed b k ∉ ls') ∧ s'.now = s.now + n := by
  induction n generalizing ls s with
  | zero => exact ⟨[], s, .nil, by simp, by simp, rfl⟩
  | succ n ih =>
    obtain ⟨l, hl⟩ := tasks_finite h
    obtain ⟨l1, s1, r1, h1, h2, h3, h4, h5, _, h7⟩ := tend_all (c := c) l s
    obtain ⟨l2, r2, h8⟩ := clear_marsh (c := c) s1.marsh s1 rfl
    obtain ⟨l3, r3, h9⟩ := clear_admit (c := c) s1.admit { s1 with marsh := [] } rfl
    have q := Step.tick (c := c) (s := { s1 with marsh := [], admit := [] }) (by simp) (by simp) (by
      intro b t ht
      dsimp only at ht ⊢
      have hb : b ∈ l := hl b (fun e => by rw [h7 b e] at ht; cases ht)
      rcases h5 b hb with e | ⟨d, e, hd⟩
      · rw [e] at ht; cases ht
      · rw [e] at ht; cases ht; simp only [Task.due]; omega)
    have r := run_trans r1 (run_trans r2 (.snoc r3 q))
    have hq := h1.append (h8.append (h9.append (show Quiet [(Lab.tick : Lab B)] by simp [Quiet])))
    obtain ⟨l4, s4, r4, m1, m2, m3⟩ := ih _ _ (run_trans h r)
    refine ⟨_, s4, run_trans r r4, fun w hm => ?_, fun b k hm => ?_, ?_⟩
    · rcases List.mem_append.1 hm with hm | hm
      · exact hq.1 w hm
      · exact m1 w hm
    · rcases List.mem_append.1 hm with hm | hm
      · exact hq.2 b k hm
      · exact m2 b k hm
    · dsimp only at m3
      rw [m3, h2]; omega
end Verif.Props.Eviction

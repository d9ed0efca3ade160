import Verif.Lemmas.AuthRun

/-!
# The two phases of an honest client's authentication, step by step

For each phase, conditions `At n` describe both parties after `n` steps.
-/

namespace Verif.Auth
open Verif

variable {σ Pub Priv : Type}

/-- Steps of other processes. -/
inductive Later (other : σ → σ → Prop) (s : σ) : σ → Prop
  | refl : Later other s s
  | step (s1 s2 : σ) (h : Later other s s1) (hs : other s1 s2) : Later other s s2

/-! ## Client and marshal -/

/-- Clock and store in the first phase, as long as `Inv` holds of the store: the client's clock reads `ts`,
the marshal's `now`; the key is whitelisted, some broker is available, a permit with number greater than 1
is issued. -/
structure Env1 (envP envQ : Env σ) (other : σ → σ → Prop) (Inv : σ → Prop) (ts now : UInt64) (pkb : Bytes) :
    Prop where
  invP : ∀ s a s', Inv s → envP s .clock a s' → Inv s'
  invC : ∀ s a s', Inv s → envQ s .clock a s' → Inv s'
  invK : ∀ s a s', Inv s → envQ s (.check pkb) a s' → Inv s'
  invL : ∀ s a s', Inv s → envQ s .least a s' → Inv s'
  invO : ∀ s s', Inv s → other s s' → Inv s'
  uclock : ∀ s a s', envP s .clock a s' → a = some ts
  uclock' : ∀ s, ∃ a s', envP s .clock a s'
  clock : ∀ s a s', envQ s .clock a s' → a = some now
  clock' : ∀ s, ∃ a s', envQ s .clock a s'
  check : ∀ s a s', Inv s → envQ s (.check pkb) a s' → a = some true
  check' : ∀ s, ∃ a s', envQ s (.check pkb) a s'
  least : ∀ s a s', Inv s → envQ s .least a s' → ∃ b, a = some b
  least' : ∀ s, ∃ a s', envQ s .least a s'
  issue : ∀ s b a s', Inv s → envQ s (.issue b pkb) a s' → ∃ r, a = some r ∧ 1 < r
  issue' : ∀ s b, Inv s → ∃ a s', envQ s (.issue b pkb) a s'

section Marshal

variable (m : Msg) (ts now : UInt64) (pkb : Bytes)

def U2 (p : Prog (Option (String × UInt64))) : Prop :=
  ∃ k, p = .op .recv k ∧ ∀ r c, 1 < r → k (some (.authResponse r c)) = .ret (some (c, r))
def U1 (p : Prog (Option (String × UInt64))) : Prop := ∃ k, p = .op (.send m) k ∧ U2 (k true)
def U0 (p : Prog (Option (String × UInt64))) : Prop := ∃ k, p = .op .clock k ∧ U1 m (k (some ts))

def M5 (b : BrokerId) (r : UInt64) (q : Prog (Option Bytes)) : Prop :=
  ∃ k, q = .op (.send (.authResponse r (String.ofList b.pub))) k ∧ k true = .ret (some pkb)
def M4 (b : BrokerId) (q : Prog (Option Bytes)) : Prop :=
  ∃ k, q = .op (.issue b pkb) k ∧ ∀ r, M5 pkb b r (k (some r))
def M3 (q : Prog (Option Bytes)) : Prop := ∃ k, q = .op .least k ∧ ∀ b, M4 pkb b (k (some b))
def M2 (q : Prog (Option Bytes)) : Prop := ∃ k, q = .op (.check pkb) k ∧ M3 pkb (k (some true))
def M1 (q : Prog (Option Bytes)) : Prop := ∃ k, q = .op .clock k ∧ M2 pkb (k (some now))
def M0 (q : Prog (Option Bytes)) : Prop := ∃ k, q = .op .recv k ∧ M1 now pkb (k (some m))

/-- The store has named `b` as the least loaded broker. -/
def Named (envQ : Env σ) (Inv : σ → Prop) (b : BrokerId) : Prop :=
  ∃ s s', Inv s ∧ envQ s .least (some b) s'

/-- A permit `r` for `pkb` at `b` was issued, and since then only others have acted on the store. -/
def IssuedBy (envQ : Env σ) (other : σ → σ → Prop) (Inv : σ → Prop) (b : BrokerId) (r : UInt64) (s : σ) :
    Prop :=
  Named envQ Inv b ∧ ∃ s1 s2, Inv s1 ∧ envQ s1 (.issue b pkb) (some r) s2 ∧ Later other s2 s

abbrev Conf1 (σ : Type) := Conf (Option (String × UInt64)) (Option Bytes) σ

/-- After `n` steps of the first phase. -/
def At1 (envQ : Env σ) (other : σ → σ → Prop) (Inv : σ → Prop) : Nat → Conf1 σ → Prop
  | 0, c => U0 m ts c.p ∧ M0 m now pkb c.q ∧ c.toP = [] ∧ c.toQ = []
  | 1, c => U1 m c.p ∧ M0 m now pkb c.q ∧ c.toP = [] ∧ c.toQ = []
  | 2, c => U2 c.p ∧ M0 m now pkb c.q ∧ c.toP = [] ∧ c.toQ = [m]
  | 3, c => U2 c.p ∧ M1 now pkb c.q ∧ c.toP = [] ∧ c.toQ = []
  | 4, c => U2 c.p ∧ M2 pkb c.q ∧ c.toP = [] ∧ c.toQ = []
  | 5, c => U2 c.p ∧ M3 pkb c.q ∧ c.toP = [] ∧ c.toQ = []
  | 6, c => U2 c.p ∧ (∃ b, M4 pkb b c.q ∧ Named envQ Inv b) ∧ c.toP = [] ∧ c.toQ = []
  | 7, c => U2 c.p ∧ (∃ b r, M5 pkb b r c.q ∧ 1 < r ∧ IssuedBy pkb envQ other Inv b r c.st) ∧
      c.toP = [] ∧ c.toQ = []
  | 8, c => U2 c.p ∧ c.q = .ret (some pkb) ∧ (∃ b r, c.toP = [.authResponse r (String.ofList b.pub)] ∧ 1 < r ∧
      IssuedBy pkb envQ other Inv b r c.st) ∧ c.toQ = []
  | 9, c => (∃ b r, c.p = .ret (some (String.ofList b.pub, r)) ∧ IssuedBy pkb envQ other Inv b r c.st) ∧
      c.q = .ret (some pkb) ∧ c.toP = [] ∧ c.toQ = []
  | _, _ => False

theorem IssuedBy.other {pkb : Bytes} {envQ : Env σ} {other : σ → σ → Prop} {Inv : σ → Prop}
    {b : BrokerId} {r : UInt64} {s s' : σ} (h : IssuedBy pkb envQ other Inv b r s) (ho : other s s') : IssuedBy pkb envQ other Inv b r s' := by
  obtain ⟨hn, s1, s2, hi, h1, h2⟩ := h
  exact ⟨hn, s1, s2, hi, h1, .step _ _ h2 ho⟩

variable {m ts now pkb}

theorem at1_step {envP envQ : Env σ} {other : σ → σ → Prop} {Inv : σ → Prop}
    (he : Env1 envP envQ other Inv ts now pkb) (n : Nat) (c1 c2 : Conf1 σ) (hi0 : n ≤ 6 → Inv c1.st)
    (h : At1 m ts now pkb envQ other Inv n c1) (hs : Step envP envQ c1 c2) :
    At1 m ts now pkb envQ other Inv (n + 1) c2 := by
  match n, h with
  | 0, ⟨⟨k, hk, hp⟩, hq, h1, h2⟩ =>
    cases hs with
    | left p' inb out s' h =>
      rw [hk] at h
      obtain ⟨a, ha, rfl, rfl, rfl⟩ := pstep_outer rfl h
      have := he.uclock _ _ _ ha
      subst this
      exact ⟨hp, hq, h1, by simpa using h2⟩
    | right q' inb out s' h =>
      obtain ⟨k', hk', _⟩ := hq
      rw [hk', h2] at h
      exact (pstep_wait h).elim
  | 1, ⟨⟨k, hk, hp⟩, hq, h1, h2⟩ =>
    cases hs with
    | left p' inb out s' h =>
      rw [hk] at h
      obtain ⟨rfl, rfl, rfl, rfl⟩ := pstep_send h
      exact ⟨hp, hq, h1, by simp [h2]⟩
    | right q' inb out s' h =>
      obtain ⟨k', hk', _⟩ := hq
      rw [hk', h2] at h
      exact (pstep_wait h).elim
  | 2, ⟨hp, ⟨k, hk, hq⟩, h1, h2⟩ =>
    cases hs with
    | left p' inb out s' h =>
      obtain ⟨k', hk', _⟩ := hp
      rw [hk', h1] at h
      exact (pstep_wait h).elim
    | right q' inb out s' h =>
      rw [hk, h2] at h
      obtain ⟨m', hm, rfl, rfl, rfl⟩ := pstep_recv h
      simp only [List.cons.injEq] at hm
      obtain ⟨rfl, rfl⟩ := hm
      exact ⟨hp, hq, by simp [h1], rfl⟩
  | 3, ⟨hp, ⟨k, hk, hq⟩, h1, h2⟩ =>
    cases hs with
    | left p' inb out s' h =>
      obtain ⟨k', hk', _⟩ := hp
      rw [hk', h1] at h
      exact (pstep_wait h).elim
    | right q' inb out s' h =>
      rw [hk] at h
      obtain ⟨a, ha, rfl, rfl, rfl⟩ := pstep_outer rfl h
      have := he.clock _ _ _ ha
      subst this
      exact ⟨hp, hq, by simp [h1], h2⟩
  | 4, ⟨hp, ⟨k, hk, hq⟩, h1, h2⟩ =>
    cases hs with
    | left p' inb out s' h =>
      obtain ⟨k', hk', _⟩ := hp
      rw [hk', h1] at h
      exact (pstep_wait h).elim
    | right q' inb out s' h =>
      rw [hk] at h
      obtain ⟨a, ha, rfl, rfl, rfl⟩ := pstep_outer rfl h
      have := he.check _ _ _ (hi0 (by omega)) ha
      subst this
      exact ⟨hp, hq, by simp [h1], h2⟩
  | 5, ⟨hp, ⟨k, hk, hq⟩, h1, h2⟩ =>
    cases hs with
    | left p' inb out s' h =>
      obtain ⟨k', hk', _⟩ := hp
      rw [hk', h1] at h
      exact (pstep_wait h).elim
    | right q' inb out s' h =>
      rw [hk] at h
      obtain ⟨a, ha, rfl, rfl, rfl⟩ := pstep_outer rfl h
      obtain ⟨b, rfl⟩ := he.least _ _ _ (hi0 (by omega)) ha
      exact ⟨hp, ⟨b, hq b, _, _, hi0 (by omega), ha⟩, by simp [h1], h2⟩
  | 6, ⟨hp, ⟨b, ⟨k, hk, hq⟩, hnm⟩, h1, h2⟩ =>
    cases hs with
    | left p' inb out s' h =>
      obtain ⟨k', hk', _⟩ := hp
      rw [hk', h1] at h
      exact (pstep_wait h).elim
    | right q' inb out s' h =>
      rw [hk] at h
      obtain ⟨a, ha, rfl, rfl, rfl⟩ := pstep_outer rfl h
      obtain ⟨r, rfl, hr⟩ := he.issue _ _ _ _ (hi0 (by omega)) ha
      exact ⟨hp, ⟨b, r, hq r, hr, hnm, _, _, hi0 (by omega), ha, .refl⟩, by simp [h1], h2⟩
  | 7, ⟨hp, ⟨b, r, ⟨k, hk, hq⟩, hr, hi⟩, h1, h2⟩ =>
    cases hs with
    | left p' inb out s' h =>
      obtain ⟨k', hk', _⟩ := hp
      rw [hk', h1] at h
      exact (pstep_wait h).elim
    | right q' inb out s' h =>
      rw [hk] at h
      obtain ⟨rfl, rfl, rfl, rfl⟩ := pstep_send h
      exact ⟨hp, hq, ⟨b, r, by simp [h1], hr, hi⟩, h2⟩
  | 8, ⟨⟨k, hk, hp⟩, hq, ⟨b, r, h1, hr, hi⟩, h2⟩ =>
    cases hs with
    | left p' inb out s' h =>
      rw [hk, h1] at h
      obtain ⟨m', hm, rfl, rfl, rfl⟩ := pstep_recv h
      simp only [List.cons.injEq] at hm
      obtain ⟨rfl, rfl⟩ := hm
      exact ⟨⟨b, r, hp r _ hr, hi⟩, hq, rfl, by simp [h2]⟩
    | right q' inb out s' h =>
      rw [hq] at h
      exact (pstep_ret h).elim
  | 9, ⟨⟨b, r, hp, hi⟩, hq, h1, h2⟩ =>
    cases hs with
    | left p' inb out s' h => rw [hp] at h; exact (pstep_ret h).elim
    | right q' inb out s' h => rw [hq] at h; exact (pstep_ret h).elim
  | _ + 10, h => exact h.elim

theorem at1_other {envQ : Env σ} {other : σ → σ → Prop} {Inv : σ → Prop} (n : Nat) (c : Conf1 σ) (s' : σ)
    (h : At1 m ts now pkb envQ other Inv n c) (ho : other c.st s') :
    At1 m ts now pkb envQ other Inv n { c with st := s' } := by
  match n, h with
  | 0, h => exact h
  | 1, h => exact h
  | 2, h => exact h
  | 3, h => exact h
  | 4, h => exact h
  | 5, h => exact h
  | 6, h => exact h
  | 7, ⟨hp, ⟨b, r, hq, hr, hi⟩, h1, h2⟩ => exact ⟨hp, ⟨b, r, hq, hr, hi.other ho⟩, h1, h2⟩
  | 8, ⟨hp, hq, ⟨b, r, h1, hr, hi⟩, h2⟩ => exact ⟨hp, hq, ⟨b, r, h1, hr, hi.other ho⟩, h2⟩
  | 9, ⟨⟨b, r, hp, hi⟩, hq, h1, h2⟩ => exact ⟨⟨b, r, hp, hi.other ho⟩, hq, h1, h2⟩
  | _ + 10, h => exact h.elim

theorem at1_progress {envP envQ : Env σ} {other : σ → σ → Prop} {Inv : σ → Prop}
    (he : Env1 envP envQ other Inv ts now pkb) {n : Nat} {c : Conf1 σ} (hi0 : n ≤ 6 → Inv c.st)
    (h : At1 m ts now pkb envQ other Inv n c) (hn : n ≠ 9) : ∃ c', Step envP envQ c c' := by
  match n, h with
  | 0, ⟨⟨k, hk, hp⟩, hq, h1, h2⟩ =>
    obtain ⟨a, s', ha⟩ := he.uclock' c.st
    exact ⟨_, .left c _ _ _ s' (by rw [hk]; exact .outer _ _ a _ _ _ rfl ha)⟩
  | 1, ⟨⟨k, hk, hp⟩, hq, h1, h2⟩ => exact ⟨_, .left c _ _ _ _ (by rw [hk]; exact .send _ _ _ _)⟩
  | 2, ⟨hp, ⟨k, hk, hq⟩, h1, h2⟩ => exact ⟨_, .right c _ _ _ _ (by rw [hk, h2]; exact .recv _ _ _ _)⟩
  | 3, ⟨hp, ⟨k, hk, hq⟩, h1, h2⟩ =>
    obtain ⟨a, s', ha⟩ := he.clock' c.st
    exact ⟨_, .right c _ _ _ s' (by rw [hk]; exact .outer _ _ a _ _ _ rfl ha)⟩
  | 4, ⟨hp, ⟨k, hk, hq⟩, h1, h2⟩ =>
    obtain ⟨a, s', ha⟩ := he.check' c.st
    exact ⟨_, .right c _ _ _ s' (by rw [hk]; exact .outer _ _ a _ _ _ rfl ha)⟩
  | 5, ⟨hp, ⟨k, hk, hq⟩, h1, h2⟩ =>
    obtain ⟨a, s', ha⟩ := he.least' c.st
    exact ⟨_, .right c _ _ _ s' (by rw [hk]; exact .outer _ _ a _ _ _ rfl ha)⟩
  | 6, ⟨hp, ⟨b, ⟨k, hk, hq⟩, hnm⟩, h1, h2⟩ =>
    obtain ⟨a, s', ha⟩ := he.issue' c.st b (hi0 (by omega))
    exact ⟨_, .right c _ _ _ s' (by rw [hk]; exact .outer _ _ a _ _ _ rfl ha)⟩
  | 7, ⟨hp, ⟨b, r, ⟨k, hk, hq⟩, hr, hi⟩, h1, h2⟩ =>
    exact ⟨_, .right c _ _ _ _ (by rw [hk]; exact .send _ _ _ _)⟩
  | 8, ⟨⟨k, hk, hp⟩, hq, ⟨b, r, h1, hr, hi⟩, h2⟩ =>
    exact ⟨_, .left c _ _ _ _ (by rw [hk, h1]; exact .recv _ _ _ _)⟩
  | 9, _ => exact absurd rfl hn
  | _ + 10, h => exact h.elim

/-- Until a permit is issued, steps keep the condition on the store. -/
theorem inv1_step {envP envQ : Env σ} {other : σ → σ → Prop} {Inv : σ → Prop}
    (he : Env1 envP envQ other Inv ts now pkb) (n : Nat) (c1 c2 : Conf1 σ) (hi0 : Inv c1.st)
    (h : At1 m ts now pkb envQ other Inv n c1) (hn : n < 6) (hs : Step envP envQ c1 c2) : Inv c2.st := by
  cases hs with
  | left p' inb out s' hst =>
    match n, h with
    | 0, ⟨⟨k, hk, _⟩, _⟩ =>
      rw [hk] at hst
      obtain ⟨a, ha, _⟩ := pstep_outer rfl hst
      exact he.invP _ _ _ hi0 ha
    | 1, ⟨⟨k, hk, _⟩, _⟩ => rw [hk] at hst; obtain ⟨_, _, _, rfl⟩ := pstep_send hst; exact hi0
    | 2, ⟨⟨k, hk, _⟩, _⟩ => rw [hk] at hst; obtain ⟨_, _, _, _, rfl⟩ := pstep_recv hst; exact hi0
    | 3, ⟨⟨k, hk, _⟩, _⟩ => rw [hk] at hst; obtain ⟨_, _, _, _, rfl⟩ := pstep_recv hst; exact hi0
    | 4, ⟨⟨k, hk, _⟩, _⟩ => rw [hk] at hst; obtain ⟨_, _, _, _, rfl⟩ := pstep_recv hst; exact hi0
    | 5, ⟨⟨k, hk, _⟩, _⟩ => rw [hk] at hst; obtain ⟨_, _, _, _, rfl⟩ := pstep_recv hst; exact hi0
    | n + 6, _ => omega
  | right q' inb out s' hst =>
    match n, h with
    | 0, ⟨_, ⟨k, hk, _⟩, _⟩ => rw [hk] at hst; obtain ⟨_, _, _, _, rfl⟩ := pstep_recv hst; exact hi0
    | 1, ⟨_, ⟨k, hk, _⟩, _⟩ => rw [hk] at hst; obtain ⟨_, _, _, _, rfl⟩ := pstep_recv hst; exact hi0
    | 2, ⟨_, ⟨k, hk, _⟩, _⟩ => rw [hk] at hst; obtain ⟨_, _, _, _, rfl⟩ := pstep_recv hst; exact hi0
    | 3, ⟨_, ⟨k, hk, _⟩, _⟩ =>
      rw [hk] at hst
      obtain ⟨a, ha, _⟩ := pstep_outer rfl hst
      exact he.invC _ _ _ hi0 ha
    | 4, ⟨_, ⟨k, hk, _⟩, _⟩ =>
      rw [hk] at hst
      obtain ⟨a, ha, _⟩ := pstep_outer rfl hst
      exact he.invK _ _ _ hi0 ha
    | 5, ⟨_, ⟨k, hk, _⟩, _⟩ =>
      rw [hk] at hst
      obtain ⟨a, ha, _⟩ := pstep_outer rfl hst
      exact he.invL _ _ _ hi0 ha
    | n + 6, _ => omega

end Marshal

/-- The first phase as a whole. -/
theorem phase1 {m : Msg} {ts now : UInt64} {pkb : Bytes} {envP envQ : Env σ} {other : σ → σ → Prop}
    {Inv : σ → Prop} (he : Env1 envP envQ other Inv ts now pkb) {c0 : Conf1 σ} (hi : Inv c0.st)
    (h0 : At1 m ts now pkb envQ other Inv 0 c0) {n : Nat} {c : Conf1 σ} (h : Run envP envQ other c0 n c) :
    n ≤ 9 ∧ ((∃ c', Step envP envQ c c') ∨
      ∃ b r, c.p = .ret (some (String.ofList b.pub, r)) ∧ c.q = .ret (some pkb) ∧
        IssuedBy pkb envQ other Inv b r c.st) := by
  have hat : At1 m ts now pkb envQ other Inv n c ∧ (n ≤ 6 → Inv c.st) := by
    refine run_at (At := fun n c => At1 m ts now pkb envQ other Inv n c ∧ (n ≤ 6 → Inv c.st))
      ⟨h0, fun _ => hi⟩ ?_ ?_ h
    · intro n c1 c2 ⟨h1, h2⟩ hs
      exact ⟨at1_step he n c1 c2 h2 h1 hs, fun hn => inv1_step he n c1 c2 (h2 (by omega)) h1 (by omega) hs⟩
    · intro n c1 s' ⟨h1, h2⟩ hs
      exact ⟨at1_other n c1 s' h1 hs, fun hn => he.invO _ _ (h2 hn) hs⟩
  obtain ⟨h1, h2⟩ := hat
  by_cases hn : n = 9
  · subst hn
    obtain ⟨⟨b, r, hp, hq⟩, h3, _⟩ := h1
    exact ⟨Nat.le_refl _, Or.inr ⟨b, r, hp, h3, hq⟩⟩
  · refine ⟨?_, Or.inl (at1_progress he h2 h1 hn)⟩
    by_cases h9 : n ≤ 9
    · exact h9
    · obtain ⟨k, rfl⟩ : ∃ k, n = k + 10 := ⟨n - 10, by omega⟩
      exact h1.elim

/-- The programs start as described. -/
theorem at1_start (S : Scheme Pub Priv) (pk : Pub) (sk : Priv) (pkb sig : Bytes) (ts now : UInt64)
    (hpk : S.serialize pk = some pkb) (hdec : S.deserialize pkb = some pk)
    (hsign : S.sign sk .userMarshal ts = some sig) (hver : S.verify pk .userMarshal ts sig = true)
    (hfr : tooOld now ts = false) (envQ : Env σ) (other : σ → σ → Prop) (Inv : σ → Prop) (s : σ) :
    At1 (.authKey pkb ts sig) ts now pkb envQ other Inv 0
      (Conf.start (userWithMarshal S pk sk) (marshalVerifyUser S) s) := by
  refine ⟨⟨_, rfl, ?_⟩, ⟨_, rfl, ?_⟩, rfl, rfl⟩
  · simp only [hsign, hpk]
    refine ⟨_, rfl, _, rfl, ?_⟩
    intro r c hr
    simp only [if_pos hr]
  · simp only [hdec, hver, Bool.true_eq_false, if_false]
    refine ⟨_, rfl, ?_⟩
    simp only [hfr, hpk, Bool.false_eq_true, if_false]
    exact ⟨_, rfl, _, rfl, fun b => ⟨_, rfl, fun r => ⟨_, rfl, rfl⟩⟩⟩

/-! ## Client and broker -/

/-- The store answers the validation with the key. -/
structure Env2 (envQ : Env σ) (bk : BrokerId) (permit : UInt64) (key : Bytes) (Before : σ → Prop) :
    Prop where
  validate : ∀ s a s', Before s → envQ s (.validate bk permit) a s' → a = some (some key)
  validate' : ∀ s, Before s → ∃ a s', envQ s (.validate bk permit) a s'

section Broker

variable (self : BrokerId) (permit : UInt64) (topics : List Topic) (key : Bytes)

def V2 (p : Prog (Option Unit)) : Prop := ∃ k, p = .op (.send (.subscribe topics)) k ∧ k true = .ret (some ())
def V1 (p : Prog (Option Unit)) : Prop := ∃ k, p = .op .recv k ∧ V2 topics (k (some (.authResponse 1 "")))
def V0 (p : Prog (Option Unit)) : Prop := ∃ k, p = .op (.send (.authPermit permit)) k ∧ V1 topics (k true)

def B3 (q : Prog (Option (Bytes × List Topic))) : Prop :=
  ∃ k, q = .op .recv k ∧ k (some (.subscribe topics)) = .ret (some (key, topics))
def B2 (q : Prog (Option (Bytes × List Topic))) : Prop :=
  ∃ k, q = .op (.send (.authResponse 1 "")) k ∧ B3 topics key (k true)
def B1 (q : Prog (Option (Bytes × List Topic))) : Prop :=
  ∃ k, q = .op (.validate self permit) k ∧ B2 topics key (k (some (some key)))
def B0 (q : Prog (Option (Bytes × List Topic))) : Prop :=
  ∃ k, q = .op .recv k ∧ B1 self permit topics key (k (some (.authPermit permit)))

abbrev Conf2 (σ : Type) := Conf (Option Unit) (Option (Bytes × List Topic)) σ

/-- After `n` steps of the second phase; `Before` is what is known of the store until the permit is
validated. -/
def At2 (Before : σ → Prop) : Nat → Conf2 σ → Prop
  | 0, c => V0 permit topics c.p ∧ B0 self permit topics key c.q ∧ c.toP = [] ∧ c.toQ = [] ∧ Before c.st
  | 1, c => V1 topics c.p ∧ B0 self permit topics key c.q ∧ c.toP = [] ∧ c.toQ = [.authPermit permit] ∧
      Before c.st
  | 2, c => V1 topics c.p ∧ B1 self permit topics key c.q ∧ c.toP = [] ∧ c.toQ = [] ∧ Before c.st
  | 3, c => V1 topics c.p ∧ B2 topics key c.q ∧ c.toP = [] ∧ c.toQ = []
  | 4, c => V1 topics c.p ∧ B3 topics key c.q ∧ c.toP = [.authResponse 1 ""] ∧ c.toQ = []
  | 5, c => V2 topics c.p ∧ B3 topics key c.q ∧ c.toP = [] ∧ c.toQ = []
  | 6, c => c.p = .ret (some ()) ∧ B3 topics key c.q ∧ c.toP = [] ∧ c.toQ = [.subscribe topics]
  | 7, c => c.p = .ret (some ()) ∧ c.q = .ret (some (key, topics)) ∧ c.toP = [] ∧ c.toQ = []
  | _, _ => False

variable {self permit topics key}

theorem at2_step {envP envQ : Env σ} {Before : σ → Prop} (he : Env2 envQ self permit key Before) (n : Nat)
    (c1 c2 : Conf2 σ) (h : At2 self permit topics key Before n c1) (hs : Step envP envQ c1 c2) :
    At2 self permit topics key Before (n + 1) c2 := by
  match n, h with
  | 0, ⟨⟨k, hk, hp⟩, hq, h1, h2, hb⟩ =>
    cases hs with
    | left p' inb out s' h =>
      rw [hk] at h
      obtain ⟨rfl, rfl, rfl, rfl⟩ := pstep_send h
      exact ⟨hp, hq, h1, by simp [h2], hb⟩
    | right q' inb out s' h =>
      obtain ⟨k', hk', _⟩ := hq
      rw [hk', h2] at h
      exact (pstep_wait h).elim
  | 1, ⟨hp, ⟨k, hk, hq⟩, h1, h2, hb⟩ =>
    cases hs with
    | left p' inb out s' h =>
      obtain ⟨k', hk', _⟩ := hp
      rw [hk', h1] at h
      exact (pstep_wait h).elim
    | right q' inb out s' h =>
      rw [hk, h2] at h
      obtain ⟨m', hm, rfl, rfl, rfl⟩ := pstep_recv h
      simp only [List.cons.injEq] at hm
      obtain ⟨rfl, rfl⟩ := hm
      exact ⟨hp, hq, by simp [h1], rfl, hb⟩
  | 2, ⟨hp, ⟨k, hk, hq⟩, h1, h2, hb⟩ =>
    cases hs with
    | left p' inb out s' h =>
      obtain ⟨k', hk', _⟩ := hp
      rw [hk', h1] at h
      exact (pstep_wait h).elim
    | right q' inb out s' h =>
      rw [hk] at h
      obtain ⟨a, ha, rfl, rfl, rfl⟩ := pstep_outer rfl h
      have := he.validate _ _ _ hb ha
      subst this
      exact ⟨hp, hq, by simp [h1], h2⟩
  | 3, ⟨hp, ⟨k, hk, hq⟩, h1, h2⟩ =>
    cases hs with
    | left p' inb out s' h =>
      obtain ⟨k', hk', _⟩ := hp
      rw [hk', h1] at h
      exact (pstep_wait h).elim
    | right q' inb out s' h =>
      rw [hk] at h
      obtain ⟨rfl, rfl, rfl, rfl⟩ := pstep_send h
      exact ⟨hp, hq, by simp [h1], h2⟩
  | 4, ⟨⟨k, hk, hp⟩, hq, h1, h2⟩ =>
    cases hs with
    | left p' inb out s' h =>
      rw [hk, h1] at h
      obtain ⟨m', hm, rfl, rfl, rfl⟩ := pstep_recv h
      simp only [List.cons.injEq] at hm
      obtain ⟨rfl, rfl⟩ := hm
      exact ⟨hp, hq, rfl, by simp [h2]⟩
    | right q' inb out s' h =>
      obtain ⟨k', hk', _⟩ := hq
      rw [hk', h2] at h
      exact (pstep_wait h).elim
  | 5, ⟨⟨k, hk, hp⟩, hq, h1, h2⟩ =>
    cases hs with
    | left p' inb out s' h =>
      rw [hk] at h
      obtain ⟨rfl, rfl, rfl, rfl⟩ := pstep_send h
      exact ⟨hp, hq, h1, by simp [h2]⟩
    | right q' inb out s' h =>
      obtain ⟨k', hk', _⟩ := hq
      rw [hk', h2] at h
      exact (pstep_wait h).elim
  | 6, ⟨hp, ⟨k, hk, hq⟩, h1, h2⟩ =>
    cases hs with
    | left p' inb out s' h => rw [hp] at h; exact (pstep_ret h).elim
    | right q' inb out s' h =>
      rw [hk, h2] at h
      obtain ⟨m', hm, rfl, rfl, rfl⟩ := pstep_recv h
      simp only [List.cons.injEq] at hm
      obtain ⟨rfl, rfl⟩ := hm
      exact ⟨hp, hq, by simp [h1], rfl⟩
  | 7, ⟨hp, hq, h1, h2⟩ =>
    cases hs with
    | left p' inb out s' h => rw [hp] at h; exact (pstep_ret h).elim
    | right q' inb out s' h => rw [hq] at h; exact (pstep_ret h).elim
  | _ + 8, h => exact h.elim

theorem at2_other {other : σ → σ → Prop} {Before : σ → Prop}
    (ho : ∀ s s', Before s → other s s' → Before s') (n : Nat) (c : Conf2 σ) (s' : σ)
    (h : At2 self permit topics key Before n c) (hs : other c.st s') :
    At2 self permit topics key Before n { c with st := s' } := by
  match n, h with
  | 0, ⟨hp, hq, h1, h2, hb⟩ => exact ⟨hp, hq, h1, h2, ho _ _ hb hs⟩
  | 1, ⟨hp, hq, h1, h2, hb⟩ => exact ⟨hp, hq, h1, h2, ho _ _ hb hs⟩
  | 2, ⟨hp, hq, h1, h2, hb⟩ => exact ⟨hp, hq, h1, h2, ho _ _ hb hs⟩
  | 3, h => exact h
  | 4, h => exact h
  | 5, h => exact h
  | 6, h => exact h
  | 7, h => exact h
  | _ + 8, h => exact h.elim

theorem at2_progress {envP envQ : Env σ} {Before : σ → Prop} (he : Env2 envQ self permit key Before) {n : Nat}
    {c : Conf2 σ} (h : At2 self permit topics key Before n c) (hn : n ≠ 7) : ∃ c', Step envP envQ c c' := by
  match n, h with
  | 0, ⟨⟨k, hk, hp⟩, hq, h1, h2, hb⟩ => exact ⟨_, .left c _ _ _ _ (by rw [hk]; exact .send _ _ _ _)⟩
  | 1, ⟨hp, ⟨k, hk, hq⟩, h1, h2, hb⟩ => exact ⟨_, .right c _ _ _ _ (by rw [hk, h2]; exact .recv _ _ _ _)⟩
  | 2, ⟨hp, ⟨k, hk, hq⟩, h1, h2, hb⟩ =>
    obtain ⟨a, s', ha⟩ := he.validate' c.st hb
    exact ⟨_, .right c _ _ _ s' (by rw [hk]; exact .outer _ _ a _ _ _ rfl ha)⟩
  | 3, ⟨hp, ⟨k, hk, hq⟩, h1, h2⟩ => exact ⟨_, .right c _ _ _ _ (by rw [hk]; exact .send _ _ _ _)⟩
  | 4, ⟨⟨k, hk, hp⟩, hq, h1, h2⟩ => exact ⟨_, .left c _ _ _ _ (by rw [hk, h1]; exact .recv _ _ _ _)⟩
  | 5, ⟨⟨k, hk, hp⟩, hq, h1, h2⟩ => exact ⟨_, .left c _ _ _ _ (by rw [hk]; exact .send _ _ _ _)⟩
  | 6, ⟨hp, ⟨k, hk, hq⟩, h1, h2⟩ => exact ⟨_, .right c _ _ _ _ (by rw [hk, h2]; exact .recv _ _ _ _)⟩
  | 7, _ => exact absurd rfl hn
  | _ + 8, h => exact h.elim

end Broker

/-- The second phase as a whole. -/
theorem phase2 {self : BrokerId} {permit : UInt64} {topics : List Topic} {key : Bytes} {envP envQ : Env σ}
    {other : σ → σ → Prop} {Before : σ → Prop} (he : Env2 envQ self permit key Before)
    (ho : ∀ s s', Before s → other s s' → Before s') {c0 : Conf2 σ}
    (h0 : At2 self permit topics key Before 0 c0) {n : Nat} {c : Conf2 σ}
    (h : Run envP envQ other c0 n c) :
    n ≤ 7 ∧ ((∃ c', Step envP envQ c c') ∨
      c.p = .ret (some ()) ∧ c.q = .ret (some (key, topics)) ∧ c.toP = [] ∧ c.toQ = []) := by
  have hat : At2 self permit topics key Before n c :=
    run_at (At := At2 self permit topics key Before) h0 (fun n c1 c2 h1 hs => at2_step he n c1 c2 h1 hs)
      (fun n c1 s' h1 hs => at2_other ho n c1 s' h1 hs) h
  by_cases hn : n = 7
  · subst hn
    exact ⟨Nat.le_refl _, Or.inr hat⟩
  · refine ⟨?_, Or.inl (at2_progress he hat hn)⟩
    by_cases h7 : n ≤ 7
    · exact h7
    · obtain ⟨k, rfl⟩ : ∃ k, n = k + 8 := ⟨n - 8, by omega⟩
      exact hat.elim

/-- The programs start as described. -/
theorem at2_start (S : Scheme Pub Priv) (self : BrokerId) (permit : UInt64) (topics : List Topic) (key : Bytes)
    (pub : Pub) (hdec : S.deserialize key = some pub) (Before : σ → Prop) (s : σ) (hb : Before s) :
    At2 self permit topics key Before 0
      (Conf.start (userWithBroker permit topics) (brokerVerifyUser S self) s) := by
  refine ⟨⟨_, rfl, _, rfl, ?_⟩, ⟨_, rfl, _, rfl, ?_⟩, rfl, rfl, hb⟩
  · simp only [ne_eq, not_true_eq_false, if_false]
    exact ⟨_, rfl, rfl⟩
  · simp only [hdec]
    exact ⟨_, rfl, _, rfl, rfl⟩

end Verif.Auth

import Verif.Model.Choosing
import Verif.Props.Discovery
import Verif.Props.Listing

/-!
# Property C110: choosing a broker while the store changes

`C39` is about a call that nothing disturbs. Here brokers report heartbeats, permits are issued and
redeemed, and heartbeats expire between any two commands of the call.
-/

namespace Verif.Props.Choosing
open Verif Verif.Disc Verif.Props.Ident Verif.Props.Discovery

/-! ## What the statements talk about -/

/-- Everything that had happened on the Redis store when the `k`-th command of the call ran; `ls` is what had
happened before the call. -/
def rhist (ls : List RLabel) (sch : RSched) : Nat → List RLabel
  | 0 => ls ++ rturn sch 0
  | k + 1 => rhist ls sch k ++ rturn sch (k + 1)

/-- The same for SQLite. -/
def ehist (ls : List ELabel) (sch : ESched) : Nat → List ELabel
  | 0 => ls ++ eturn sch 0
  | k + 1 => ehist ls sch k ++ eturn sch (k + 1)

/-- When the `k`-th command ran, the last heartbeat of `b` had reported `n` and had not expired. -/
def RLive (ls : List RLabel) (sch : RSched) (k : Nat) (b : BrokerId) (n : Nat) : Prop :=
  ∃ x, RLast (rhist ls sch k) b n x ∧ (sch k).2 ≤ x

/-! ## Redis -/

theorem run_rhist (global : Bool) (ls : List RLabel) (sch : RSched) (k : Nat) :
    ((Redis.new.run global (rhist ls sch k)).1.run global (rturn sch (k + 1))).1 =
      (Redis.new.run global (rhist ls sch (k + 1))).1 :=
  (Listing.redis_run_append global _ _ _).symm

theorem rhist_end (ls : List RLabel) (sch : RSched) (k : Nat) :
    ∃ pre, rhist ls sch k = pre ++ [.expire (sch k).2] := by
  cases k with
  | zero => exact ⟨ls ++ (sch 0).1, by simp [rhist, rturn]⟩
  | succ k => exact ⟨rhist ls sch k ++ (sch (k + 1)).1, by simp [rhist, rturn]⟩

/-- A number on record comes from the last heartbeat. -/
def RNum (ls : List RLabel) (s : Redis) : Prop :=
  ∀ b n x, Good b → s.kv.get (Redis.numKey b.display) = some (.num n, x) → RLast ls b n x

theorem rnum_expire {ls : List RLabel} {s : Redis} (h : RNum ls s) (t : Nat) : RNum ls (s.expire t) := by
  intro b n x hg hk
  simp only [Redis.expire, AMap.get_retain, Option.filter_eq_some_iff] at hk
  exact h b n x hg hk.1

theorem rnum_other {ls : List RLabel} {l : RLabel} {s s' : Redis} (hl : ∀ b n d t, l ≠ .heartbeat b n d t)
    (hk : ∀ b n x, Good b → s'.kv.get (Redis.numKey b.display) = some (.num n, x) →
      s.kv.get (Redis.numKey b.display) = some (.num n, x))
    (h : RNum ls s) : RNum (ls ++ [l]) s' :=
  fun b n x hg e => (rlast_other hl).2 (h b n x hg (hk b n x hg e))

theorem rnum_run (global : Bool) {ls : List RLabel} (hok : ∀ l ∈ ls, l.Ok) :
    RNum ls (Redis.new.run global ls).1 := by
  induction ls using List.reverseRecOn with
  | nil => intro b n x _ h; simp [Redis.run, Redis.new] at h
  | append_singleton ls l ih =>
    have ih := ih (fun x hx => hok x (List.mem_append_left _ hx))
    have hl := hok l (List.mem_append_right _ (List.mem_singleton.2 rfl))
    rw [Redis.run_snoc]
    generalize (Redis.new.run global ls).1 = s at ih
    cases l with
    | heartbeat self num dur t0 =>
      intro b n x hg hk
      simp only [Redis.step, Redis.heartbeat, AMap.get_insert] at hk
      split at hk
      · rename_i e
        have := numKey_inj hl hg e
        subst this
        simp only [Option.some.injEq, Prod.mk.injEq, RVal.num.injEq] at hk
        obtain ⟨rfl, rfl⟩ := hk
        exact rlast_snoc.2 (Or.inl ⟨dur, t0, rfl, rfl⟩)
      · rename_i e
        refine rlast_snoc.2 (Or.inr ⟨rnum_expire ih t0 b n x hg hk, ?_⟩)
        intro n' d' t' e'
        simp only [RLabel.heartbeat.injEq] at e'
        exact e (by rw [e'.1])
    | expire t => exact rnum_other (by intros; simp) (fun _ _ _ _ h => h) (rnum_expire ih t)
    | issue b k dur t r =>
      refine rnum_other (s := s.expire t) (by intros; simp) ?_ (rnum_expire ih t)
      intro b' n x hb' h
      simp only [Redis.step, Redis.issue, AMap.get_insert] at h
      rwa [if_neg (fun e => numKey_ne_permitKey hb' hl _ e.symm)] at h
    | validate b p t =>
      refine rnum_other (s := s.expire t) (by intros; simp) ?_ (rnum_expire ih t)
      intro b' n x hb' h
      simp only [Redis.step, Redis.validate] at h
      split at h
      · simp only [AMap.get_erase] at h
        rwa [if_neg (fun e => numKey_ne_permitKey hb' hl _ e.symm)] at h
      · simp only [AMap.get_erase] at h
        rwa [if_neg (fun e => numKey_ne_permitKey hb' hl _ e.symm)] at h
      · exact h
    | setWhitelist ks => exact rnum_other (s := s) (by intros; simp) (fun _ _ _ _ h => h) ih

section
variable {global : Bool} {ls : List RLabel} {sch : RSched}

/-- What the `GET` of the `k`-th command finds. -/
theorem get_spec (hok : ∀ k, ∀ l ∈ rhist ls sch k, l.Ok)
    (hnow : ∀ k, ∀ l ∈ rhist ls sch k, RBefore (sch k).2 l) (k : Nat) {b : BrokerId} (hb : Good b) :
    (∀ n, (Redis.new.run global (rhist ls sch k)).1.getNum (Redis.numKey b.display) = some n →
      RLive ls sch k b n) ∧
    ((Redis.new.run global (rhist ls sch k)).1.getNum (Redis.numKey b.display) = none →
      ∀ n, ¬ RLive ls sch k b n) := by
  have hr := rnum_run global (hok k)
  have hh := rheart_run global (hok k) (hnow k)
  refine ⟨?_, ?_⟩
  · intro n h
    unfold Redis.getNum at h
    split at h
    · rename_i m x he
      cases h
      refine ⟨x, hr b n x hb he, ?_⟩
      obtain ⟨pre, e⟩ := rhist_end ls sch k
      rw [e, Redis.run_snoc] at he
      simp only [Redis.step, Redis.expire, AMap.get_retain, Option.filter_eq_some_iff,
        decide_eq_true_eq] at he
      exact he.2
    · cases h
  · rintro h n ⟨x, hl, hx⟩
    have := (hh.live b n x hb hl hx).2
    simp only [Redis.getNum, this] at h
    cases h

theorem scard_spec (hok : ∀ k, ∀ l ∈ rhist ls sch k, l.Ok) (k : Nat) {b : BrokerId} (hb : Good b) :
    (Redis.new.run global (rhist ls sch k)).1.scard (Redis.permitsKey b.display) = some 0 := by
  have hke := (ragree_run global (rhist ls sch k) (hok k) _ _ (ragree_new global)).kinv
  generalize (Redis.new.run global (rhist ls sch k)).1 = s at hke
  unfold Redis.scard
  cases hv : s.kv.get (Redis.permitsKey b.display) with
  | none => rfl
  | some r =>
    exfalso
    obtain ⟨v, e⟩ := r
    cases v with
    | num n =>
      obtain ⟨b', hb', e'⟩ := hke.1 _ _ _ hv
      exact permitsKey_ne_numKey hb hb' e'
    | key k =>
      obtain ⟨b', p, hb', e'⟩ := hke.2 _ _ _ hv
      exact permitsKey_ne_permitKey hb hb' p e'

theorem loop_spec (hok : ∀ k, ∀ l ∈ rhist ls sch k, l.Ok)
    (hnow : ∀ k, ∀ l ∈ rhist ls sch k, RBefore (sch k).2 l)
    (hbig : ∀ k b n, RLive ls sch k b n → n < 2 ^ 64 - 1) (bs : List BrokerId) (hg : ∀ b ∈ bs, Good b)
    (j : Nat) (acc : Nat × Str) (r : Option (Nat × Str) × Nat)
    (h : (Redis.new.run global (rhist ls sch j)).1.leastLoopAt global sch (j + 1) (bs.map (·.display)) acc = r) :
    j + 1 ≤ r.2 ∧
    (r.1 = none → ∃ b ∈ bs, ∃ k, j < k ∧ k < r.2 ∧ ∀ n, ¬ RLive ls sch k b n) ∧
    (∀ a, r.1 = some a → a.1 ≤ acc.1 ∧
      (∀ b ∈ bs, ∃ k n, j < k ∧ k < r.2 ∧ RLive ls sch k b n ∧ a.1 ≤ n) ∧
      (a = acc ∨ ∃ b ∈ bs, ∃ k n, j < k ∧ k < r.2 ∧ RLive ls sch k b n ∧ a = (n, b.display))) := by
  induction bs generalizing j acc with
  | nil =>
    simp only [List.map_nil, Redis.leastLoopAt] at h
    subst h
    exact ⟨le_refl _, nofun, fun a ha => by cases ha; exact ⟨le_refl _, by simp, Or.inl rfl⟩⟩
  | cons b bs ih =>
    have hb := hg b List.mem_cons_self
    obtain ⟨h1, h2⟩ := get_spec (global := global) hok hnow (j + 1) hb
    simp only [List.map_cons, Redis.leastLoopAt, run_rhist, scard_spec hok (j + 1 + 1) hb] at h
    cases hn : (Redis.new.run global (rhist ls sch (j + 1))).1.getNum (Redis.numKey b.display) with
    | none =>
      rw [hn] at h
      simp only at h
      subst h
      exact ⟨by show j + 1 ≤ j + 1 + 1; omega, fun _ => ⟨b, List.mem_cons_self, j + 1, by omega,
        by show j + 1 < j + 1 + 1; omega, h2 hn⟩, nofun⟩
    | some n =>
      rw [hn] at h
      have hl := h1 n hn
      have hlt := hbig _ _ _ hl
      have hm : (0 + n) % 2 ^ 64 = n := by rw [Nat.zero_add]; exact Nat.mod_eq_of_lt (by omega)
      simp only [hm] at h
      obtain ⟨i0, i1, i2⟩ := ih (fun b hb => hg b (List.mem_cons_of_mem _ hb)) (j + 2) _ h
      refine ⟨by omega, ?_, ?_⟩
      · intro hr
        obtain ⟨b', hb', k, hk1, hk2, hk3⟩ := i1 hr
        exact ⟨b', List.mem_cons_of_mem _ hb', k, by omega, hk2, hk3⟩
      · intro a ha
        obtain ⟨a1, a2, a3⟩ := i2 a ha
        have hle : a.1 ≤ acc.1 ∧ a.1 ≤ n := by
          by_cases hc : n < acc.1
          · rw [if_pos hc] at a1; simp only at a1; omega
          · rw [if_neg hc] at a1; omega
        refine ⟨hle.1, ?_, ?_⟩
        · intro b' hb'
          rcases List.mem_cons.1 hb' with rfl | hb'
          · exact ⟨j + 1, n, by omega, by omega, hl, hle.2⟩
          · obtain ⟨k, n', k1, k2, k3⟩ := a2 b' hb'
            exact ⟨k, n', by omega, k2, k3⟩
        · rcases a3 with a3 | ⟨b', hb', k, n', k1, k2, k3⟩
          · by_cases hc : n < acc.1
            · rw [if_pos hc] at a3
              exact Or.inr ⟨b, List.mem_cons_self, j + 1, n, by omega, by omega, hl, a3⟩
            · rw [if_neg hc] at a3; exact Or.inl a3
          · exact Or.inr ⟨b', List.mem_cons_of_mem _ hb', k, n', by omega, k2, k3⟩
end

theorem texts (ts : List Str) (h : ∀ t ∈ ts, ∃ b, Good b ∧ t = b.display) :
    ∃ bs : List BrokerId, ts = bs.map (·.display) ∧ ∀ b ∈ bs, Good b := by
  induction ts with
  | nil => exact ⟨[], rfl, by simp⟩
  | cons t ts ih =>
    obtain ⟨b, hb, rfl⟩ := h t List.mem_cons_self
    obtain ⟨bs, rfl, hbs⟩ := ih fun t ht => h t (List.mem_cons_of_mem _ ht)
    refine ⟨b :: bs, rfl, ?_⟩
    intro b' hb'
    rcases List.mem_cons.1 hb' with rfl | hb'
    · exact hb
    · exact hbs b' hb'

/-- The two halves together: the brokers asked about are those live when the set was read. -/
theorem redis_leastAt (global : Bool) (ls : List RLabel) (sch : RSched) (ord : List Str → List Str)
    (hord : ∀ l, (ord l).Perm l) (hok : ∀ k, ∀ l ∈ rhist ls sch k, l.Ok)
    (hnow : ∀ k, ∀ l ∈ rhist ls sch k, RBefore (sch k).2 l)
    (hbig : ∀ k b n, RLive ls sch k b n → n < 2 ^ 64 - 1) (r : Option BrokerId × Nat)
    (h : (Redis.new.run global ls).1.leastAt global ord sch = r) :
    (∀ b, r.1 = some b → (∃ n0, RLive ls sch 0 b n0) ∧
      ∃ k n, 0 < k ∧ k < r.2 ∧ RLive ls sch k b n ∧
        ∀ b' n0', RLive ls sch 0 b' n0' → ∃ k' n', 0 < k' ∧ k' < r.2 ∧ RLive ls sch k' b' n' ∧ n ≤ n') ∧
    (r.1 = none → (∀ b n, ¬ RLive ls sch 0 b n) ∨
      ∃ b n k, RLive ls sch 0 b n ∧ 0 < k ∧ k < r.2 ∧ ∀ n', ¬ RLive ls sch k b n') := by
  have hs0 : ((Redis.new.run global ls).1.run global (rturn sch 0)).1 = (Redis.new.run global (rhist ls sch 0)).1 :=
    (Listing.redis_run_append global _ _ _).symm
  have hh := rheart_run global (hok 0) (hnow 0)
  have hkeys : ∀ t, t ∈ (Redis.new.run global (rhist ls sch 0)).1.brokers.keys ↔
      ∃ b n, Good b ∧ t = b.display ∧ RLive ls sch 0 b n := by
    intro t
    rw [AMap.mem_keys, Option.isSome_iff_exists]
    constructor
    · rintro ⟨x, hx⟩
      obtain ⟨b, n, h1, h2, h3⟩ := hh.rows t x hx
      refine ⟨b, n, h1, h2, x, h3, ?_⟩
      obtain ⟨pre, e⟩ := rhist_end ls sch 0
      rw [e, Redis.run_snoc] at hx
      simp only [Redis.step, Redis.expire, AMap.get_retain, Option.filter_eq_some_iff,
        decide_eq_true_eq] at hx
      exact hx.2
    · rintro ⟨b, n, h1, rfl, x, h3, h4⟩
      exact ⟨x, (hh.live b n x h1 h3 h4).1⟩
  simp only [Redis.leastAt, hs0] at h
  by_cases hemp : (Redis.new.run global (rhist ls sch 0)).1.brokers.keys.isEmpty = true
  · rw [if_pos hemp] at h
    subst h
    refine ⟨nofun, fun _ => Or.inl ?_⟩
    rintro b n ⟨x, hl, hx⟩
    have := (hkeys b.display).2 ⟨b, n, rlast_good (hok 0) hl, rfl, x, hl, hx⟩
    rw [List.isEmpty_iff] at hemp
    rw [hemp] at this
    cases this
  · rw [if_neg hemp] at h
    obtain ⟨bs, hbs, hgood⟩ := texts (ord (Redis.new.run global (rhist ls sch 0)).1.brokers.keys) (by
      intro t ht
      obtain ⟨b, _, h1, h2, _⟩ := (hkeys t).1 ((hord _).mem_iff.1 ht)
      exact ⟨b, h1, h2⟩)
    have hmem : ∀ b, b ∈ bs ↔ ∃ n, RLive ls sch 0 b n := by
      intro b
      constructor
      · intro hb
        have : b.display ∈ bs.map (·.display) := List.mem_map_of_mem hb
        rw [← hbs, (hord _).mem_iff, hkeys] at this
        obtain ⟨b', n, h1, h2, h3⟩ := this
        rw [Good.inj (hgood b hb) h1 h2]
        exact ⟨n, h3⟩
      · rintro ⟨n, x, hl, hx⟩
        have hgb := rlast_good (hok 0) hl
        have : b.display ∈ bs.map (·.display) := by
          rw [← hbs, (hord _).mem_iff, hkeys]
          exact ⟨b, n, hgb, rfl, x, hl, hx⟩
        obtain ⟨b', hb', e⟩ := List.mem_map.1 this
        rwa [← Good.inj (hgood b' hb') hgb e]
    rw [hbs] at h
    obtain ⟨l0, l1, l2⟩ := loop_spec hok hnow hbig bs hgood 0 (Emb.u64Max, []) _ rfl
    generalize hq : Redis.leastLoopAt global sch (Redis.new.run global (rhist ls sch 0)).1 (0 + 1)
      (bs.map (·.display)) (Emb.u64Max, []) = q at l0 l1 l2
    rw [Nat.zero_add] at hq
    rw [hq] at h
    obtain ⟨q1, q2⟩ := q
    cases q1 with
    | none =>
      simp only at h
      subst h
      refine ⟨nofun, fun _ => Or.inr ?_⟩
      obtain ⟨b, hb, k, h1, h2, h3⟩ := l1 rfl
      obtain ⟨n, hn⟩ := (hmem b).1 hb
      exact ⟨b, n, k, hn, h1, h2, h3⟩
    | some a =>
      simp only at h
      obtain ⟨a1, a2, a3⟩ := l2 a rfl
      have hne : bs ≠ [] := by
        rintro rfl
        rw [List.map_nil] at hbs
        have := (hord (Redis.new.run global (rhist ls sch 0)).1.brokers.keys)
        rw [hbs] at this
        exact hemp (by rw [List.nil_perm.1 this]; rfl)
      have hsome : ∃ b ∈ bs, ∃ k n, 0 < k ∧ k < q2 ∧ RLive ls sch k b n ∧ a = (n, b.display) := by
        rcases a3 with a3 | a3
        · exfalso
          obtain ⟨b, hb⟩ := List.exists_mem_of_ne_nil _ hne
          obtain ⟨k, n, _, _, hl, hle⟩ := a2 b hb
          have := hbig _ _ _ hl
          rw [a3] at hle
          simp only [Emb.u64Max] at hle
          omega
        · exact a3
      obtain ⟨b, hb, k, n, k1, k2, k3, rfl⟩ := hsome
      rw [show BrokerId.parse (n, b.display).2 = some b from (hgood b hb).parse] at h
      subst h
      refine ⟨?_, nofun⟩
      intro b1 hb1
      cases hb1
      refine ⟨(hmem b).1 hb, k, n, k1, k2, k3, ?_⟩
      intro b' n0' hl'
      obtain ⟨k', n', e1, e2, e3, e4⟩ := a2 b' ((hmem b').2 ⟨n0', hl'⟩)
      exact ⟨k', n', e1, e2, e3, e4⟩

/-- **C110, Redis: which broker.** Whatever others do to the store between the commands of the call, and in
whatever order the brokers are gone through: the broker returned was live when the set of brokers was read,
and its load at some later moment of the call is at most the load, at some later moment of the call, of every
broker that was live when the set was read. Missing against C110: a broker is not always returned
(`C110_false`), permits do not count (`C55_false`), loads of `u64::MAX` are excluded
(`C39_max_is_never_chosen`). -/
theorem C110_redis_least_partial (global : Bool) (ls : List RLabel) (sch : RSched) (ord : List Str → List Str)
    (hord : ∀ l, (ord l).Perm l) (hok : ∀ k, ∀ l ∈ rhist ls sch k, l.Ok)
    (hnow : ∀ k, ∀ l ∈ rhist ls sch k, RBefore (sch k).2 l)
    (hbig : ∀ k b n, RLive ls sch k b n → n < 2 ^ 64 - 1) (b : BrokerId) (m : Nat)
    (h : (Redis.new.run global ls).1.leastAt global ord sch = (some b, m)) :
    (∃ n0, RLive ls sch 0 b n0) ∧
    ∃ k n, 0 < k ∧ k < m ∧ RLive ls sch k b n ∧
      ∀ b' n0', RLive ls sch 0 b' n0' → ∃ k' n', 0 < k' ∧ k' < m ∧ RLive ls sch k' b' n' ∧ n ≤ n' :=
  (redis_leastAt global ls sch ord hord hok hnow hbig _ h).1 b rfl

/-- **C110, Redis: when it fails.** The call fails only if no broker was live when the set was read, or one
that was live then had expired when its number was asked for. -/
theorem C110_redis_fails_partial (global : Bool) (ls : List RLabel) (sch : RSched) (ord : List Str → List Str)
    (hord : ∀ l, (ord l).Perm l) (hok : ∀ k, ∀ l ∈ rhist ls sch k, l.Ok)
    (hnow : ∀ k, ∀ l ∈ rhist ls sch k, RBefore (sch k).2 l)
    (hbig : ∀ k b n, RLive ls sch k b n → n < 2 ^ 64 - 1) (m : Nat)
    (h : (Redis.new.run global ls).1.leastAt global ord sch = (none, m)) :
    (∀ b n, ¬ RLive ls sch 0 b n) ∨
    ∃ b n k, RLive ls sch 0 b n ∧ 0 < k ∧ k < m ∧ ∀ n', ¬ RLive ls sch k b n' :=
  (redis_leastAt global ls sch ord hord hok hnow hbig _ h).2 rfl

/-- A schedule in which nobody else does anything: the set is read at 160, the rest happens at 161. -/
def quiet : RSched := fun k => ([], if k = 0 then 160 else 161)

/-- Two brokers; the heartbeat of `a` is good until 160, that of `b` until 190. -/
def twoBeats : List RLabel := [.heartbeat bA 1 60 100, .heartbeat bB 2 60 130]

theorem rhist_quiet (k : Nat) : ∃ ts : List Nat, rhist twoBeats quiet k =
    .heartbeat bA 1 60 100 :: .heartbeat bB 2 60 130 :: ts.map .expire ∧ ∀ t ∈ ts, t ≤ (quiet k).2 := by
  induction k with
  | zero => exact ⟨[160], rfl, by simp [quiet]⟩
  | succ k ih =>
    obtain ⟨ts, h1, h2⟩ := ih
    refine ⟨ts ++ [161], ?_, ?_⟩
    · rw [rhist, h1]; simp [rturn, quiet]
    · intro t ht
      have hk : (quiet (k + 1)).2 = 161 := by simp [quiet]
      rw [hk]
      rcases List.mem_append.1 ht with ht | ht
      · have := h2 t ht
        simp only [quiet] at this
        split at this <;> omega
      · simp at ht; omega

theorem quiet_live (k : Nat) : RLive twoBeats quiet k bB 2 := by
  obtain ⟨ts, h, _⟩ := rhist_quiet k
  refine ⟨190, ⟨[.heartbeat bA 1 60 100], ts.map .expire, 60, 130, by rw [h]; rfl, rfl, ?_⟩, ?_⟩
  · intro n d t hm
    simp at hm
  · simp only [quiet]; split <;> omega

/-- The hypotheses of the theorems are met by this history and schedule. -/
theorem quiet_ok (k : Nat) : (∀ l ∈ rhist twoBeats quiet k, l.Ok) ∧
    (∀ l ∈ rhist twoBeats quiet k, RBefore (quiet k).2 l) ∧
    (∀ b n, RLive twoBeats quiet k b n → n < 2 ^ 64 - 1) := by
  obtain ⟨ts, h, h'⟩ := rhist_quiet k
  have hq : 160 ≤ (quiet k).2 := by simp only [quiet]; split <;> omega
  rw [h]
  refine ⟨?_, ?_, ?_⟩
  · intro l hl
    simp only [List.mem_cons, List.mem_map] at hl
    rcases hl with rfl | rfl | ⟨t, _, rfl⟩
    · exact good_bA
    · exact good_bB
    · trivial
  · intro l hl
    simp only [List.mem_cons, List.mem_map] at hl
    rcases hl with rfl | rfl | ⟨t, ht, rfl⟩
    · show 100 ≤ (quiet k).2; omega
    · show 130 ≤ (quiet k).2; omega
    · exact h' t ht
  · rintro b n ⟨x, ⟨pre, mid, d, t, e, _⟩, _⟩
    rw [h] at e
    have hm : RLabel.heartbeat b n d t ∈
        RLabel.heartbeat bA 1 60 100 :: RLabel.heartbeat bB 2 60 130 :: ts.map RLabel.expire := by
      rw [e]; simp
    simp at hm
    omega

/-- **C110 is false** of the Redis backend: a user is refused because a broker that is gone expired between
two commands, although another broker was live from before the call until after it. -/
theorem C110_false :
    ((Redis.new.run false twoBeats).1.leastAt false id quiet).1 = none ∧
    ((Redis.new.run false twoBeats).1.leastAt false List.reverse quiet).1 = none ∧
    ∀ k, RLive twoBeats quiet k bB 2 :=
  ⟨by decide +kernel, by decide +kernel, quiet_live⟩

/-- A call that is disturbed and succeeds: `b` reports a larger load after the set was read, so `a` is
chosen, which had more when the call began. -/
example : (Redis.new.run false [.heartbeat bA 5 60 100, .heartbeat bB 2 60 100]).1.leastAt false id
    (fun k => (if k = 1 then [.heartbeat bB 9 60 101] else [], 102)) = (some bA, 5) := by decide +kernel

/-! ## SQLite -/

theorem run_ehist (ls : List ELabel) (sch : ESched) (k : Nat) :
    ((Emb.new.run false (ehist ls sch k)).1.run false (eturn sch (k + 1))).1 =
      (Emb.new.run false (ehist ls sch (k + 1))).1 :=
  (Listing.emb_run_append false _ _ _).symm

/-- What `SELECT COUNT` finds: the permits issued for the broker that were neither redeemed nor removed. -/
theorem count_spec {ls : List ELabel} (hok : ∀ l ∈ ls, l.Ok) {b : BrokerId} (hb : Good b) :
    ∃ ps, Outstanding (Emb.new.run false ls).2 b 0 ps ∧
      (Emb.new.run false ls).1.countPermits b.display = ps.length ∧ ps.length ≤ 2 ^ 32 := by
  obtain ⟨ps, hps⟩ := C39_outstanding_exists ls hok b hb 0
  have h := outstanding_numbers hok hb hps
  have he : (Emb.new.run false ls).1.prunePermits 0 = (Emb.new.run false ls).1 := by
    generalize (Emb.new.run false ls).1 = s
    obtain ⟨br, ⟨es, hes⟩, w⟩ := s
    simp [Emb.prunePermits, AMap.retain]
  rw [he] at h
  have ha := eagree_run false ls hok _ _ (eagree_new false)
  refine ⟨ps, hps, by rw [countPermits_eq, h], ?_⟩
  rw [← h]
  exact numbers_bound ha.pinv _

/-- A moment of the call at which the permits outstanding for `b` were counted: there were `c`. -/
def Counted (ls : List ELabel) (sch : ESched) (m : Nat) (b : BrokerId) (c : Nat) : Prop :=
  ∃ k ps, 1 < k ∧ k < m ∧ Outstanding (Emb.new.run false (ehist ls sch k)).2 b 0 ps ∧ c = ps.length

theorem eloop_spec {ls : List ELabel} {sch : ESched} (hok : ∀ k, ∀ l ∈ ehist ls sch k, l.Ok)
    (rs : List (Str × Nat × Nat)) (hg : ∀ r ∈ rs, ∃ b, Good b ∧ r.1 = b.display)
    (j : Nat) (hj : 0 < j) (acc : Nat × Str) (q : (Nat × Str) × Nat)
    (h : (Emb.new.run false (ehist ls sch j)).1.leastLoopAt sch (j + 1) rs acc = q) :
    j + 1 ≤ q.2 ∧ q.1.1 ≤ acc.1 ∧
    (∀ r ∈ rs, ∀ b, Good b → r.1 = b.display → ∃ c, Counted ls sch q.2 b c ∧ q.1.1 ≤ c + r.2.1) ∧
    (q.1 = acc ∨ ∃ r ∈ rs, ∃ b, Good b ∧ r.1 = b.display ∧
      ∃ c, Counted ls sch q.2 b c ∧ q.1 = (c + r.2.1, r.1)) := by
  induction rs generalizing j acc with
  | nil =>
    simp only [Emb.leastLoopAt] at h
    subst h
    exact ⟨le_refl _, le_refl _, by simp, Or.inl rfl⟩
  | cons r rs ih =>
    obtain ⟨b, hb, hrb⟩ := hg r List.mem_cons_self
    simp only [Emb.leastLoopAt, run_ehist] at h
    obtain ⟨ps, hps, hc, _⟩ := count_spec (hok (j + 1 + 1)) hb
    rw [hrb, hc] at h
    obtain ⟨i0, i1, i2, i3⟩ := ih (fun r hr => hg r (List.mem_cons_of_mem _ hr)) (j + 1 + 1) (by omega) _ h
    have hcount : Counted ls sch q.2 b ps.length := ⟨j + 1 + 1, ps, by omega, by omega, hps, rfl⟩
    have hle : q.1.1 ≤ acc.1 ∧ q.1.1 ≤ ps.length + r.2.1 := by
      by_cases hc : ps.length + r.2.1 < acc.1
      · rw [if_pos hc] at i1; simp only at i1; omega
      · rw [if_neg hc] at i1; omega
    refine ⟨by omega, hle.1, ?_, ?_⟩
    · intro r' hr' b' hb' e
      rcases List.mem_cons.1 hr' with rfl | hr'
      · have := Good.inj hb hb' (hrb.symm.trans e)
        subst this
        exact ⟨_, hcount, hle.2⟩
      · exact i2 r' hr' b' hb' e
    · rcases i3 with i3 | ⟨r', hr', i3⟩
      · by_cases hc : ps.length + r.2.1 < acc.1
        · rw [if_pos hc] at i3
          exact Or.inr ⟨r, List.mem_cons_self, b, hb, hrb, ps.length, hcount, by rw [i3, hrb]⟩
        · rw [if_neg hc] at i3; exact Or.inl i3
      · exact Or.inr ⟨r', List.mem_cons_of_mem _ hr', i3⟩

/-- No row has expired before `t`. -/
def Fresh (t : Nat) (s : Emb) : Prop := ∀ i r, s.brokers.get i = some r → t ≤ r.2

theorem fresh_run {t : Nat} (ls : List ELabel) (h : ∀ b n d t', ELabel.putBroker b n d t' ∈ ls → t ≤ t')
    (s : Emb) (hs : Fresh t s) : Fresh t (s.run false ls).1 := by
  induction ls generalizing s with
  | nil => exact hs
  | cons l ls ih =>
    refine ih (fun b n d t' hm => h b n d t' (List.mem_cons_of_mem _ hm)) _ ?_
    cases l with
    | putBroker b n d t' =>
      have ht := h b n d t' List.mem_cons_self
      intro i r hr
      simp only [Emb.step] at hr
      split at hr
      · simp only [Emb.putBroker, AMap.get_insert] at hr
        split at hr
        · cases hr; show t ≤ t' + d; omega
        · exact hs i r hr
      · exact hs i r hr
    | pruneBrokers t' =>
      intro i r hr
      simp only [Emb.step, Emb.pruneBrokers, AMap.get_retain, Option.filter_eq_some_iff] at hr
      exact hs i r hr.1
    | prunePermits t' => exact hs
    | issue b k d t' r =>
      intro i r' hr
      simp only [Emb.step, Emb.issue] at hr
      split at hr
      · exact hs i r' hr
      · exact hs i r' hr
    | take b p =>
      intro i r' hr
      simp only [Emb.step, Emb.take] at hr
      split at hr
      · split at hr
        · split at hr
          · exact hs i r' hr
          · exact hs i r' hr
        · exact hs i r' hr
      · exact hs i r' hr
    | whitelist w =>
      intro i r' hr
      cases w with
      | drop => exact hs i r' hr
      | create => exact hs i r' hr
      | insert ks =>
        simp only [Emb.step, Emb.wstep] at hr
        split at hr
        · exact hs i r' hr
        · split at hr
          · exact hs i r' hr
          · exact hs i r' hr

theorem emb_leastAt (ls : List ELabel) (sch : ESched)
    (ord : List (Str × Nat × Nat) → List (Str × Nat × Nat)) (hord : ∀ l, (ord l).Perm l)
    (hok : ∀ k, ∀ l ∈ ehist ls sch k, l.Ok) (hnow : ∀ l ∈ ehist ls sch 1, EBefore (sch 1).2 l)
    (hlater : ∀ b n d t, ELabel.putBroker b n d t ∈ (sch 1).1 → (sch 0).2 ≤ t)
    (r : Option BrokerId × Nat) (h : (Emb.new.run false ls).1.leastAt ord sch = r) :
    (∀ b, r.1 = some b → ∃ n x c, ELast (ehist ls sch 1) b n x ∧ (sch 0).2 ≤ x ∧ Counted ls sch r.2 b c ∧
      ∀ b' n' x', ELast (ehist ls sch 1) b' n' x' → (sch 1).2 ≤ x' →
        ∃ c', Counted ls sch r.2 b' c' ∧ c + n ≤ c' + n') ∧
    (r.1 = none → ∀ b n x, ELast (ehist ls sch 1) b n x → x < (sch 1).2) := by
  have hs0 : ((Emb.new.run false ls).1.run false (eturn sch 0)).1 = (Emb.new.run false (ehist ls sch 0)).1 :=
    (Listing.emb_run_append false _ _ _).symm
  have hh := eheart_run false (hok 1) hnow
  have hfresh : Fresh (sch 0).2 (Emb.new.run false (ehist ls sch 1)).1 := by
    rw [← run_ehist]
    refine fresh_run _ ?_ _ ?_
    · intro b n d t hm
      simp only [eturn, eown, List.append_nil, Nat.one_ne_zero, if_false, if_true, Nat.zero_add] at hm
      exact hlater b n d t hm
    · have e : ehist ls sch 0 = (ls ++ (sch 0).1) ++ [.pruneBrokers (sch 0).2] := by
        simp [ehist, eturn, eown]
      rw [e, Emb.run_snoc]
      intro i r hr
      simp only [Emb.step, Emb.pruneBrokers, AMap.get_retain, Option.filter_eq_some_iff,
        decide_eq_true_eq] at hr
      exact hr.2
  have hrow : ∀ q ∈ ord (Emb.new.run false (ehist ls sch 1)).1.brokers.entries, ∃ b, Good b ∧ q.1 = b.display ∧
      ELast (ehist ls sch 1) b q.2.1 q.2.2 ∧ (sch 0).2 ≤ q.2.2 := by
    rintro ⟨t, n, x⟩ hq
    rw [(hord _).mem_iff, AMap.mem_entries] at hq
    obtain ⟨b, hb, h1, h2⟩ := hh.rows _ _ hq
    exact ⟨b, hb, h1, h2, hfresh _ _ hq⟩
  have hall : ∀ b n x, ELast (ehist ls sch 1) b n x → (sch 1).2 ≤ x →
      (b.display, n, x) ∈ ord (Emb.new.run false (ehist ls sch 1)).1.brokers.entries := by
    intro b n x hl hx
    rw [(hord _).mem_iff, AMap.mem_entries]
    exact hh.live b n x (elast_good (hok 1) hl) hl hx
  simp only [Emb.leastAt, hs0] at h
  rw [show eturn sch 1 = eturn sch (0 + 1) from rfl, run_ehist] at h
  obtain ⟨l0, l1, l2, l3⟩ := eloop_spec hok (ord (Emb.new.run false (ehist ls sch 1)).1.brokers.entries)
    (fun q hq => by obtain ⟨b, h1, h2, _⟩ := hrow q hq; exact ⟨b, h1, h2⟩) 1 (by omega) (Emb.u64Max, []) _ rfl
  generalize hq : Emb.leastLoopAt sch (Emb.new.run false (ehist ls sch 1)).1 (1 + 1)
    (ord (Emb.new.run false (ehist ls sch 1)).1.brokers.entries) (Emb.u64Max, []) = q at l0 l1 l2 l3
  simp only [Nat.zero_add] at h
  rw [show (1 : Nat) + 1 = 2 from rfl] at hq
  rw [hq] at h
  rcases l3 with l3 | ⟨w, hw, b, hb, hwb, c, hc, e⟩
  · have hnone : ∀ w, w ∉ ord (Emb.new.run false (ehist ls sch 1)).1.brokers.entries := by
      intro w hw
      obtain ⟨b, hb, e, ⟨_, _, _, _, _, hlt, _⟩, _⟩ := hrow w hw
      obtain ⟨c, ⟨k, ps, _, _, hps, rfl⟩, hle⟩ := l2 w hw b hb e
      obtain ⟨ps', hps', _, hle'⟩ := count_spec (hok k) hb
      have : ps.length = ps'.length := same_length hps.1 hps'.1 (fun p => by rw [hps.2, hps'.2])
      rw [l3] at hle
      simp only [Emb.u64Max] at hle
      omega
    rw [l3] at h
    simp only [parse_nil] at h
    subst h
    refine ⟨nofun, fun _ b n x hl => ?_⟩
    by_contra hx
    exact hnone _ (hall b n x hl (by omega))
  · rw [e] at h
    simp only [hwb, hb.parse] at h
    subst h
    refine ⟨?_, nofun⟩
    intro b1 hb1
    cases hb1
    obtain ⟨b2, hb2, e2, hl2, hx2⟩ := hrow w hw
    have := Good.inj hb hb2 (hwb.symm.trans e2)
    subst this
    refine ⟨w.2.1, w.2.2, c, hl2, hx2, hc, ?_⟩
    intro b' n' x' hl' hx'
    obtain ⟨c', hc', hle⟩ := l2 _ (hall b' n' x' hl' hx') b' (elast_good (hok 1) hl') rfl
    rw [e] at hle
    exact ⟨c', hc', hle⟩

/-- **C110, SQLite: which broker.** Whatever others do to the store between the statements of the call: the
broker returned had a heartbeat that was still good when the call began, and the number of users it had last
reported when the rows were read, plus the permits outstanding for it when they were counted, is at most that
of every broker with an unexpired heartbeat when the rows were read. -/
theorem C110_embedded_least (ls : List ELabel) (sch : ESched)
    (ord : List (Str × Nat × Nat) → List (Str × Nat × Nat)) (hord : ∀ l, (ord l).Perm l)
    (hok : ∀ k, ∀ l ∈ ehist ls sch k, l.Ok) (hnow : ∀ l ∈ ehist ls sch 1, EBefore (sch 1).2 l)
    (hlater : ∀ b n d t, ELabel.putBroker b n d t ∈ (sch 1).1 → (sch 0).2 ≤ t) (b : BrokerId) (m : Nat)
    (h : (Emb.new.run false ls).1.leastAt ord sch = (some b, m)) :
    ∃ n x c, ELast (ehist ls sch 1) b n x ∧ (sch 0).2 ≤ x ∧ Counted ls sch m b c ∧
      ∀ b' n' x', ELast (ehist ls sch 1) b' n' x' → (sch 1).2 ≤ x' →
        ∃ c', Counted ls sch m b' c' ∧ c + n ≤ c' + n' :=
  (emb_leastAt ls sch ord hord hok hnow hlater _ h).1 b rfl

/-- **C110, SQLite: it finds one.** If some broker's heartbeat is good when the rows are read, a broker is
returned, whatever expires or is removed later. -/
theorem C110_embedded_found (ls : List ELabel) (sch : ESched)
    (ord : List (Str × Nat × Nat) → List (Str × Nat × Nat)) (hord : ∀ l, (ord l).Perm l)
    (hok : ∀ k, ∀ l ∈ ehist ls sch k, l.Ok) (hnow : ∀ l ∈ ehist ls sch 1, EBefore (sch 1).2 l)
    (hlater : ∀ b n d t, ELabel.putBroker b n d t ∈ (sch 1).1 → (sch 0).2 ≤ t) (b : BrokerId) (n x : Nat)
    (hl : ELast (ehist ls sch 1) b n x) (hx : (sch 1).2 ≤ x) :
    ((Emb.new.run false ls).1.leastAt ord sch).1 ≠ none := by
  intro hn
  have := (emb_leastAt ls sch ord hord hok hnow hlater _ rfl).2 hn b n x hl
  omega

/-- The same situation as in `C110_false`, on SQLite: `a` was there when the rows were read and has expired
since; a broker is returned. Permits issued while the call runs are counted. -/
example : (Emb.new.run false [.putBroker bA 1 60 100, .putBroker bB 2 60 130]).1.leastAt id
      (fun k => ([], if k ≤ 1 then 160 else 161)) = (some bA, 6) ∧
    (Emb.new.run false [.putBroker bA 1 60 100, .putBroker bB 2 60 130]).1.leastAt id
      (fun k => (if k = 2 then [.issue bA [7] 30 150 5, .issue bA [8] 30 150 6] else [], 150)) = (some bB, 6) := by
  decide +kernel

end Verif.Props.Choosing

import Verif.Lemmas.AuthPhases
import Verif.Props.Auth
import Verif.Props.AuthWorld

/-!
# C36: honest clients get in

The state of the store is its history of steps (`Verif.Disc.RLabel`, `ELabel`). The clock of the store may
show anything in a window; other processes may act on the store at any time, as long as they do not
disturb what the client relies on (stated with each theorem).
-/

namespace Verif.Props.AuthRun
open Verif Verif.Auth Verif.Disc Verif.Props.Auth

variable {Pub Priv : Type}

/-- An honest key pair: the key can be encoded and decoded, and its signatures verify. -/
structure Honest (S : Scheme Pub Priv) (pk : Pub) (sk : Priv) (pkb : Bytes) : Prop where
  encodes : S.serialize pk = some pkb
  decodes : S.deserialize pkb = some pk
  signs : ∀ m, ∃ sig, S.rawSign sk m = some sig
  verifies : ∀ m sig, S.rawSign sk m = some sig → S.rawVerify pk m sig = true

/-- The client's environment: a clock showing `ts`. -/
def userEnv (σ : Type) (ts : UInt64) : Env σ
  | s, .clock, a, s' => a = some ts ∧ s' = s
  | _, _, _, _ => False

/-! ## Redis -/

/-- Marshal and broker on a Redis store. The clock shows `now` (seconds); the times Redis uses are in
`[t0, t1]`; permit numbers drawn are greater than 1. -/
def redisEnv (global : Bool) (now : UInt64) (t0 t1 : Nat) : Env (List RLabel)
  | ls, .clock, a, ls' => a = some now ∧ ls' = ls
  | ls, .check k, a, ls' => a = some ((Redis.new.run global ls).1.checkWhitelist k) ∧ ls' = ls
  | ls, .least, a, ls' => ∃ t, t0 ≤ t ∧ t ≤ t1 ∧ a = (Redis.new.run global ls).1.least t ∧ ls' = ls
  | ls, .issue b k, a, ls' =>
    ∃ t r, t0 ≤ t ∧ t ≤ t1 ∧ 1 < r ∧ a = some r ∧ ls' = ls ++ [.issue b k 30 t r]
  | ls, .validate b p, a, ls' =>
    ∃ t res, t0 ≤ t ∧ t ≤ t1 ∧ ls' = ls ++ [.validate b p.toNat t] ∧
      ((Redis.new.run global ls).1.validate global b p.toNat t).2 = [.swept t, .asked b p.toNat res] ∧
      a = some res
  | _, .recv, _, _ => False
  | _, .send _, _, _ => False

/-- The client can be served: the key is whitelisted, and the store names a broker. -/
structure RReady (global : Bool) (t0 t1 : Nat) (pkb : Bytes) (ls : List RLabel) : Prop where
  ok : ∀ l ∈ ls, l.Ok
  whitelisted : (Redis.new.run global ls).1.checkWhitelist pkb = true
  broker : ∀ t, t0 ≤ t → t ≤ t1 → ∃ b, Good b ∧ (Redis.new.run global ls).1.least t = some b

/-- Permit `r` for the key can be redeemed at `b` until `exp`. -/
def RHas (global : Bool) (pkb : Bytes) (ls : List RLabel) (b : BrokerId) (r : UInt64) (exp : Nat) : Prop :=
  (∀ l ∈ ls, l.Ok) ∧
  Valid (MayRedeem global) (MayRedeem global) (Redis.new.run global ls).2 b r.toNat pkb exp

/-- Steps of others: they keep the client servable, and leave alone the permits issued for its key
that expire not before `exp0`. -/
def rOther (global : Bool) (t0 t1 exp0 : Nat) (pkb : Bytes) (ls ls' : List RLabel) : Prop :=
  (RReady global t0 t1 pkb ls → RReady global t0 t1 pkb ls') ∧
  ∀ b r exp, exp0 ≤ exp → RHas global pkb ls b r exp → RHas global pkb ls' b r exp

theorem rlater {global : Bool} {t0 t1 exp0 : Nat} {pkb : Bytes} {ls ls' : List RLabel} {b : BrokerId}
    {r : UInt64} {exp : Nat} (hx : exp0 ≤ exp) (h : RHas global pkb ls b r exp)
    (hl : Later (rOther global t0 t1 exp0 pkb) ls ls') : RHas global pkb ls' b r exp := by
  induction hl with
  | refl => exact h
  | step s1 s2 _ hs ih => exact hs.2 b r exp hx ih

/-- Talking to the marshal: however the steps of client, marshal and others interleave, the two finish
within nine steps of theirs, unless they stop in the middle although they could go on; and when they cannot
go on, the client has the public endpoint of a broker and a permit that can be redeemed there for its own
key during 30 seconds from `t0` on. Missing for C36: permit numbers 0 and 1, see `C36_false`. -/
theorem C36_redis_marshal_partial (S : Scheme Pub Priv) (pk : Pub) (sk : Priv) (pkb : Bytes)
    (hh : Honest S pk sk pkb) (ts now : UInt64) (hnow : 5 ≤ now.toNat) (hfr : Fresh now ts)
    (global : Bool) (t0 t1 : Nat) (ht : t0 ≤ t1) (ls : List RLabel) (hready : RReady global t0 t1 pkb ls)
    (n : Nat) (c : Conf1 (List RLabel))
    (hrun : Run (userEnv _ ts) (redisEnv global now t0 t1) (rOther global t0 t1 (t0 + 30) pkb)
      (Conf.start (userWithMarshal S pk sk) (marshalVerifyUser S) ls) n c) :
    n ≤ 9 ∧ ((∃ c', Auth.Step (userEnv _ ts) (redisEnv global now t0 t1) c c') ∨
      ∃ b r exp, c.p = .ret (some (String.ofList b.pub, r)) ∧ c.q = .ret (some pkb) ∧ Good b ∧
        t0 + 30 ≤ exp ∧ RHas global pkb c.st b r exp) := by
  obtain ⟨sig, hsig⟩ := hh.signs (signedBytes .userMarshal ts)
  have he : Env1 (userEnv _ ts) (redisEnv global now t0 t1) (rOther global t0 t1 (t0 + 30) pkb)
      (RReady global t0 t1 pkb) ts now pkb :=
    { invP := fun s a s' hi h => by obtain ⟨-, rfl⟩ := h; exact hi
      invC := fun s a s' hi h => by obtain ⟨-, rfl⟩ := h; exact hi
      invK := fun s a s' hi h => by obtain ⟨-, rfl⟩ := h; exact hi
      invL := fun s a s' hi h => by obtain ⟨_, _, _, _, rfl⟩ := h; exact hi
      invO := fun s s' hi h => h.1 hi
      uclock := fun s a s' h => h.1
      uclock' := fun s => ⟨some ts, s, rfl, rfl⟩
      clock := fun s a s' h => h.1
      clock' := fun s => ⟨some now, s, rfl, rfl⟩
      check := fun s a s' hi h => by rw [h.1, hi.whitelisted]
      check' := fun s => ⟨_, s, rfl, rfl⟩
      least := fun s a s' hi h => by
        obtain ⟨t, h0, h1, rfl, -⟩ := h
        obtain ⟨b, -, hb⟩ := hi.broker t h0 h1
        exact ⟨b, hb⟩
      least' := fun s => ⟨_, s, t0, Nat.le_refl _, ht, rfl, rfl⟩
      issue := fun s b a s' _ h => by
        obtain ⟨t, r, -, -, hr, rfl, -⟩ := h
        exact ⟨r, rfl, hr⟩
      issue' := fun s b _ => ⟨_, _, t0, 2, Nat.le_refl _, ht, by decide, rfl, rfl⟩ }
  have hstart := at1_start S pk sk pkb sig ts now hh.encodes hh.decodes hsig (hh.verifies _ _ hsig)
    ((tooOld_iff now ts hnow).2 hfr) (redisEnv global now t0 t1) (rOther global t0 t1 (t0 + 30) pkb)
    (RReady global t0 t1 pkb) ls
  obtain ⟨hn, h⟩ := phase1 he hready hstart hrun
  refine ⟨hn, ?_⟩
  rcases h with h | ⟨b, r, hp, hq, ⟨s0, s0', hi0, hleast⟩, s1, s2, hi1, hiss, hlater⟩
  · exact Or.inl h
  · right
    obtain ⟨t, r', h0, -, -, hr, rfl⟩ := hiss
    simp only [Option.some.injEq] at hr
    subst hr
    have hgb : Good b := by
      obtain ⟨t', h0', h1', hl, -⟩ := hleast
      obtain ⟨b', hg, hb'⟩ := hi0.broker t' h0' h1'
      rw [hb'] at hl
      simp only [Option.some.injEq] at hl
      rw [hl]; exact hg
    refine ⟨b, r, t + 30, hp, hq, hgb, by omega, rlater (by omega) ⟨?_, ?_⟩ hlater⟩
    · intro l hl
      rcases List.mem_append.1 hl with hl | hl
      · exact hi1.ok l hl
      · rw [List.mem_singleton.1 hl]; exact hgb
    · rw [Redis.run_snoc]
      refine ⟨b, (Redis.new.run global s1).2 ++ [.swept t], [], Or.inr rfl, ?_, by simp⟩
      simp [Redis.step, Redis.issue]

/-- Talking to the broker: with such a permit, both finish within seven steps, and then the client is
authenticated and the broker has the client's own key and exactly the topics it asked for. -/
theorem C36_redis_broker_partial (S : Scheme Pub Priv) (pk : Pub) (sk : Priv) (pkb : Bytes)
    (hh : Honest S pk sk pkb) (ts now : UInt64) (global : Bool) (t0 t1 t2 exp0 exp : Nat)
    (ht : t0 ≤ t1) (hexp : t1 ≤ exp) (hexp0 : exp0 ≤ exp) (ls : List RLabel) (b : BrokerId) (hb : Good b)
    (r : UInt64) (hhas : RHas global pkb ls b r exp) (topics : List Topic) (n : Nat)
    (c : Conf2 (List RLabel))
    (hrun : Run (userEnv _ ts) (redisEnv global now t0 t1) (rOther global t0 t2 exp0 pkb)
      (Conf.start (userWithBroker r topics) (brokerVerifyUser S b) ls) n c) :
    n ≤ 7 ∧ ((∃ c', Auth.Step (userEnv _ ts) (redisEnv global now t0 t1) c c') ∨
      c.p = .ret (some ()) ∧ c.q = .ret (some (pkb, topics))) := by
  have he : Env2 (redisEnv global now t0 t1) b r pkb (fun ls => RHas global pkb ls b r exp) := by
    constructor
    · rintro s a s' ⟨hok, hv⟩ ⟨t, res, -, h1, -, hr, rfl⟩
      have := (Discovery.C32_redis global s hok b hb r.toNat t pkb).2 ⟨exp, by omega, hv⟩
      rw [this] at hr
      simp only [List.cons.injEq, PEv.asked.injEq, true_and, and_true] at hr
      rw [← hr]
    · rintro s ⟨hok, hv⟩
      have := (Discovery.C32_redis global s hok b hb r.toNat t0 pkb).2 ⟨exp, by omega, hv⟩
      exact ⟨_, _, t0, _, Nat.le_refl _, ht, rfl, this, rfl⟩
  obtain ⟨hn, h⟩ := phase2 he (fun s s' hs ho => ho.2 b r exp hexp0 hs)
    (at2_start S b r topics pkb pk hh.decodes _ ls hhas) hrun
  refine ⟨hn, ?_⟩
  rcases h with h | ⟨h1, h2, -, -⟩
  · exact Or.inl h
  · exact Or.inr ⟨h1, h2⟩

/-! ## SQLite -/

/-- Marshal and broker on a SQLite store; each call runs undisturbed, with clock values in `[t0, t1]`.
Permit numbers drawn are greater than 1 and not in use. -/
def embEnv (global : Bool) (now : UInt64) (t0 t1 : Nat) : Env (List ELabel)
  | ls, .clock, a, ls' => a = some now ∧ ls' = ls
  | ls, .check k, a, ls' => a = some ((Emb.new.run global ls).1.checkWhitelist k) ∧ ls' = ls
  | ls, .least, a, ls' => ∃ t, t0 ≤ t ∧ t ≤ t1 ∧ a = ((Emb.new.run global ls).1.least t).2 ∧
      ls' = ls ++ [.pruneBrokers t] ++
        (if ((Emb.new.run global ls).1.pruneBrokers t).brokers.isEmpty then [] else [.prunePermits t])
  | ls, .issue b k, a, ls' =>
    ∃ t r, t0 ≤ t ∧ t ≤ t1 ∧ 1 < r ∧ (Emb.new.run global ls).1.permits.get r.toNat = none ∧
      a = some r.toUInt64 ∧ ls' = ls ++ [.issue b k 30 t r]
  | ls, .validate b p, a, ls' =>
    ∃ t, t0 ≤ t ∧ t ≤ t1 ∧ ls' = ls ++ [.prunePermits t] ++ [.take b p.toNat] ∧
      a = some ((Emb.new.run global ls).1.validate global b p.toNat t).2
  | _, .recv, _, _ => False
  | _, .send _, _, _ => False

/-- The client can be served: the key is whitelisted, the last heartbeat of some broker is still good at
`t1` (and nobody's clock ran past `t1`), and not all permit numbers are in use. -/
structure EReady (global : Bool) (t1 : Nat) (pkb : Bytes) (ls : List ELabel) : Prop where
  ok : ∀ l ∈ ls, l.Ok
  times : ∀ l ∈ ls, EBefore t1 l
  whitelisted : (Emb.new.run global ls).1.checkWhitelist pkb = true
  broker : ∃ b n x, ELast ls b n x ∧ t1 ≤ x
  free : ∃ r : UInt32, 1 < r ∧ (Emb.new.run global ls).1.permits.get r.toNat = none

/-- Permit `r` for the key can be redeemed at `b` until `exp`. -/
def EHas (global : Bool) (pkb : Bytes) (ls : List ELabel) (b : BrokerId) (r : UInt64) (exp : Nat) : Prop :=
  (∀ l ∈ ls, l.Ok) ∧ Valid EId (MayRedeem global) (Emb.new.run global ls).2 b r.toNat pkb exp

/-- Steps of others: they keep the client servable, and leave alone the permits issued for its key
that expire not before `exp0`. -/
def eOther (global : Bool) (t1 exp0 : Nat) (pkb : Bytes) (ls ls' : List ELabel) : Prop :=
  (EReady global t1 pkb ls → EReady global t1 pkb ls') ∧
  ∀ b r exp, exp0 ≤ exp → EHas global pkb ls b r exp → EHas global pkb ls' b r exp

theorem elater {global : Bool} {t1 exp0 : Nat} {pkb : Bytes} {ls ls' : List ELabel} {b : BrokerId}
    {r : UInt64} {exp : Nat} (hx : exp0 ≤ exp) (h : EHas global pkb ls b r exp)
    (hl : Later (eOther global t1 exp0 pkb) ls ls') : EHas global pkb ls' b r exp := by
  induction hl with
  | refl => exact h
  | step s1 s2 _ hs ih => exact hs.2 b r exp hx ih

theorem EReady.prune {global : Bool} {t t1 : Nat} {pkb : Bytes} {ls : List ELabel}
    (h : EReady global t1 pkb ls) (ht : t ≤ t1) (l : ELabel) (hl : l = .pruneBrokers t ∨ l = .prunePermits t) :
    EReady global t1 pkb (ls ++ [l]) := by
  have hok : l.Ok := by rcases hl with rfl | rfl <;> trivial
  have hb : EBefore t1 l := by rcases hl with rfl | rfl <;> exact ht
  obtain ⟨b, n, x, h1, h2⟩ := h.broker
  obtain ⟨r, hr, hf⟩ := h.free
  refine ⟨?_, ?_, ?_, ⟨b, n, x, (elast_other ?_).2 h1, h2⟩, ⟨r, hr, ?_⟩⟩
  · intro l' hl'
    rcases List.mem_append.1 hl' with hl' | hl'
    · exact h.ok l' hl'
    · rw [List.mem_singleton.1 hl']; exact hok
  · intro l' hl'
    rcases List.mem_append.1 hl' with hl' | hl'
    · exact h.times l' hl'
    · rw [List.mem_singleton.1 hl']; exact hb
  · have hw := h.whitelisted
    rw [Emb.run_snoc]
    rcases hl with rfl | rfl <;> exact hw
  · intro _ _ _ _ e
    rcases hl with rfl | rfl <;> cases e
  · rw [Emb.run_snoc]
    rcases hl with rfl | rfl
    · exact hf
    · simp only [Emb.step, Emb.prunePermits, AMap.get_retain, hf]
      rfl

theorem EReady.least {global : Bool} {t t1 : Nat} {pkb : Bytes} {ls : List ELabel}
    (h : EReady global t1 pkb ls) (ht : t ≤ t1) :
    ∃ b, Good b ∧ ((Emb.new.run global ls).1.least t).2 = some b := by
  obtain ⟨b, n, x, h1, h2⟩ := h.broker
  exact emb_least_some h.ok (eheart_run global h.ok h.times)
    (eagree_run global ls h.ok _ _ (eagree_new global)).pinv ht h1 h2

/-- Talking to the marshal, SQLite: as for Redis. Missing for C36: permit numbers 0, 1 and those in use,
see `C36_false`. -/
theorem C36_embedded_marshal_partial (S : Scheme Pub Priv) (pk : Pub) (sk : Priv) (pkb : Bytes)
    (hh : Honest S pk sk pkb) (ts now : UInt64) (hnow : 5 ≤ now.toNat) (hfr : Fresh now ts)
    (global : Bool) (t0 t1 : Nat) (ht : t0 ≤ t1) (ls : List ELabel) (hready : EReady global t1 pkb ls)
    (n : Nat) (c : Conf1 (List ELabel))
    (hrun : Run (userEnv _ ts) (embEnv global now t0 t1) (eOther global t1 (t0 + 30) pkb)
      (Conf.start (userWithMarshal S pk sk) (marshalVerifyUser S) ls) n c) :
    n ≤ 9 ∧ ((∃ c', Auth.Step (userEnv _ ts) (embEnv global now t0 t1) c c') ∨
      ∃ b r exp, c.p = .ret (some (String.ofList b.pub, r)) ∧ c.q = .ret (some pkb) ∧ Good b ∧
        t0 + 30 ≤ exp ∧ EHas global pkb c.st b r exp) := by
  obtain ⟨sig, hsig⟩ := hh.signs (signedBytes .userMarshal ts)
  have he : Env1 (userEnv _ ts) (embEnv global now t0 t1) (eOther global t1 (t0 + 30) pkb)
      (EReady global t1 pkb) ts now pkb :=
    { invP := fun s a s' hi h => by obtain ⟨-, rfl⟩ := h; exact hi
      invC := fun s a s' hi h => by obtain ⟨-, rfl⟩ := h; exact hi
      invK := fun s a s' hi h => by obtain ⟨-, rfl⟩ := h; exact hi
      invL := fun s a s' hi h => by
        obtain ⟨t, _, h1, _, rfl⟩ := h
        have := hi.prune h1 _ (Or.inl rfl)
        split
        · rw [List.append_nil]; exact this
        · exact this.prune h1 _ (Or.inr rfl)
      invO := fun s s' hi h => h.1 hi
      uclock := fun s a s' h => h.1
      uclock' := fun s => ⟨some ts, s, rfl, rfl⟩
      clock := fun s a s' h => h.1
      clock' := fun s => ⟨some now, s, rfl, rfl⟩
      check := fun s a s' hi h => by rw [h.1, hi.whitelisted]
      check' := fun s => ⟨_, s, rfl, rfl⟩
      least := fun s a s' hi h => by
        obtain ⟨t, _, h1, rfl, -⟩ := h
        obtain ⟨b, -, hb⟩ := hi.least h1
        exact ⟨b, hb⟩
      least' := fun s => ⟨_, _, t0, Nat.le_refl _, ht, rfl, rfl⟩
      issue := fun s b a s' _ h => by
        obtain ⟨t, r, -, -, hr, -, rfl, -⟩ := h
        exact ⟨_, rfl, by
          rw [UInt64.lt_iff_toNat_lt, UInt32.toNat_toUInt64]
          rw [UInt32.lt_iff_toNat_lt] at hr
          simpa using hr⟩
      issue' := fun s b hi => by
        obtain ⟨r, hr, hf⟩ := hi.free
        exact ⟨_, _, t0, r, Nat.le_refl _, ht, hr, hf, rfl, rfl⟩ }
  have hstart := at1_start S pk sk pkb sig ts now hh.encodes hh.decodes hsig (hh.verifies _ _ hsig)
    ((tooOld_iff now ts hnow).2 hfr) (embEnv global now t0 t1) (eOther global t1 (t0 + 30) pkb)
    (EReady global t1 pkb) ls
  obtain ⟨hn, h⟩ := phase1 he hready hstart hrun
  refine ⟨hn, ?_⟩
  rcases h with h | ⟨b, r, hp, hq, ⟨s0, s0', hi0, hleast⟩, s1, s2, hi1, hiss, hlater⟩
  · exact Or.inl h
  · right
    obtain ⟨t, r', h0, -, -, hfree, hr, rfl⟩ := hiss
    simp only [Option.some.injEq] at hr
    have hgb : Good b := by
      obtain ⟨t', _, h1', hl, -⟩ := hleast
      obtain ⟨b', hg, hb'⟩ := hi0.least h1'
      rw [hb'] at hl
      simp only [Option.some.injEq] at hl
      rw [hl]; exact hg
    refine ⟨b, r, t + 30, hp, hq, hgb, by omega, elater (by omega) ⟨?_, ?_⟩ hlater⟩
    · intro l hl
      rcases List.mem_append.1 hl with hl | hl
      · exact hi1.ok l hl
      · rw [List.mem_singleton.1 hl]; exact hgb
    · rw [Emb.run_snoc]
      refine ⟨b, (Emb.new.run global s1).2, [], Or.inr rfl, ?_, by simp⟩
      rw [hr, UInt32.toNat_toUInt64]
      simp [Emb.step, Emb.issue, hfree]

/-- Talking to the broker, SQLite: as for Redis. -/
theorem C36_embedded_broker_partial (S : Scheme Pub Priv) (pk : Pub) (sk : Priv) (pkb : Bytes)
    (hh : Honest S pk sk pkb) (ts now : UInt64) (global : Bool) (t0 t1 t2 exp0 exp : Nat)
    (ht : t0 ≤ t1) (hexp : t1 ≤ exp) (hexp0 : exp0 ≤ exp) (ls : List ELabel) (b : BrokerId) (hb : Good b)
    (r : UInt64) (hhas : EHas global pkb ls b r exp) (topics : List Topic) (n : Nat)
    (c : Conf2 (List ELabel))
    (hrun : Run (userEnv _ ts) (embEnv global now t0 t1) (eOther global t2 exp0 pkb)
      (Conf.start (userWithBroker r topics) (brokerVerifyUser S b) ls) n c) :
    n ≤ 7 ∧ ((∃ c', Auth.Step (userEnv _ ts) (embEnv global now t0 t1) c c') ∨
      c.p = .ret (some ()) ∧ c.q = .ret (some (pkb, topics))) := by
  have he : Env2 (embEnv global now t0 t1) b r pkb (fun ls => EHas global pkb ls b r exp) := by
    constructor
    · rintro s a s' ⟨hok, hv⟩ ⟨t, -, h1, -, rfl⟩
      rw [(Discovery.C32_embedded_call global s hok b hb r.toNat t pkb).2 ⟨exp, by omega, hv⟩]
    · rintro s ⟨hok, hv⟩
      exact ⟨_, _, t0, Nat.le_refl _, ht, rfl, rfl⟩
  obtain ⟨hn, h⟩ := phase2 he (fun s s' hs ho => ho.2 b r exp hexp0 hs)
    (at2_start S b r topics pkb pk hh.decodes _ ls hhas) hrun
  refine ⟨hn, ?_⟩
  rcases h with h | ⟨h1, h2, -, -⟩
  · exact Or.inl h
  · exact Or.inr ⟨h1, h2⟩

/-! ## The exception -/

/-- Both backends draw permit numbers from the full range, 0 and 1 included. If one of these is drawn for an
honest, whitelisted client, the marshal reports success and sends the permit, and the client takes the
answer for a refusal. -/
theorem C36_false (S : Scheme Pub Priv) (pk : Pub) (sk : Priv) (pkb : Bytes)
    (hh : Honest S pk sk pkb) (ts now : UInt64) (hnow : 5 ≤ now.toNat) (hfr : Fresh now ts)
    (b : BrokerId) (r : UInt64) (hr : r = 0 ∨ r = 1) :
    ∃ sig, Exec (marshalVerifyUser S)
        [⟨.recv, some (.authKey pkb ts sig)⟩, ⟨.clock, some now⟩, ⟨.check pkb, some true⟩,
          ⟨.least, some b⟩, ⟨.issue b pkb, some r⟩, ⟨.send (.authResponse r (String.ofList b.pub)), true⟩]
        (some (some pkb)) ∧
      Exec (userWithMarshal S pk sk)
        [⟨.clock, some ts⟩, ⟨.send (.authKey pkb ts sig), true⟩,
          ⟨.recv, some (.authResponse r (String.ofList b.pub))⟩] (some none) := by
  obtain ⟨sig, hsig⟩ := hh.signs (signedBytes .userMarshal ts)
  have hv : S.verify pk .userMarshal ts sig = true := hh.verifies _ _ hsig
  have ho : tooOld now ts = false := (tooOld_iff now ts hnow).2 hfr
  refine ⟨sig, ?_, ?_⟩
  · refine .op _ _ _ _ _ ?_
    simp only [hh.decodes, hv, Bool.true_eq_false, if_false]
    refine .op _ _ _ _ _ ?_
    simp only [ho, Bool.false_eq_true, if_false, hh.encodes]
    exact .op _ _ _ _ _ (.op _ _ _ _ _ (.op _ _ _ _ _ (.op _ _ _ _ _ (.ret _))))
  · refine .op _ _ _ _ _ ?_
    simp only [Scheme.sign, hsig, hh.encodes]
    refine .op _ _ _ _ _ (.op _ _ _ _ _ ?_)
    have : ¬ (1 < r) := by rcases hr with rfl | rfl <;> decide
    simp only [this, if_false]
    exact .ret _

/-! ## The hypotheses can be met -/

theorem toy_honest : Honest toy 7 7 [7] :=
  ⟨rfl, rfl, fun m => ⟨7 :: m, rfl⟩, fun m sig h => by
    simp only [toy, Option.some.injEq] at h ⊢
    simp [h]⟩

theorem good_bA : Good bA := by
  unfold Good Ident.NoSlash; decide

/-- A whitelisted key and a broker that performed its heartbeat at time 0. -/
example : RReady false 10 20 [7] [.setWhitelist [[7], [8]], .heartbeat bA 3 60 0] := by
  refine ⟨?_, by decide +kernel, ?_⟩
  · intro l hl
    simp only [List.mem_cons, List.not_mem_nil, or_false] at hl
    rcases hl with rfl | rfl
    · trivial
    · exact good_bA
  · intro t h0 h1
    refine ⟨bA, good_bA, ?_⟩
    have h : t = 10 ∨ t = 11 ∨ t = 12 ∨ t = 13 ∨ t = 14 ∨ t = 15 ∨ t = 16 ∨ t = 17 ∨ t = 18 ∨ t = 19 ∨ t = 20 := by
      omega
    rcases h with rfl | rfl | rfl | rfl | rfl | rfl | rfl | rfl | rfl | rfl | rfl <;> decide +kernel

example : EReady false 20 [7] [.whitelist .drop, .whitelist .create, .whitelist (.insert [[7], [8]]),
    .pruneBrokers 0, .putBroker bA 3 60 0] := by
  refine ⟨?_, ?_, by decide +kernel, ⟨bA, 3, 60, ⟨[_, _, _, _], [], 60, 0, rfl, by decide, rfl, by simp⟩, by decide⟩,
    ⟨2, by decide, by decide +kernel⟩⟩
  · intro l hl
    simp only [List.mem_cons, List.not_mem_nil, or_false] at hl
    rcases hl with rfl | rfl | rfl | rfl | rfl
    · trivial
    · trivial
    · trivial
    · trivial
    · exact good_bA
  · intro l hl
    simp only [List.mem_cons, List.not_mem_nil, or_false] at hl
    rcases hl with rfl | rfl | rfl | rfl | rfl <;> simp [EBefore]

end Verif.Props.AuthRun

import Verif.Lemmas.Heartbeat

/-!
# Properties of the discovery store (C32, C33, C39–C41, C55–C58, C61)

`Emb` is the SQLite backend, `Redis` the Redis backend. All theorems are about every history of atomic
steps (of any number of brokers and marshals) on a new store, `hok` being that the endpoints contain no
slash (`C42_slash_needed` and `C58_slash_needed` show why). `Valid`, `ELast`, `RLast` in
`Verif/Props/DiscoverySpec.lean` are the specification.
-/

namespace Verif.Props.Discovery
open Verif Verif.Disc Verif.Props.Ident

/-! ## C32 -/

/-- What the step `take` reports is what the ledger says. -/
theorem take_look {global : Bool} {s : Emb} (h : s.PInv global) (b : BrokerId) (p : Nat) :
    (s.take global b p).2 = [.asked b p ((s.look global b p).map Prod.fst)] := by
  unfold Emb.take Emb.look
  split
  · cases s.permits.get p with
    | none => rfl
    | some r =>
      simp only [Bool.or_eq_true, decide_eq_true_eq]
      split <;> rfl
  · rename_i hp
    cases hr : s.permits.get p with
    | none => rfl
    | some r => exact absurd (h p r hr).1 hp

/-- SQLite: whatever has happened, the second statement of `validate_permit(p)` at broker `b` yields key
`k` exactly if the trace says that `p` was issued for `k` (and for `b`, unless permits are global), and
since then not issued again, not redeemed, and not swept after its expiry. -/
theorem C32_embedded (global : Bool) (ls : List ELabel) (hok : ∀ l ∈ ls, l.Ok) (b : BrokerId)
    (hb : Good b) (p : Nat) (k : Bytes) :
    ((Emb.new.run global ls).1.take global b p).2 = [.asked b p (some k)] ↔
      ∃ exp, Valid EId (MayRedeem global) (Emb.new.run global ls).2 b p k exp := by
  have h := eagree_run global ls hok _ _ (eagree_new global)
  rw [List.nil_append] at h
  rw [take_look h.pinv]
  simp only [List.cons.injEq, PEv.asked.injEq, true_and, and_true, Option.map_eq_some_iff]
  constructor
  · rintro ⟨⟨k', x⟩, h1, rfl⟩
    exact ⟨x, (h.rel b hb p k' x).1 h1⟩
  · rintro ⟨x, hx⟩
    exact ⟨(k, x), (h.rel b hb p k x).2 hx, rfl⟩

/-- SQLite: the whole call, run undisturbed when the clock shows `now`, yields `k` exactly if the permit
is valid for `k` and has not expired. -/
theorem C32_embedded_call (global : Bool) (ls : List ELabel) (hok : ∀ l ∈ ls, l.Ok) (b : BrokerId)
    (hb : Good b) (p now : Nat) (k : Bytes) :
    ((Emb.new.run global ls).1.validate global b p now).2 = some k ↔
      ∃ exp, now ≤ exp ∧ Valid EId (MayRedeem global) (Emb.new.run global ls).2 b p k exp := by
  have h := C32_embedded global (ls ++ [.prunePermits now])
    (by intro l hl
        rcases List.mem_append.1 hl with hl | hl
        · exact hok l hl
        · rw [List.mem_singleton.1 hl]; trivial) b hb p k
  have hp := (eagree_run global (ls ++ [.prunePermits now])
    (by intro l hl
        rcases List.mem_append.1 hl with hl | hl
        · exact hok l hl
        · rw [List.mem_singleton.1 hl]; trivial) _ _ (eagree_new global)).pinv
  rw [Emb.run_snoc] at h hp
  simp only [Emb.step] at h hp
  rw [take_look hp] at h
  simp only [valid_snoc, reduceCtorEq, and_false, exists_false, false_or, Keeps] at h
  simp only [Emb.validate, take_look hp]
  simp only [List.cons.injEq, PEv.asked.injEq, true_and, and_true] at h
  rw [h]
  exact exists_congr fun x => and_comm

/-- Redis: `GETDEL` at the clock value `now` yields `k` exactly if the permit is valid for `k` and has
not expired. -/
theorem C32_redis (global : Bool) (ls : List RLabel) (hok : ∀ l ∈ ls, l.Ok) (b : BrokerId)
    (hb : Good b) (p now : Nat) (k : Bytes) :
    ((Redis.new.run global ls).1.validate global b p now).2 = [.swept now, .asked b p (some k)] ↔
      ∃ exp, now ≤ exp ∧
        Valid (MayRedeem global) (MayRedeem global) (Redis.new.run global ls).2 b p k exp := by
  have hok' : ∀ l ∈ ls ++ [RLabel.expire now], l.Ok := by
    intro l hl
    rcases List.mem_append.1 hl with hl | hl
    · exact hok l hl
    · rw [List.mem_singleton.1 hl]; trivial
  have h := ragree_run global _ hok' _ _ (ragree_new global)
  rw [List.nil_append, Redis.run_snoc] at h
  simp only [Redis.step] at h
  have hr := fun x => h.rel b hb p k x
  simp only [valid_snoc, reduceCtorEq, and_false, exists_false, false_or, Keeps] at hr
  have : (∃ exp, now ≤ exp ∧
        Valid (MayRedeem global) (MayRedeem global) (Redis.new.run global ls).2 b p k exp) ↔
      ∃ x, (((Redis.new.run global ls).1.expire now).look global b p) = some (k, x) :=
    exists_congr fun x => by rw [hr x, and_comm]
  rw [this]
  unfold Redis.validate Redis.look
  simp only
  split
  · rename_i k0 x0 hv
    simp [hv]
  · rename_i n x0 hv
    exfalso
    obtain ⟨b', hb', e⟩ := h.kinv.1 _ _ _ hv
    exact numKey_ne_permitKey hb' hb p e.symm
  · rename_i hv
    simp [hv]

/-- In every trace, every successful validation was of a valid permit: SQLite. -/
theorem C32_embedded_trace (global : Bool) (ls : List ELabel) (hok : ∀ l ∈ ls, l.Ok) (b : BrokerId)
    (hb : Good b) (p : Nat) (k : Bytes) (pre post : List PEv)
    (h : (Emb.new.run global ls).2 = pre ++ .asked b p (some k) :: post) :
    ∃ exp, Valid EId (MayRedeem global) pre b p k exp := by
  have ha := eagree_run global ls hok _ _ (eagree_new global)
  rw [List.nil_append] at ha
  exact ha.sound pre b p k post hb h

/-- The same for Redis. -/
theorem C32_redis_trace (global : Bool) (ls : List RLabel) (hok : ∀ l ∈ ls, l.Ok) (b : BrokerId)
    (hb : Good b) (p : Nat) (k : Bytes) (pre post : List PEv)
    (h : (Redis.new.run global ls).2 = pre ++ .asked b p (some k) :: post) :
    ∃ exp, Valid (MayRedeem global) (MayRedeem global) pre b p k exp := by
  have ha := ragree_run global ls hok _ _ (ragree_new global)
  rw [List.nil_append] at ha
  exact ha.sound pre b p k post hb h

/-! ## C33 -/

/-- If a trace has a successful validation and later one that `Id` takes for the same permit, then the
permit was issued in between. -/
theorem reissued {Id Who : BrokerId → BrokerId → Prop} {tr : List PEv} (hs : Sound Id Who tr)
    {b b' : BrokerId} (hb' : Good b') (hid : Id b b') {p : Nat} {k k' : Bytes} {pre mid post : List PEv}
    (h : tr = pre ++ .asked b p (some k) :: (mid ++ .asked b' p (some k') :: post)) :
    ∃ b0 exp, Who b0 b' ∧ PEv.issued b0 p k' exp ∈ mid := by
  obtain ⟨x, b0, pre', mid', hw, he, hk⟩ := hs (pre ++ .asked b p (some k) :: mid) b' p k' post hb'
    (by rw [h]; simp)
  -- where is the issuance?
  have hmem : PEv.asked b p (some k) ∉ mid' := by
    intro hm
    have := hk _ hm
    exact this ⟨rfl, hid⟩
  refine ⟨b0, x, hw, ?_⟩
  rcases List.append_eq_append_iff.1 he with ⟨c, h1, h2⟩ | ⟨c, h1, h2⟩
  · rcases c with _ | ⟨a, c⟩
    · simp at h2
    · simp only [List.cons_append, List.cons.injEq] at h2
      rw [h2.2]
      exact List.mem_append_right _ List.mem_cons_self
  · rcases c with _ | ⟨a, c⟩
    · simp at h2
    · simp only [List.cons_append, List.cons.injEq] at h2
      exact absurd (by rw [h2.2]; exact List.mem_append_right _ List.mem_cons_self) hmem

/-- SQLite: two successful validations of the same number, by whichever brokers, have an issuance of that
number (for the second one's key) in between. -/
theorem C33_embedded_once (global : Bool) (ls : List ELabel) (hok : ∀ l ∈ ls, l.Ok) (b b' : BrokerId)
    (hb' : Good b') (p : Nat) (k k' : Bytes) (pre mid post : List PEv)
    (h : (Emb.new.run global ls).2 =
      pre ++ .asked b p (some k) :: (mid ++ .asked b' p (some k') :: post)) :
    ∃ b0 exp, PEv.issued b0 p k' exp ∈ mid := by
  have ha := eagree_run global ls hok _ _ (eagree_new global)
  rw [List.nil_append] at ha
  obtain ⟨b0, x, -, hm⟩ := reissued ha.sound hb' trivial h
  exact ⟨b0, x, hm⟩

/-- Redis: two successful validations of the same number by the same broker (with global permits: by any
brokers) have an issuance of it in between; and a success of another broker `b'` with the same number is
of a permit issued for `b'`. -/
theorem C33_redis_once (global : Bool) (ls : List RLabel) (hok : ∀ l ∈ ls, l.Ok) (b b' : BrokerId)
    (hb' : Good b') (hsame : global = true ∨ b = b') (p : Nat) (k k' : Bytes) (pre mid post : List PEv)
    (h : (Redis.new.run global ls).2 =
      pre ++ .asked b p (some k) :: (mid ++ .asked b' p (some k') :: post)) :
    ∃ b0 exp, PEv.issued b0 p k' exp ∈ mid := by
  have ha := ragree_run global ls hok _ _ (ragree_new global)
  rw [List.nil_append] at ha
  obtain ⟨b0, x, -, hm⟩ := reissued ha.sound hb' hsame h
  exact ⟨b0, x, hm⟩

/-- A failed attempt changes nothing in what any broker could redeem: SQLite. -/
theorem C33_embedded_failed_attempt (global : Bool) (s : Emb) (b : BrokerId) (p : Nat)
    (h : (s.take global b p).2 = [.asked b p none]) : (s.take global b p).1 = s := by
  unfold Emb.take at h ⊢
  split
  · split
    · split
      · rename_i hp _ r hr hw
        rw [if_pos hp, hr] at h
        simp only [hw, if_true] at h
        simp at h
      · rfl
    · rfl
  · rfl

/-- A failed attempt in Redis takes away nothing but what has expired. -/
theorem C33_redis_failed_attempt (global : Bool) (s : Redis) (b : BrokerId) (p now : Nat)
    (h : (s.validate global b p now).2 = [.swept now, .asked b p none]) :
    (s.validate global b p now).1 = s.expire now := by
  unfold Redis.validate at h ⊢
  simp only at h ⊢
  split at h <;> first | rfl | simp at h

/-- So a permit for `b` survives any number of attempts at other brokers: SQLite. -/
theorem C33_embedded_wrong_broker (tr : List PEv) (b b' : BrokerId) (p : Nat) (k : Bytes) (exp : Nat)
    (h : Valid EId (MayRedeem false) tr b p k exp) :
    Valid EId (MayRedeem false) (tr ++ [.asked b' p none]) b p k exp :=
  valid_snoc.2 (Or.inr ⟨h, trivial⟩)

/-- …and another broker's attempt does fail while the permit is valid for `b`. -/
theorem C33_embedded_wrong_broker_fails (ls : List ELabel) (hok : ∀ l ∈ ls, l.Ok) (b b' : BrokerId)
    (hb : Good b) (hb' : Good b') (hne : b' ≠ b) (p : Nat) (k : Bytes) (exp : Nat)
    (h : Valid EId (MayRedeem false) (Emb.new.run false ls).2 b p k exp) :
    ((Emb.new.run false ls).1.take false b' p).2 = [.asked b' p none] := by
  have ha := eagree_run false ls hok _ _ (eagree_new false)
  rw [List.nil_append] at ha
  rw [take_look ha.pinv]
  have h1 := (ha.rel b hb p k exp).2 h
  have : (Emb.new.run false ls).1.look false b' p = none := by
    unfold Emb.look at h1 ⊢
    cases hr : (Emb.new.run false ls).1.permits.get p with
    | none => rfl
    | some r =>
      simp only [hr, Bool.false_eq_true, false_or] at h1 ⊢
      split at h1
      · rename_i e
        rw [if_neg]
        intro e'
        exact hne (Good.inj hb' hb (e'.symm.trans e))
      · cases h1
  rw [this]
  rfl

/-! Examples. -/

def bA : BrokerId := ⟨"a".toList, "A".toList⟩
def bB : BrokerId := ⟨"b".toList, "B".toList⟩

theorem good_bA : Good bA := by constructor <;> (unfold NoSlash; decide)
theorem good_bB : Good bB := by constructor <;> (unfold NoSlash; decide)

/-- A permit for `a` is issued; `b` tries it in vain; `a` redeems it; a second attempt fails; it is issued
again and expires. -/
example : (Emb.new.run false [.issue bA [7] 30 100 5, .prunePermits 101, .take bB 5, .prunePermits 130,
      .take bA 5, .take bA 5, .issue bA [8] 30 200 5, .prunePermits 231, .take bA 5]).2 =
    [.issued bA 5 [7] 130, .swept 101, .asked bB 5 none, .swept 130, .asked bA 5 (some [7]),
     .asked bA 5 none, .issued bA 5 [8] 230, .swept 231, .asked bA 5 none] := by decide +kernel

example : (Redis.new.run false [.issue bA [7] 30 100 5, .validate bB 5 101, .validate bA 5 130,
      .validate bA 5 130]).2 =
    [.swept 100, .issued bA 5 [7] 130, .swept 101, .asked bB 5 none, .swept 130, .asked bA 5 (some [7]),
     .swept 130, .asked bA 5 none] := by decide +kernel

/-- The hypotheses of C32 are met. -/
example : Valid EId (MayRedeem false) [.issued bA 5 [7] 130, .swept 101, .asked bB 5 none] bA 5 [7] 130 :=
  ⟨bA, [], [.swept 101, .asked bB 5 none], Or.inr rfl, rfl, by
    intro e he
    simp only [List.mem_cons, List.not_mem_nil, or_false] at he
    rcases he with rfl | rfl
    · show (101 : Nat) ≤ 130; omega
    · trivial⟩

/-! ## C39, C55 -/

/-- `ps` are the permits for `b` that could still be redeemed at `now`. -/
def Outstanding (tr : List PEv) (b : BrokerId) (now : Nat) (ps : List Nat) : Prop :=
  ps.Nodup ∧ ∀ p, p ∈ ps ↔ ∃ k exp, Valid EId (MayRedeem false) tr b p k exp ∧ now ≤ exp

theorem outstanding_numbers {ls : List ELabel} (hok : ∀ l ∈ ls, l.Ok) {b : BrokerId} (hb : Good b)
    {now : Nat} {ps : List Nat} (h : Outstanding (Emb.new.run false ls).2 b now ps) :
    (((Emb.new.run false ls).1.prunePermits now).numbers b.display).length = ps.length := by
  have ha := eagree_run false ls hok _ _ (eagree_new false)
  rw [List.nil_append] at ha
  refine same_length (numbers_nodup _ _) h.1 fun p => ?_
  rw [mem_numbers, h.2]
  refine exists_congr fun k => exists_congr fun x => ?_
  rw [← ha.rel b hb p k x]
  simp only [Emb.prunePermits, AMap.get_retain, Option.filter_eq_some_iff, decide_eq_true_eq, Emb.look,
    Bool.false_eq_true, false_or]
  refine and_congr_left fun _ => ?_
  cases (Emb.new.run false ls).1.permits.get p with
  | none => simp
  | some r =>
    obtain ⟨i, k', x'⟩ := r
    simp only [Option.some.injEq, Prod.mk.injEq]
    constructor
    · rintro ⟨rfl, rfl, rfl⟩; simp
    · intro h'
      split at h'
      · rename_i e
        simp only [Option.some.injEq, Prod.mk.injEq] at h'
        exact ⟨e, h'.1, h'.2⟩
      · cases h'

/-- SQLite: the broker chosen at `now` has a last heartbeat that has not expired, and the number of users
it reported plus the permits outstanding for it is minimal among all brokers with an unexpired last
heartbeat. -/
theorem C39_embedded_least (ls : List ELabel) (hok : ∀ l ∈ ls, l.Ok) (now : Nat)
    (hnow : ∀ l ∈ ls, EBefore now l) (b : BrokerId)
    (h : ((Emb.new.run false ls).1.least now).2 = some b) :
    ∃ n x, ELast ls b n x ∧ now ≤ x ∧
      ∀ b' n' x' ps ps', ELast ls b' n' x' → now ≤ x' →
        Outstanding (Emb.new.run false ls).2 b now ps →
        Outstanding (Emb.new.run false ls).2 b' now ps' →
        ps.length + n ≤ ps'.length + n' := by
  have ha := eagree_run false ls hok _ _ (eagree_new false)
  obtain ⟨n, x, h1, h2, h3⟩ := (emb_least hok (eheart_run false hok hnow) ha.pinv).1 b h
  refine ⟨n, x, h1, h2, ?_⟩
  intro b' n' x' ps ps' hl hx hp hp'
  have := h3 b' n' x' hl hx
  rwa [outstanding_numbers hok (elast_good hok h1) hp, outstanding_numbers hok (elast_good hok hl) hp'] at this

/-- The outstanding permits of a broker can always be listed (so the theorem above is not vacuous). -/
theorem C39_outstanding_exists (ls : List ELabel) (hok : ∀ l ∈ ls, l.Ok) (b : BrokerId) (hb : Good b)
    (now : Nat) : ∃ ps, Outstanding (Emb.new.run false ls).2 b now ps := by
  refine ⟨((Emb.new.run false ls).1.prunePermits now).numbers b.display, numbers_nodup _ _, fun p => ?_⟩
  have ha := eagree_run false ls hok _ _ (eagree_new false)
  rw [List.nil_append] at ha
  rw [mem_numbers]
  refine exists_congr fun k => exists_congr fun x => ?_
  rw [← ha.rel b hb p k x]
  simp only [Emb.prunePermits, AMap.get_retain, Option.filter_eq_some_iff, decide_eq_true_eq, Emb.look,
    Bool.false_eq_true, false_or]
  refine and_congr_left fun _ => ?_
  cases (Emb.new.run false ls).1.permits.get p with
  | none => simp
  | some r =>
    obtain ⟨i, k', x'⟩ := r
    simp only [Option.some.injEq, Prod.mk.injEq]
    constructor
    · rintro ⟨rfl, rfl, rfl⟩; simp
    · intro h'
      split at h'
      · rename_i e
        simp only [Option.some.injEq, Prod.mk.injEq] at h'
        exact ⟨e, h'.1, h'.2⟩
      · cases h'

/-- SQLite: choosing fails exactly if no last heartbeat is unexpired. -/
theorem C39_embedded_fails_iff (ls : List ELabel) (hok : ∀ l ∈ ls, l.Ok) (now : Nat)
    (hnow : ∀ l ∈ ls, EBefore now l) :
    ((Emb.new.run false ls).1.least now).2 = none ↔ ∀ b n x, ELast ls b n x → x < now := by
  have ha := eagree_run false ls hok _ _ (eagree_new false)
  have hm := emb_least hok (eheart_run false hok hnow) ha.pinv
  constructor
  · exact hm.2
  · intro h
    cases hl : ((Emb.new.run false ls).1.least now).2 with
    | none => rfl
    | some b =>
      obtain ⟨n, x, h1, h2, _⟩ := hm.1 b hl
      have := h b n x h1
      omega

/-- Redis: the broker chosen at `now` has an unexpired last heartbeat and its reported number of users is
minimal among the brokers with an unexpired last heartbeat. Missing against C39: outstanding permits do
not count (`C55_false`); loads of `u64::MAX` are excluded (`C39_max_is_never_chosen`). -/
theorem C39_redis_least_partial (global : Bool) (ls : List RLabel) (hok : ∀ l ∈ ls, l.Ok) (now : Nat)
    (hnow : ∀ l ∈ ls, RBefore now l) (hbig : ∀ b n x, RLast ls b n x → n < 2 ^ 64 - 1) :
    (∀ b, (Redis.new.run global ls).1.least now = some b → ∃ n x, RLast ls b n x ∧ now ≤ x ∧
      ∀ b' n' x', RLast ls b' n' x' → now ≤ x' → n ≤ n') ∧
    ((Redis.new.run global ls).1.least now = none ↔ ∀ b n x, RLast ls b n x → x < now) := by
  have hm := redis_least hok (rheart_run global hok hnow)
    (ragree_run global ls hok _ _ (ragree_new global)).kinv hbig
  refine ⟨hm.1, hm.2, ?_⟩
  intro h
  cases hl : (Redis.new.run global ls).1.least now with
  | none => rfl
  | some b =>
    obtain ⟨n, x, h1, h2, _⟩ := hm.1 b hl
    have := h b n x h1
    omega

/-- A single live broker that reports `u64::MAX` users is not found. -/
theorem C39_max_is_never_chosen :
    (Redis.new.run false [.heartbeat bA (2 ^ 64 - 1) 60 100]).1.least 100 = none := by decide +kernel

/-- `a` reports 1 user and has two outstanding permits, `b` reports 2 users: SQLite chooses `b`. -/
example : ((Emb.new.run false [.putBroker bA 1 60 100, .putBroker bB 2 60 100, .issue bA [7] 30 101 5,
      .issue bA [8] 30 101 6]).1.least 110).2 = some bB := by decide +kernel

/-- When the permits have expired, it chooses `a`. -/
example : ((Emb.new.run false [.putBroker bA 1 60 100, .putBroker bB 2 60 100, .issue bA [7] 30 101 5,
      .issue bA [8] 30 101 6]).1.least 150).2 = some bA := by decide +kernel

/-- C55 is false: with the Redis backend, in the same situation, `a` is chosen although its load with the
outstanding permits is 3 and that of `b` is 2. -/
theorem C55_false :
    let ls : List RLabel := [.heartbeat bA 1 60 100, .heartbeat bB 2 60 100, .issue bA [7] 30 101 5,
      .issue bA [8] 30 101 6]
    (Redis.new.run false ls).1.least 110 = some bA ∧
    RLast ls bA 1 160 ∧ RLast ls bB 2 160 ∧
    Valid (MayRedeem false) (MayRedeem false) (Redis.new.run false ls).2 bA 5 [7] 131 ∧
    Valid (MayRedeem false) (MayRedeem false) (Redis.new.run false ls).2 bA 6 [8] 131 := by
  refine ⟨by decide +kernel, ⟨[], _, 60, 100, rfl, rfl, ?_⟩, ⟨[.heartbeat bA 1 60 100], _, 60, 100, rfl, rfl, ?_⟩,
    ?_, ?_⟩
  · intro n d t h
    simp [bA, bB] at h
  · intro n d t h
    simp at h
  · refine ⟨bA, [.swept 100, .swept 100, .swept 101], [.swept 101, .issued bA 6 [8] 131], Or.inr rfl, rfl, ?_⟩
    intro e he
    simp only [List.mem_cons, List.not_mem_nil, or_false] at he
    rcases he with rfl | rfl
    · show (101 : Nat) ≤ 131; omega
    · show ¬ ((6 : Nat) = 5 ∧ _); omega
  · exact ⟨bA, [.swept 100, .swept 100, .swept 101, .issued bA 5 [7] 131, .swept 101], [], Or.inr rfl, rfl,
      by simp⟩

/-- In general: with the Redis backend, issuing permits never changes which broker is chosen. -/
theorem C55_permits_never_count (global : Bool) (s : Redis) (hk : s.KInv global) (b : BrokerId)
    (hb : Good b) (k : Bytes) (dur now : Nat) (r : UInt64) (hkeys : ∀ t x, s.brokers.get t = some x →
      ∃ b, Good b ∧ t = b.display) :
    (s.issue global b k dur now r).1.least now = s.least now := by
  have hke := Redis.kinv_expire global s hk now
  have hloop : ∀ (a c : Redis) (ts : List Str), (∀ t ∈ ts, a.kv.get (Redis.numKey t) = c.kv.get (Redis.numKey t)
      ∧ a.kv.get (Redis.permitsKey t) = c.kv.get (Redis.permitsKey t)) → ∀ acc,
      a.leastLoop ts acc = c.leastLoop ts acc := by
    intro a c ts
    induction ts with
    | nil => intros; rfl
    | cons t ts ih =>
      intro h acc
      obtain ⟨h1, h2⟩ := h t List.mem_cons_self
      have e1 : a.getNum (Redis.numKey t) = c.getNum (Redis.numKey t) := by
        unfold Redis.getNum; rw [h1]
      have e2 : a.scard (Redis.permitsKey t) = c.scard (Redis.permitsKey t) := by
        unfold Redis.scard; rw [h2]
      simp only [Redis.leastLoop, e1, e2]
      split
      · exact ih (fun x hx => h x (List.mem_cons_of_mem _ hx)) _
      · rfl
  have hret : ∀ {K V : Type} [DecidableEq K] (m : AMap K V) (p : K → V → Bool), (m.retain p).retain p = m.retain p := by
    intro K V _ m p
    simp [AMap.retain, List.filter_filter]
  have hbr : ((s.issue global b k dur now r).1.expire now).brokers = (s.expire now).brokers := by
    simp only [Redis.issue, Redis.expire]
    exact hret _ _
  unfold Redis.least
  simp only [hbr]
  rw [hloop ((s.issue global b k dur now r).1.expire now) (s.expire now)]
  intro t ht
  have hg : ∃ b, Good b ∧ t = b.display := by
    rw [AMap.mem_keys, Option.isSome_iff_exists] at ht
    obtain ⟨x, hx⟩ := ht
    simp only [Redis.expire, AMap.get_retain, Option.filter_eq_some_iff] at hx
    exact hkeys t x hx.1
  obtain ⟨b', hb', rfl⟩ := hg
  simp only [Redis.issue, Redis.expire, AMap.get_retain, AMap.get_insert]
  rw [if_neg (fun e => numKey_ne_permitKey hb' hb _ e.symm),
    if_neg (fun e => permitsKey_ne_permitKey hb' hb _ e.symm)]
  constructor
  · cases s.kv.get (Redis.numKey b'.display) with
    | none => rfl
    | some v => by_cases h : now ≤ v.2 <;> simp [Option.filter, h]
  · cases s.kv.get (Redis.permitsKey b'.display) with
    | none => rfl
    | some v => by_cases h : now ≤ v.2 <;> simp [Option.filter, h]

/-! ## C40 -/

/-- SQLite: the brokers listed at `now`, each once, are those other than the caller whose last heartbeat
has not expired. -/
theorem C40_embedded_listing (global : Bool) (ls : List ELabel) (hok : ∀ l ∈ ls, l.Ok) (now : Nat)
    (hnow : ∀ l ∈ ls, EBefore now l) (self : BrokerId) :
    ∃ l, ((Emb.new.run global ls).1.others self now).2 = some l ∧ l.Nodup ∧
      ∀ b, b ∈ l ↔ b ≠ self ∧ ∃ n x, ELast ls b n x ∧ now ≤ x :=
  emb_others hok (eheart_run global hok hnow) self

/-- Redis: the same. -/
theorem C40_redis_listing (global : Bool) (ls : List RLabel) (hok : ∀ l ∈ ls, l.Ok) (now : Nat)
    (hnow : ∀ l ∈ ls, RBefore now l) (self : BrokerId) (hself : Good self) :
    ∃ l, (Redis.new.run global ls).1.others self now = some l ∧ l.Nodup ∧
      ∀ b, b ∈ l ↔ b ≠ self ∧ ∃ n x, RLast ls b n x ∧ now ≤ x :=
  redis_others hok (rheart_run global hok hnow) self hself

/-- The load on record for a live broker is the one of its last heartbeat. -/
theorem C40_embedded_load (global : Bool) (ls : List ELabel) (hok : ∀ l ∈ ls, l.Ok) (now : Nat)
    (hnow : ∀ l ∈ ls, EBefore now l) (b : BrokerId) (n x : Nat) (h : ELast ls b n x) (hx : now ≤ x) :
    (Emb.new.run global ls).1.brokers.get b.display = some (n, x) :=
  (eheart_run global hok hnow).live b n x (elast_good hok h) h hx

theorem C40_redis_load (global : Bool) (ls : List RLabel) (hok : ∀ l ∈ ls, l.Ok) (now : Nat)
    (hnow : ∀ l ∈ ls, RBefore now l) (b : BrokerId) (n x : Nat) (h : RLast ls b n x) (hx : now ≤ x) :
    (Redis.new.run global ls).1.getNum (Redis.numKey b.display) = some n := by
  have := ((rheart_run global hok hnow).live b n x (rlast_good hok h) h hx).2
  simp only [Redis.getNum, this]

/-- `a` and `b` live, `b` asks; then `a`'s heartbeat expires. -/
example : ((Emb.new.run false [.pruneBrokers 100, .putBroker bA 1 60 100, .pruneBrokers 120,
      .putBroker bB 2 60 120]).1.others bB 160).2 = some [bA] ∧
    ((Emb.new.run false [.pruneBrokers 100, .putBroker bA 1 60 100, .pruneBrokers 120,
      .putBroker bB 2 60 120]).1.others bB 161).2 = some [] := by decide +kernel

/-! ## C41, C56, C57, C61 -/

/-- A step that is not part of an update of the whitelist. -/
def ELabel.NoWhitelist : ELabel → Prop
  | .whitelist _ => False
  | _ => True

def RLabel.NoWhitelist : RLabel → Prop
  | .setWhitelist _ => False
  | _ => True

theorem emb_keeps_whitelist (global : Bool) (s : Emb) (ls : List ELabel)
    (h : ∀ l ∈ ls, ELabel.NoWhitelist l) : (s.run global ls).1.whitelist = s.whitelist := by
  induction ls generalizing s with
  | nil => rfl
  | cons l ls ih =>
    simp only [Emb.run]
    rw [ih _ fun x hx => h x (List.mem_cons_of_mem _ hx)]
    have hl := h l List.mem_cons_self
    cases l with
    | putBroker self num dur now => simp only [Emb.step]; split <;> rfl
    | pruneBrokers now => rfl
    | prunePermits now => rfl
    | issue b k dur now r => simp only [Emb.step, Emb.issue]; split <;> rfl
    | take b p =>
      simp only [Emb.step, Emb.take]
      repeat' split
      all_goals rfl
    | whitelist w => exact absurd hl id

theorem redis_keeps_whitelist (global : Bool) (s : Redis) (ls : List RLabel)
    (h : ∀ l ∈ ls, RLabel.NoWhitelist l) : (s.run global ls).1.whitelist = s.whitelist := by
  induction ls generalizing s with
  | nil => rfl
  | cons l ls ih =>
    simp only [Redis.run]
    rw [ih _ fun x hx => h x (List.mem_cons_of_mem _ hx)]
    have hl := h l List.mem_cons_self
    cases l with
    | heartbeat self num dur now => rfl
    | expire now => rfl
    | issue b k dur now r => rfl
    | validate b p now => simp only [Redis.step, Redis.validate]; split <;> rfl
    | setWhitelist w => exact absurd hl id

/-- Without any update of the whitelist everyone is allowed. -/
theorem C41_embedded_default (global : Bool) (ls : List ELabel) (h : ∀ l ∈ ls, ELabel.NoWhitelist l)
    (k : Bytes) : (Emb.new.run global ls).1.checkWhitelist k = true := by
  unfold Emb.checkWhitelist
  rw [emb_keeps_whitelist global _ ls h]
  rfl

theorem C41_redis_default (global : Bool) (ls : List RLabel) (h : ∀ l ∈ ls, RLabel.NoWhitelist l)
    (k : Bytes) : (Redis.new.run global ls).1.checkWhitelist k = true := by
  unfold Redis.checkWhitelist
  rw [redis_keeps_whitelist global _ ls h]
  rfl

theorem emb_set_ok (s : Emb) (ks : List Bytes) (h : ks ≠ [] ∧ ks.length ≤ Emb.maxVars ∧ ks.Nodup) :
    s.setWhitelist ks = ({ s with whitelist := some (FSet.empty.insertMany ks) }, true) := by
  simp only [Emb.setWhitelist, Emb.wstep]
  exact if_pos ⟨h.1, h.2.1, h.2.2, by simp⟩

theorem emb_set_fail (s : Emb) (ks : List Bytes) (h : ¬ (ks ≠ [] ∧ ks.length ≤ Emb.maxVars ∧ ks.Nodup)) :
    s.setWhitelist ks = ({ s with whitelist := some FSet.empty }, false) := by
  simp only [Emb.setWhitelist, Emb.wstep]
  exact if_neg fun e => h ⟨e.1, e.2.1, e.2.2.1⟩

theorem emb_set_whitelist (s : Emb) (ks : List Bytes) :
    ((s.setWhitelist ks).2 = true ↔ ks ≠ [] ∧ ks.length ≤ Emb.maxVars ∧ ks.Nodup) ∧
    ((s.setWhitelist ks).2 = true → (s.setWhitelist ks).1.whitelist = some (FSet.empty.insertMany ks)) ∧
    ((s.setWhitelist ks).2 = false → (s.setWhitelist ks).1.whitelist = some FSet.empty) := by
  by_cases h : ks ≠ [] ∧ ks.length ≤ Emb.maxVars ∧ ks.Nodup
  · rw [emb_set_ok s ks h]
    exact ⟨⟨fun _ => h, fun _ => rfl⟩, fun _ => rfl, fun e => by cases e⟩
  · rw [emb_set_fail s ks h]
    exact ⟨⟨fun e => (by cases e), fun e => absurd e h⟩, fun e => (by cases e), fun _ => rfl⟩

/-- SQLite: after a successful (undisturbed) `set_whitelist(ks)` in whatever state, and any further steps
other than updates of the whitelist, exactly the keys in `ks` are allowed. -/
theorem C41_embedded (global : Bool) (s : Emb) (ks : List Bytes) (h : (s.setWhitelist ks).2 = true)
    (ls : List ELabel) (hls : ∀ l ∈ ls, ELabel.NoWhitelist l) (k : Bytes) :
    ((s.setWhitelist ks).1.run global ls).1.checkWhitelist k = true ↔ k ∈ ks := by
  unfold Emb.checkWhitelist
  rw [emb_keeps_whitelist global _ ls hls, (emb_set_whitelist s ks).2.1 h]
  simp

/-- SQLite: the update succeeds exactly for lists that are not empty, not longer than the number of
parameters SQLite allows, and without repetition. -/
theorem C41_embedded_succeeds_iff (s : Emb) (ks : List Bytes) :
    (s.setWhitelist ks).2 = true ↔ ks ≠ [] ∧ ks.length ≤ 32766 ∧ ks.Nodup :=
  (emb_set_whitelist s ks).1

/-- Redis: after `set_whitelist(ks)` with a list that is not empty, exactly the keys in `ks` are allowed.
Missing against C41: the empty list (`C56_redis_false`). -/
theorem C41_redis_partial (global : Bool) (s : Redis) (ks : List Bytes) (hne : ks ≠ [])
    (ls : List RLabel) (hls : ∀ l ∈ ls, RLabel.NoWhitelist l) (k : Bytes) :
    ((s.setWhitelist ks).run global ls).1.checkWhitelist k = true ↔ k ∈ ks := by
  have hw : ((s.setWhitelist ks).run global ls).1.whitelist = FSet.empty.insertMany ks :=
    redis_keeps_whitelist global _ ls hls
  unfold Redis.checkWhitelist
  rw [hw]
  have hn : ¬ (FSet.empty.insertMany ks).isEmpty = true := by
    rw [FSet.isEmpty_iff]
    intro h
    obtain ⟨a, ha⟩ := List.exists_mem_of_ne_nil _ hne
    exact h a (by simp [ha])
  rw [if_neg hn]
  simp

/-- SQLite: after `set_whitelist([])` nobody is allowed (though the call returns an error). -/
theorem C56_embedded_partial (s : Emb) (k : Bytes) :
    (s.setWhitelist []).2 = false ∧ (s.setWhitelist []).1.checkWhitelist k = false := by
  have h : ¬ (s.setWhitelist []).2 = true := by
    rw [(emb_set_whitelist s []).1]; simp
  have h' : (s.setWhitelist []).2 = false := by simpa using h
  refine ⟨h', ?_⟩
  unfold Emb.checkWhitelist
  rw [(emb_set_whitelist s []).2.2 h']
  simp

/-- Redis: after `set_whitelist([])` everybody is allowed, whatever was in force. C56 is false. -/
theorem C56_redis_false (s : Redis) (k : Bytes) : (s.setWhitelist []).checkWhitelist k = true := rfl

/-- SQLite: C57 is false. With the whitelist `[1], [2]` in force, `set_whitelist` with a repeated key (or
with no keys) fails and leaves nobody allowed. -/
theorem C57_false :
    let s := (Emb.new.setWhitelist [[1], [2]]).1
    s.checkWhitelist [1] = true ∧
    ((s.setWhitelist [[1], [1]]).2 = false ∧ (s.setWhitelist [[1], [1]]).1.checkWhitelist [1] = false) ∧
    ((s.setWhitelist []).2 = false ∧ (s.setWhitelist []).1.checkWhitelist [1] = false) := by
  decide +kernel

/-- In general: a failed `set_whitelist` locks everybody out, whatever was in force. -/
theorem C57_failure_admits_nobody_partial (s : Emb) (ks : List Bytes) (h : (s.setWhitelist ks).2 = false) (k : Bytes) :
    (s.setWhitelist ks).1.checkWhitelist k = false := by
  unfold Emb.checkWhitelist
  rw [(emb_set_whitelist s ks).2.2 h]
  simp

/-- SQLite: C61 is false. Between the first and the second statement of an update that replaces the
whitelist `[1]` by `[2]`, the key `[3]`, in neither of them, is allowed. -/
theorem C61_false :
    let s := (Emb.new.setWhitelist [[1]]).1
    s.checkWhitelist [3] = false ∧
    (s.wstep .drop).1.checkWhitelist [3] = true ∧
    (s.setWhitelist [[2]]).1.checkWhitelist [3] = false := by decide +kernel

/-- SQLite: in general, after the first statement of an update everyone is allowed, and after the second
nobody is. -/
theorem C61_embedded_windows (s : Emb) (k : Bytes) :
    (s.wstep .drop).1.checkWhitelist k = true ∧
    ((s.wstep .drop).1.wstep .create).1.checkWhitelist k = false := by
  constructor
  · rfl
  · simp [Emb.wstep, Emb.checkWhitelist]

/-- Redis: the update is one atomic step: at every point of every history, the answer for `k` is that of
the last list set so far. -/
theorem C61_redis_partial (global : Bool) (pre post : List RLabel) (ks : List Bytes) (hne : ks ≠ [])
    (hpost : ∀ l ∈ post, RLabel.NoWhitelist l) (k : Bytes) :
    (Redis.new.run global (pre ++ .setWhitelist ks :: post)).1.checkWhitelist k = true ↔ k ∈ ks := by
  have happ : ∀ (s : Redis) (a c : List RLabel), (s.run global (a ++ c)).1 = ((s.run global a).1.run global c).1 := by
    intro s a c
    induction a generalizing s with
    | nil => rfl
    | cons x a ih => simp only [List.cons_append, Redis.run, ih]
  rw [happ]
  simp only [Redis.run, Redis.step]
  exact C41_redis_partial global _ ks hne post hpost k

example : (Emb.new.setWhitelist [[1], [2]]).2 = true ∧
    (Emb.new.setWhitelist [[1], [2]]).1.checkWhitelist [2] = true ∧
    (Emb.new.setWhitelist [[1], [2]]).1.checkWhitelist [3] = false := by decide +kernel

/-! ## C58 -/

/-- The keys of permits are different for different (broker, permit) pairs, and different from the keys of
loads. (With global permits the key does not depend on the broker.) -/
theorem C58_permit_keys (b b' : BrokerId) (hb : Good b) (hb' : Good b') (p p' : Nat) :
    (Redis.permitKey false b p = Redis.permitKey false b' p' ↔ b = b' ∧ p = p') ∧
    (Redis.permitKey true b p = Redis.permitKey true b' p' ↔ p = p') := by
  constructor
  · rw [permitKey_inj hb hb']; simp [and_comm]
  · rw [permitKey_inj hb hb']; simp

theorem C58_load_keys (b b' : BrokerId) (hb : Good b) (hb' : Good b') :
    Redis.numKey b.display = Redis.numKey b'.display ↔ b = b' :=
  ⟨numKey_inj hb hb', fun h => by rw [h]⟩

theorem C58_load_and_permit_keys (global : Bool) (b b' : BrokerId) (hb : Good b) (hb' : Good b') (p : Nat) :
    Redis.numKey b.display ≠ Redis.permitKey global b' p ∧
    Redis.permitsKey b.display ≠ Redis.permitKey global b' p ∧
    Redis.permitsKey b.display ≠ Redis.numKey b'.display :=
  ⟨numKey_ne_permitKey hb hb' p, permitsKey_ne_permitKey hb hb' p, permitsKey_ne_numKey hb hb'⟩

/-- The keys of loads and permits are not the keys of the two sets. -/
theorem C58_set_keys (global : Bool) (b : BrokerId) (p : Nat) (t : Str)
    (ht : t = "brokers".toList ∨ t = "whitelist".toList) :
    Redis.numKey b.display ≠ t ∧ Redis.permitsKey b.display ≠ t ∧ Redis.permitKey global b p ≠ t := by
  have hs : '/' ∉ t := by rcases ht with rfl | rfl <;> decide
  refine ⟨?_, ?_, ?_⟩
  · rintro rfl
    exact hs (List.mem_append_right _ (by decide))
  · rintro rfl
    exact hs (List.mem_append_right _ (by decide))
  · rintro rfl
    refine hs ?_
    unfold Redis.permitKey
    cases global with
    | true => exact List.mem_append_left _ (by decide)
    | false => exact List.mem_append_left _ (List.mem_append_right _ (by decide))

/-- Without the condition on slashes two different brokers share all their permits. -/
theorem C58_slash_needed :
    let b : BrokerId := ⟨"a/b".toList, "c".toList⟩
    let b' : BrokerId := ⟨"a".toList, "b/c".toList⟩
    b ≠ b' ∧ ∀ p, Redis.permitKey false b p = Redis.permitKey false b' p := by
  refine ⟨by decide, fun p => ?_⟩
  unfold Redis.permitKey
  have : BrokerId.display ⟨"a/b".toList, "c".toList⟩ = BrokerId.display ⟨"a".toList, "b/c".toList⟩ := by decide
  simp only [this]

example : Redis.permitKey false bA 12 = "a/A/permits/12".toList := by decide +kernel

end Verif.Props.Discovery

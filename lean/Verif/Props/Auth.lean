import Verif.Model.Auth
import Verif.Lemmas.Discovery

/-!
# Properties of the authentication flows (C34, C35, C37, C38, C60, C62)

`Exec p tr r` says that program `p` can perform the effects `tr` (with arbitrary answers) and then has
result `r` (`none`: stopped on the way). In a result `some (some x)`, `x` is the `Ok` value; `some none`
is `Err`.
-/

namespace Verif.Props.Auth
open Verif Verif.Auth Verif.Disc

variable {Pub Priv : Type}

/-! ## Executions -/

theorem exec_op {α : Type} {e : Eff} {k : Ans e → Prog α} {tr : List Ev} {r : Option α} :
    Exec (.op e k) tr r ↔ (tr = [] ∧ r = none) ∨ ∃ a tr', tr = ⟨e, a⟩ :: tr' ∧ Exec (k a) tr' r := by
  constructor
  · intro h
    cases h with
    | stop => exact Or.inl ⟨rfl, rfl⟩
    | op e k a tr r h => exact Or.inr ⟨a, tr, rfl, h⟩
  · rintro (⟨rfl, rfl⟩ | ⟨a, tr', rfl, h⟩)
    · exact .stop _
    · exact .op _ _ _ _ _ h

theorem exec_ret {α : Type} {a : α} {tr : List Ev} {r : Option α} :
    Exec (.ret a) tr r ↔ tr = [] ∧ (r = none ∨ r = some a) := by
  constructor
  · intro h
    cases h with
    | stop => exact ⟨rfl, Or.inl rfl⟩
    | ret => exact ⟨rfl, Or.inr rfl⟩
  · rintro ⟨rfl, rfl | rfl⟩
    · exact .stop _
    · exact .ret _

theorem exec_fail {α : Type} {c : String} {tr : List Ev} {r : Option (Option α)} :
    Exec (fail c) tr r ↔ (tr = [] ∧ r = none) ∨
      ∃ ok, tr = [⟨.send (.authResponse 0 c), ok⟩] ∧ (r = none ∨ r = some none) := by
  unfold fail
  rw [exec_op]
  refine or_congr_right (exists_congr fun ok => ?_)
  constructor
  · rintro ⟨tr', rfl, h⟩
    rw [exec_ret] at h
    obtain ⟨rfl, h⟩ := h
    exact ⟨rfl, h⟩
  · rintro ⟨rfl, h⟩
    exact ⟨[], rfl, exec_ret.2 ⟨rfl, h⟩⟩

/-! ## Freshness -/

/-- The timestamp is not in the future and at most five seconds old. -/
def Fresh (now ts : UInt64) : Prop := ts.toNat ≤ now.toNat ∧ now.toNat ≤ ts.toNat + 5

theorem tooOld_iff (now ts : UInt64) (h : 5 ≤ now.toNat) : tooOld now ts = false ↔ Fresh now ts := by
  unfold tooOld Fresh
  simp only [decide_eq_false_iff_not, UInt64.lt_iff_toNat_lt, UInt64.toNat_sub]
  have h1 := now.toNat_lt
  have h2 := ts.toNat_lt
  have h5 : (5 : UInt64).toNat = 5 := rfl
  rw [h5]
  by_cases hle : ts.toNat ≤ now.toNat
  · have : (2 ^ 64 - ts.toNat + now.toNat) % 2 ^ 64 = now.toNat - ts.toNat := by omega
    rw [this]; omega
  · have : (2 ^ 64 - ts.toNat + now.toNat) % 2 ^ 64 = 2 ^ 64 - ts.toNat + now.toNat := by omega
    rw [this]; omega

/-! ## C34 -/

/-- All clock readings are at least five seconds after the epoch. -/
def ClockSane (tr : List Ev) : Prop := ∀ now, (⟨.clock, some now⟩ : Ev) ∈ tr → 5 ≤ now.toNat

/-- What has happened before the marshal issues a permit to `b` for the key bytes `k`. -/
structure Checked (S : Scheme Pub Priv) (tr : List Ev) (b : BrokerId) (k : Bytes) (ts : UInt64)
    (sig : Bytes) (now : UInt64) (pub : Pub) (canon : Bytes) (rest : List Ev) : Prop where
  order : tr = ⟨.recv, some (.authKey k ts sig)⟩ :: ⟨.clock, some now⟩ :: ⟨.check canon, some true⟩ ::
    ⟨.least, some b⟩ :: rest
  key : S.deserialize k = some pub
  signed : S.rawVerify pub (ascii "espresso-cdn-user-marshal-auth" ++ le8 ts) sig = true
  fresh : tooOld now ts = false
  canonical : S.serialize pub = some canon

/-- An execution of the marshal's flow either never asks for a permit, and then, if it ran to the end, it
returned an error and, unless receiving failed, sent a failure as the last thing; or it asks for exactly
one, after all checks. -/
theorem marshal_exec (S : Scheme Pub Priv) {tr : List Ev} {r : Option (Option Bytes)}
    (h : Exec (marshalVerifyUser S) tr r) :
    ((∀ b k a, (⟨.issue b k, a⟩ : Ev) ∉ tr) ∧
      (r = none ∨ r = some none ∧ (tr = [⟨.recv, none⟩] ∨
        ∃ pre c ok, tr = pre ++ [⟨.send (.authResponse 0 c), ok⟩]))) ∨
    ∃ b k ts sig now pub canon rest, Checked S tr b k ts sig now pub canon rest ∧
      ∃ a rest', rest = ⟨.issue b k, a⟩ :: rest' ∧ (∀ b' k' a', (⟨.issue b' k', a'⟩ : Ev) ∉ rest') ∧
        ((a = none ∧ (r = none ∨ r = some none ∧ ∃ c ok, rest' = [⟨.send (.authResponse 0 c), ok⟩])) ∨
         ∃ p, a = some p ∧ ((r = none ∧ (rest' = [] ∨ ∃ ok, rest' =
            [⟨.send (.authResponse p (String.ofList b.pub)), ok⟩])) ∨
          r = some (some canon) ∧ ∃ ok, rest' = [⟨.send (.authResponse p (String.ofList b.pub)), ok⟩])) := by
  -- a failure after the prefix `pre`, which contains no request for a permit
  have hfail : ∀ (pre tr' : List Ev) (c : String) (r : Option (Option Bytes)),
      (∀ b k a, (⟨.issue b k, a⟩ : Ev) ∉ pre) → Exec (fail c) tr' r →
      (∀ b k a, (⟨.issue b k, a⟩ : Ev) ∉ pre ++ tr') ∧
      (r = none ∨ r = some none ∧ (pre ++ tr' = [⟨.recv, none⟩] ∨
        ∃ pre' c ok, pre ++ tr' = pre' ++ [⟨.send (.authResponse 0 c), ok⟩])) := by
    intro pre tr' c r hpre he
    rcases exec_fail.1 he with ⟨rfl, rfl⟩ | ⟨ok, rfl, hr⟩
    · exact ⟨by simpa using hpre, Or.inl rfl⟩
    · refine ⟨?_, ?_⟩
      · intro b k a hm
        rcases List.mem_append.1 hm with hm | hm
        · exact hpre b k a hm
        · simp at hm
      · rcases hr with rfl | rfl
        · exact Or.inl rfl
        · exact Or.inr ⟨rfl, Or.inr ⟨pre, c, ok, rfl⟩⟩
  unfold marshalVerifyUser at h
  rcases exec_op.1 h with ⟨rfl, rfl⟩ | ⟨m, t1, rfl, h1⟩
  · exact Or.inl ⟨by simp, Or.inl rfl⟩
  cases m with
  | none =>
    obtain ⟨rfl, hr⟩ := exec_ret.1 h1
    refine Or.inl ⟨by simp, ?_⟩
    rcases hr with rfl | rfl
    · exact Or.inl rfl
    · exact Or.inr ⟨rfl, Or.inl rfl⟩
  | some m =>
    cases m with
    | authKey pk ts sig =>
      simp only at h1
      cases hd : S.deserialize pk with
      | none =>
        rw [hd] at h1
        exact Or.inl (hfail [_] t1 _ r (by simp) h1)
      | some pub =>
        rw [hd] at h1
        simp only at h1
        by_cases hv : S.verify pub .userMarshal ts sig = false
        · rw [if_pos hv] at h1
          exact Or.inl (hfail [_] t1 _ r (by simp) h1)
        · rw [if_neg hv] at h1
          have hv' : S.verify pub .userMarshal ts sig = true := by simpa using hv
          rcases exec_op.1 h1 with ⟨rfl, rfl⟩ | ⟨cl, t2, rfl, h2⟩
          · exact Or.inl ⟨by simp, Or.inl rfl⟩
          cases cl with
          | none => exact Or.inl (hfail [_, _] t2 _ r (by simp) h2)
          | some now =>
            simp only at h2
            by_cases ho : tooOld now ts = true
            · rw [if_pos ho] at h2
              exact Or.inl (hfail [_, _] t2 _ r (by simp) h2)
            · rw [if_neg ho] at h2
              have ho' : tooOld now ts = false := by simpa using ho
              cases hs : S.serialize pub with
              | none =>
                rw [hs] at h2
                exact Or.inl (hfail [_, _] t2 _ r (by simp) h2)
              | some canon =>
                rw [hs] at h2
                simp only at h2
                rcases exec_op.1 h2 with ⟨rfl, rfl⟩ | ⟨ck, t3, rfl, h3⟩
                · exact Or.inl ⟨by simp, Or.inl rfl⟩
                cases ck with
                | none => exact Or.inl (hfail [_, _, _] t3 _ r (by simp) h3)
                | some ck =>
                  cases ck with
                  | false => exact Or.inl (hfail [_, _, _] t3 _ r (by simp) h3)
                  | true =>
                    rcases exec_op.1 h3 with ⟨rfl, rfl⟩ | ⟨lb, t4, rfl, h4⟩
                    · exact Or.inl ⟨by simp, Or.inl rfl⟩
                    cases lb with
                    | none => exact Or.inl (hfail [_, _, _, _] t4 _ r (by simp) h4)
                    | some b =>
                      rcases exec_op.1 h4 with ⟨rfl, rfl⟩ | ⟨a, t5, rfl, h5⟩
                      · exact Or.inl ⟨by simp, Or.inl rfl⟩
                      right
                      refine ⟨b, pk, ts, sig, now, pub, canon, _, ⟨rfl, hd, hv', ho', hs⟩, a, t5, rfl, ?_⟩
                      cases a with
                      | none =>
                        rcases exec_fail.1 h5 with ⟨rfl, rfl⟩ | ⟨ok, rfl, hr⟩
                        · exact ⟨by simp, Or.inl ⟨rfl, Or.inl rfl⟩⟩
                        · refine ⟨by simp, Or.inl ⟨rfl, ?_⟩⟩
                          rcases hr with rfl | rfl
                          · exact Or.inl rfl
                          · exact Or.inr ⟨rfl, _, ok, rfl⟩
                      | some p =>
                        rcases exec_op.1 h5 with ⟨rfl, rfl⟩ | ⟨ok, t6, rfl, h6⟩
                        · exact ⟨by simp, Or.inr ⟨p, rfl, Or.inl ⟨rfl, Or.inl rfl⟩⟩⟩
                        obtain ⟨rfl, hr⟩ := exec_ret.1 h6
                        refine ⟨by simp, Or.inr ⟨p, rfl, ?_⟩⟩
                        rcases hr with rfl | rfl
                        · exact Or.inl ⟨rfl, Or.inr ⟨ok, rfl⟩⟩
                        · exact Or.inr ⟨rfl, ok, rfl⟩
    | authPermit _ => exact Or.inl (hfail [_] t1 _ r (by simp) h1)
    | authResponse _ _ => exact Or.inl (hfail [_] t1 _ r (by simp) h1)
    | direct _ _ => exact Or.inl (hfail [_] t1 _ r (by simp) h1)
    | broadcast _ _ => exact Or.inl (hfail [_] t1 _ r (by simp) h1)
    | subscribe _ => exact Or.inl (hfail [_] t1 _ r (by simp) h1)
    | unsubscribe _ => exact Or.inl (hfail [_] t1 _ r (by simp) h1)
    | userSync _ => exact Or.inl (hfail [_] t1 _ r (by simp) h1)
    | topicSync _ => exact Or.inl (hfail [_] t1 _ r (by simp) h1)

/-- Whenever the marshal asks the store for a permit for the key bytes `k`, it has received a message with
`k`, a timestamp and a signature; `k` is a public key; the signature verifies under it over the timestamp
in the user–marshal namespace; the clock said that the timestamp is fresh; and the store said that the
key is whitelisted. It asks for the broker the store named, and only once. -/
theorem C34_only_checked (S : Scheme Pub Priv) (tr : List Ev) (r : Option (Option Bytes))
    (h : Exec (marshalVerifyUser S) tr r) (hclock : ClockSane tr) (b : BrokerId) (k : Bytes)
    (a : Option UInt64) (hm : (⟨.issue b k, a⟩ : Ev) ∈ tr) :
    ∃ ts sig now pub canon rest,
      tr = [⟨.recv, some (.authKey k ts sig)⟩, ⟨.clock, some now⟩, ⟨.check canon, some true⟩,
        ⟨.least, some b⟩, ⟨.issue b k, a⟩] ++ rest ∧
      S.deserialize k = some pub ∧
      S.rawVerify pub (ascii "espresso-cdn-user-marshal-auth" ++ le8 ts) sig = true ∧
      Fresh now ts ∧
      S.serialize pub = some canon ∧
      ∀ b' k' a', (⟨.issue b' k', a'⟩ : Ev) ∉ rest := by
  rcases marshal_exec S h with ⟨hno, _⟩ | ⟨b0, k0, ts, sig, now, pub, canon, rest, hc, a0, rest', rfl, hno, -⟩
  · exact absurd hm (hno b k a)
  · have htr := hc.order
    have hmem : (⟨.issue b k, a⟩ : Ev) = ⟨.issue b0 k0, a0⟩ := by
      rw [htr] at hm
      simp only [List.mem_cons, Ev.mk.injEq, reduceCtorEq, false_and, false_or] at hm
      rcases hm with hm | hm
      · simpa using hm
      · exact absurd hm (hno b k a)
    simp only [Ev.mk.injEq, Eff.issue.injEq] at hmem
    obtain ⟨⟨rfl, rfl⟩, he⟩ := hmem
    have he := eq_of_heq he
    subst he
    refine ⟨ts, sig, now, pub, canon, rest', htr, hc.key, hc.signed, ?_, hc.canonical, hno⟩
    exact (tooOld_iff now ts (hclock now (by rw [htr]; simp))).1 hc.fresh

/-- If the flow runs to the end without having issued a permit, then it returned an error, and unless it
received nothing it sent a failure (permit 0) as the last thing. -/
theorem C34_otherwise_failure (S : Scheme Pub Priv) (tr : List Ev) (res : Option Bytes)
    (h : Exec (marshalVerifyUser S) tr (some res))
    (hno : ∀ b k p, (⟨.issue b k, some p⟩ : Ev) ∉ tr) :
    res = none ∧ (tr = [⟨.recv, none⟩] ∨ ∃ pre c ok, tr = pre ++ [⟨.send (.authResponse 0 c), ok⟩]) := by
  rcases marshal_exec S h with ⟨_, hr⟩ | ⟨b0, k0, ts, sig, now, pub, canon, rest, hc, a0, rest', rfl, _, hr⟩
  · rcases hr with hr | ⟨hr, ht⟩
    · cases hr
    · exact ⟨by simpa using hr, ht⟩
  · rcases hr with ⟨rfl, hr | ⟨hr, c, ok, rfl⟩⟩ | ⟨p, rfl, _⟩
    · cases hr
    · refine ⟨by simpa using hr, Or.inr ⟨[⟨.recv, some (.authKey k0 ts sig)⟩, ⟨.clock, some now⟩,
        ⟨.check canon, some true⟩, ⟨.least, some b0⟩, ⟨.issue b0 k0, none⟩], c, ok, ?_⟩⟩
      rw [hc.order]; rfl
    · exact absurd (by rw [hc.order]; simp) (hno b0 k0 p)

/-- If the flow issues a permit and runs to the end, then it returned the key and sent the permit and the
endpoint of the broker the permit is for. -/
theorem C34_success_answer (S : Scheme Pub Priv) (tr : List Ev) (res : Option Bytes)
    (h : Exec (marshalVerifyUser S) tr (some res)) (b : BrokerId) (k : Bytes) (p : UInt64)
    (hm : (⟨.issue b k, some p⟩ : Ev) ∈ tr) :
    (∃ pub, S.deserialize k = some pub ∧ res = S.serialize pub) ∧
    ∃ pre ok, tr = pre ++ [⟨.send (.authResponse p (String.ofList b.pub)), ok⟩] := by
  rcases marshal_exec S h with ⟨hno, _⟩ | ⟨b0, k0, ts, sig, now, pub, canon, rest, hc, a0, rest', rfl, hno, hr⟩
  · exact absurd hm (hno b k _)
  · have htr := hc.order
    have hmem : (⟨.issue b k, some p⟩ : Ev) = ⟨.issue b0 k0, a0⟩ := by
      rw [htr] at hm
      simp only [List.mem_cons, Ev.mk.injEq, reduceCtorEq, false_and, false_or] at hm
      rcases hm with hm | hm
      · simpa using hm
      · exact absurd hm (hno b k _)
    simp only [Ev.mk.injEq, Eff.issue.injEq] at hmem
    obtain ⟨⟨rfl, rfl⟩, he⟩ := hmem
    have he := eq_of_heq he
    subst he
    rcases hr with ⟨hr, _⟩ | ⟨p', hp, hr⟩
    · cases hr
    · simp only [Option.some.injEq] at hp
      subst hp
      rcases hr with ⟨hr, _⟩ | ⟨hr, ok, rfl⟩
      · cases hr
      · simp only [Option.some.injEq] at hr
        subst hr
        refine ⟨⟨pub, hc.key, hc.canonical.symm⟩, [⟨.recv, some (.authKey k ts sig)⟩, ⟨.clock, some now⟩,
          ⟨.check canon, some true⟩, ⟨.least, some b⟩, ⟨.issue b k, some p⟩], ok, ?_⟩
        rw [htr]; rfl

/-! A scheme for examples: a key is its own bytes, followed by anything (readers of
`deserialize_uncompressed` ignore trailing bytes); the signature of `m` under key `x` is `x :: m`. -/

/-- Key = one byte; the decoder ignores trailing bytes. -/
def toy : Scheme UInt8 UInt8 where
  deserialize l := l.head?
  serialize x := some [x]
  rawSign x m := some (x :: m)
  rawVerify x m s := decide (s = x :: m)

def bA : BrokerId := ⟨"a".toList, "A".toList⟩

/-- The flow with an honest message: the hypotheses of `C34_only_checked` can be met. -/
theorem toy_run : Exec (marshalVerifyUser toy)
    [⟨.recv, some (.authKey [7] 100 (7 :: signedBytes .userMarshal 100))⟩, ⟨.clock, some 103⟩,
     ⟨.check [7], some true⟩, ⟨.least, some bA⟩, ⟨.issue bA [7], some 55⟩,
     ⟨.send (.authResponse 55 "a"), true⟩] (some (some [7])) := by
  refine .op _ _ _ _ _ ?_
  show Exec (if _ then _ else _) _ _
  rw [if_neg (by decide +kernel)]
  refine .op _ _ _ _ _ ?_
  show Exec (if _ then _ else _) _ _
  rw [if_neg (by decide +kernel)]
  exact .op _ _ _ _ _ (.op _ _ _ _ _ (.op _ _ _ _ _ (.op _ _ _ _ _ (.ret _))))

/-- With a clock within five seconds of the epoch, the wrapping subtraction accepts a timestamp in the far
future. (`ClockSane` is needed in `C34_only_checked`.) -/
theorem C34_clock_needed : tooOld 2 (2 ^ 64 - 1) = false ∧ ¬ Fresh 2 (2 ^ 64 - 1) := by
  constructor
  · decide +kernel
  · unfold Fresh; decide +kernel

/-! ## C35 -/

/-- The bytes stored with a permit decode to the key whose signature was verified, and the bytes looked up
in the whitelist are the encoding of that key. -/
theorem C35_same_key_partial (S : Scheme Pub Priv) (tr : List Ev) (r : Option (Option Bytes))
    (h : Exec (marshalVerifyUser S) tr r) (b : BrokerId) (k : Bytes) (a : Option UInt64)
    (hm : (⟨.issue b k, a⟩ : Ev) ∈ tr) :
    ∃ ts sig pub canon, (⟨.recv, some (.authKey k ts sig)⟩ : Ev) ∈ tr ∧
      S.deserialize k = some pub ∧ S.verify pub .userMarshal ts sig = true ∧
      S.serialize pub = some canon ∧ (⟨.check canon, some true⟩ : Ev) ∈ tr := by
  rcases marshal_exec S h with ⟨hno, _⟩ | ⟨b0, k0, ts, sig, now, pub, canon, rest, hc, a0, rest', rfl, hno, -⟩
  · exact absurd hm (hno b k a)
  · have htr := hc.order
    have hmem : (⟨.issue b k, a⟩ : Ev) = ⟨.issue b0 k0, a0⟩ := by
      rw [htr] at hm
      simp only [List.mem_cons, Ev.mk.injEq, reduceCtorEq, false_and, false_or] at hm
      rcases hm with hm | hm
      · simpa using hm
      · exact absurd hm (hno b k a)
    simp only [Ev.mk.injEq, Eff.issue.injEq] at hmem
    obtain ⟨⟨rfl, rfl⟩, _⟩ := hmem
    exact ⟨ts, sig, pub, canon, by rw [htr]; simp, hc.key, hc.signed, hc.canonical, by rw [htr]; simp⟩

/-- The encoding of keys is canonical: only the encoding of a key decodes to it. -/
def Canonical (S : Scheme Pub Priv) : Prop := ∀ k pub, S.deserialize k = some pub → S.serialize pub = some k

/-- With a canonical encoding, the bytes stored with a permit are the bytes looked up in the whitelist. -/
theorem C35_canonical_partial (S : Scheme Pub Priv) (hS : Canonical S) (tr : List Ev)
    (r : Option (Option Bytes)) (h : Exec (marshalVerifyUser S) tr r) (b : BrokerId) (k : Bytes)
    (a : Option UInt64) (hm : (⟨.issue b k, a⟩ : Ev) ∈ tr) : (⟨.check k, some true⟩ : Ev) ∈ tr := by
  obtain ⟨ts, sig, pub, canon, _, hd, _, hs, hc⟩ := C35_same_key_partial S tr r h b k a hm
  have := hS k pub hd
  rw [hs] at this
  simp only [Option.some.injEq] at this
  rwa [← this]

/-- C35 is false for encodings with ignored trailing bytes: the marshal verifies and looks up `[7]` and
stores `[7, 9]`, so one key can be used under many names, none of them whitelisted. The scheme here is
correct: signatures made are accepted, encodings decode. -/
theorem C35_false :
    (∀ x, toy.serialize x >>= toy.deserialize = some x) ∧
    (∀ x m, ∃ s, toy.rawSign x m = some s ∧ toy.rawVerify x m s = true) ∧
    ∃ tr : List Ev, Exec (marshalVerifyUser toy) tr (some (some [7])) ∧
      (⟨.issue bA [7, 9], some 55⟩ : Ev) ∈ tr ∧ ∀ ans, (⟨.check [7, 9], ans⟩ : Ev) ∉ tr := by
  refine ⟨fun x => rfl, fun x m => ⟨_, rfl, by simp [toy]⟩,
    [⟨.recv, some (.authKey [7, 9] 100 (7 :: signedBytes .userMarshal 100))⟩, ⟨.clock, some 103⟩,
      ⟨.check [7], some true⟩, ⟨.least, some bA⟩, ⟨.issue bA [7, 9], some 55⟩,
      ⟨.send (.authResponse 55 "a"), true⟩], ?_, ?_, ?_⟩
  · refine .op _ _ _ _ _ ?_
    show Exec (if _ then _ else _) _ _
    rw [if_neg (by decide +kernel)]
    refine .op _ _ _ _ _ ?_
    show Exec (if _ then _ else _) _ _
    rw [if_neg (by decide +kernel)]
    exact .op _ _ _ _ _ (.op _ _ _ _ _ (.op _ _ _ _ _ (.op _ _ _ _ _ (.ret _))))
  · simp
  · intro ans; simp

/-! ## C37 -/

/-- `verify_broker` succeeds exactly if the message received was a key authentication with (an encoding
of) the broker's own public key and a signature that verifies under that key over the timestamp in the
broker–broker namespace, with a fresh timestamp; then it has answered with permit 1 and its identity, and
done nothing else. -/
theorem C37_accepts_iff [DecidableEq Pub] (S : Scheme Pub Priv) (self : BrokerId) (ourKey : Pub)
    (tr : List Ev) (hclock : ClockSane tr) :
    Exec (brokerVerifyBroker S self ourKey) tr (some (some ())) ↔
    ∃ pk ts sig now ok,
      tr = [⟨.recv, some (.authKey pk ts sig)⟩, ⟨.clock, some now⟩,
        ⟨.send (.authResponse 1 (String.ofList self.display)), ok⟩] ∧
      S.deserialize pk = some ourKey ∧
      S.rawVerify ourKey (ascii "espresso-cdn-broker-broker-auth" ++ le8 ts) sig = true ∧
      Fresh now ts := by
  constructor
  · intro h
    unfold brokerVerifyBroker at h
    rcases exec_op.1 h with ⟨-, hr⟩ | ⟨m, t1, rfl, h1⟩
    · cases hr
    have hf : ∀ {c : String} {t : List Ev}, ¬ Exec (fail c : Prog (Option Unit)) t (some (some ())) := by
      intro c t hh
      rcases exec_fail.1 hh with ⟨-, hr⟩ | ⟨ok, -, hr⟩
      · cases hr
      · rcases hr with hr | hr <;> simp at hr
    cases m with
    | none =>
      obtain ⟨-, hr⟩ := exec_ret.1 h1
      simp at hr
    | some m =>
      cases m with
      | authKey pk ts sig =>
        simp only at h1
        cases hd : S.deserialize pk with
        | none => rw [hd] at h1; exact absurd h1 hf
        | some pub =>
          rw [hd] at h1
          simp only at h1
          by_cases hv : S.verify pub .brokerBroker ts sig = false
          · rw [if_pos hv] at h1; exact absurd h1 hf
          · rw [if_neg hv] at h1
            have hv' : S.verify pub .brokerBroker ts sig = true := by simpa using hv
            rcases exec_op.1 h1 with ⟨-, hr⟩ | ⟨cl, t2, rfl, h2⟩
            · cases hr
            cases cl with
            | none => exact absurd h2 hf
            | some now =>
              simp only at h2
              by_cases ho : tooOld now ts = true
              · rw [if_pos ho] at h2; exact absurd h2 hf
              · rw [if_neg ho] at h2
                by_cases hk : pub ≠ ourKey
                · rw [if_pos hk] at h2; exact absurd h2 hf
                · rw [if_neg hk] at h2
                  have hk := Classical.not_not.1 hk
                  subst hk
                  rcases exec_op.1 h2 with ⟨-, hr⟩ | ⟨ok, t3, rfl, h3⟩
                  · cases hr
                  obtain ⟨rfl, -⟩ := exec_ret.1 h3
                  refine ⟨pk, ts, sig, now, ok, rfl, hd, hv', ?_⟩
                  exact (tooOld_iff now ts (hclock now (by simp))).1 (by simpa using ho)
      | authPermit _ => exact absurd h1 hf
      | authResponse _ _ => exact absurd h1 hf
      | direct _ _ => exact absurd h1 hf
      | broadcast _ _ => exact absurd h1 hf
      | subscribe _ => exact absurd h1 hf
      | unsubscribe _ => exact absurd h1 hf
      | userSync _ => exact absurd h1 hf
      | topicSync _ => exact absurd h1 hf
  · rintro ⟨pk, ts, sig, now, ok, rfl, hd, hv, hfr⟩
    have ho := (tooOld_iff now ts (hclock now (by simp))).2 hfr
    have hv' : S.verify ourKey .brokerBroker ts sig = true := hv
    refine .op _ _ _ _ _ ?_
    simp only [hd, hv', Bool.true_eq_false, if_false]
    refine .op _ _ _ _ _ ?_
    simp only [ho, Bool.false_eq_true, if_false, ne_eq, not_true_eq_false]
    exact .op _ _ _ _ _ (.ret _)

/-- In every other case it returns an error (when it runs to the end) and, unless it received nothing,
answers with permit 0: it never answers with permit 1. -/
theorem C37_no_false_answer [DecidableEq Pub] (S : Scheme Pub Priv) (self : BrokerId) (ourKey : Pub)
    (tr : List Ev) (r : Option (Option Unit)) (h : Exec (brokerVerifyBroker S self ourKey) tr r)
    (c : String) (ok : Bool) (hm : (⟨.send (.authResponse 1 c), ok⟩ : Ev) ∈ tr) :
    Exec (brokerVerifyBroker S self ourKey) tr (some (some ())) := by
  have hf : ∀ {c' : String} {t pre : List Ev} {r : Option (Option Unit)},
      Exec (fail c' : Prog (Option Unit)) t r →
      (⟨.send (.authResponse 1 c), ok⟩ : Ev) ∉ pre → (⟨.send (.authResponse 1 c), ok⟩ : Ev) ∉ pre ++ t := by
    intro c' t pre r hh hp hm
    rcases List.mem_append.1 hm with hm | hm
    · exact hp hm
    · rcases exec_fail.1 hh with ⟨rfl, -⟩ | ⟨ok', rfl, -⟩
      · cases hm
      · simp only [List.mem_singleton, Ev.mk.injEq, Eff.send.injEq, Msg.authResponse.injEq] at hm
        have := hm.1.1
        exact absurd this (by decide)
  unfold brokerVerifyBroker at h
  rcases exec_op.1 h with ⟨rfl, -⟩ | ⟨m, t1, rfl, h1⟩
  · cases hm
  cases m with
  | none =>
    obtain ⟨rfl, -⟩ := exec_ret.1 h1
    simp at hm
  | some m =>
    cases m with
    | authKey pk ts sig =>
      simp only at h1
      cases hd : S.deserialize pk with
      | none => rw [hd] at h1; exact absurd hm (hf (pre := [_]) h1 (by simp))
      | some pub =>
        rw [hd] at h1
        simp only at h1
        by_cases hv : S.verify pub .brokerBroker ts sig = false
        · rw [if_pos hv] at h1; exact absurd hm (hf (pre := [_]) h1 (by simp))
        · rw [if_neg hv] at h1
          rcases exec_op.1 h1 with ⟨rfl, -⟩ | ⟨cl, t2, rfl, h2⟩
          · simp at hm
          cases cl with
          | none => exact absurd hm (hf (pre := [_, _]) h2 (by simp))
          | some now =>
            simp only at h2
            by_cases ho : tooOld now ts = true
            · rw [if_pos ho] at h2; exact absurd hm (hf (pre := [_, _]) h2 (by simp))
            · rw [if_neg ho] at h2
              by_cases hk : pub ≠ ourKey
              · rw [if_pos hk] at h2; exact absurd hm (hf (pre := [_, _]) h2 (by simp))
              · rw [if_neg hk] at h2
                rcases exec_op.1 h2 with ⟨rfl, -⟩ | ⟨ok', t3, rfl, h3⟩
                · simp at hm
                obtain ⟨rfl, -⟩ := exec_ret.1 h3
                unfold brokerVerifyBroker
                refine .op _ _ _ _ _ ?_
                simp only [hd, if_neg hv]
                refine .op _ _ _ _ _ ?_
                simp only [if_neg ho, if_neg hk]
                exact .op _ _ _ _ _ (.ret _)
    | authPermit _ => exact absurd hm (hf (pre := [_]) h1 (by simp))
    | authResponse _ _ => exact absurd hm (hf (pre := [_]) h1 (by simp))
    | direct _ _ => exact absurd hm (hf (pre := [_]) h1 (by simp))
    | broadcast _ _ => exact absurd hm (hf (pre := [_]) h1 (by simp))
    | subscribe _ => exact absurd hm (hf (pre := [_]) h1 (by simp))
    | unsubscribe _ => exact absurd hm (hf (pre := [_]) h1 (by simp))
    | userSync _ => exact absurd hm (hf (pre := [_]) h1 (by simp))
    | topicSync _ => exact absurd hm (hf (pre := [_]) h1 (by simp))

/-! ## C38 -/

theorem le8_inj {a b : UInt64} (h : le8 a = le8 b) : a = b := by
  have ha := a.toNat_lt
  have hb := b.toNat_lt
  simp only [le8, List.cons.injEq, and_true] at h
  obtain ⟨h0, h1, h2, h3, h4, h5, h6, h7⟩ := h
  have e : ∀ {m n : Nat}, UInt8.ofNat m = UInt8.ofNat n → m % 256 = n % 256 := by
    intro m n h
    have := congrArg UInt8.toNat h
    simpa using this
  have h0 := e h0
  have h1 := e h1
  have h2 := e h2
  have h3 := e h3
  have h4 := e h4
  have h5 := e h5
  have h6 := e h6
  have h7 := e h7
  apply UInt64.toNat_inj.1
  omega

/-- What is signed for users is never what is signed for brokers, whatever the messages are. -/
theorem C38_namespaces (m m' : Bytes) : Ns.userMarshal.bytes ++ m ≠ Ns.brokerBroker.bytes ++ m' := by
  intro h
  have h13 : (Ns.userMarshal.bytes ++ m)[13]? = (Ns.brokerBroker.bytes ++ m')[13]? := by rw [h]
  rw [List.getElem?_append_left (by decide +kernel), List.getElem?_append_left (by decide +kernel)] at h13
  exact absurd h13 (by decide +kernel)

/-- Two signed byte strings are equal only for the same purpose and the same timestamp. -/
theorem C38_injective (ns ns' : Ns) (ts ts' : UInt64) (h : signedBytes ns ts = signedBytes ns' ts') :
    ns = ns' ∧ ts = ts' := by
  unfold signedBytes at h
  cases ns <;> cases ns'
  · exact ⟨rfl, le8_inj (List.append_cancel_left h)⟩
  · exact absurd h (C38_namespaces _ _)
  · exact absurd h.symm (C38_namespaces _ _)
  · exact ⟨rfl, le8_inj (List.append_cancel_left h)⟩

/-- Hence: if a scheme accepts under a key only what its owner signed, a signature made for one purpose
and timestamp is accepted for no other. -/
theorem C38_useless_elsewhere (S : Scheme Pub Priv) (pk : Pub) (made : List (Ns × UInt64 × Bytes))
    (huf : ∀ m sig, S.rawVerify pk m sig = true → ∃ e ∈ made, m = signedBytes e.1 e.2.1 ∧ sig = e.2.2)
    (ns : Ns) (ts : UInt64) (sig : Bytes) (h : S.verify pk ns ts sig = true) : (ns, ts, sig) ∈ made := by
  obtain ⟨⟨ns', ts', sig'⟩, he, h1, h2⟩ := huf _ _ h
  obtain ⟨rfl, rfl⟩ := C38_injective _ _ _ _ h1
  simp only at h2
  subst h2
  exact he

example : signedBytes .userMarshal 1 = ascii "espresso-cdn-user-marshal-auth" ++ [1, 0, 0, 0, 0, 0, 0, 0] := by
  decide +kernel

/-! ## C60 -/

/-- C60 is false, for every scheme: the message a broker sends at clock value `ts` is accepted by every
broker with the same key pair — the sender itself included — at any clock value up to five seconds later,
as many times as it is presented. (Assumed of the scheme: encodings decode, signatures verify.) -/
theorem C60_false [DecidableEq Pub] (S : Scheme Pub Priv) (pk : Pub) (sk : Priv)
    (hkey : ∀ b, S.serialize pk = some b → S.deserialize b = some pk)
    (hsig : ∀ m s, S.rawSign sk m = some s → S.rawVerify pk m s = true)
    (ts : UInt64) (m : Msg) (tr : List Ev) (r : Option (Option BrokerId))
    (hsend : Exec (brokerWithBroker S pk sk) (⟨.clock, some ts⟩ :: ⟨.send m, true⟩ :: tr) r)
    (now : UInt64) (hnow : 5 ≤ now.toNat) (hfr : Fresh now ts) (anyBroker : BrokerId) :
    Exec (brokerVerifyBroker S anyBroker pk)
      [⟨.recv, some m⟩, ⟨.clock, some now⟩, ⟨.send (.authResponse 1 (String.ofList anyBroker.display)), true⟩]
      (some (some ())) := by
  unfold brokerWithBroker at hsend
  rcases exec_op.1 hsend with ⟨h, -⟩ | ⟨a, t1, he, h1⟩
  · cases h
  simp only [List.cons.injEq, Ev.mk.injEq, heq_eq_eq, true_and] at he
  obtain ⟨rfl, rfl⟩ := he
  simp only at h1
  cases hs : S.sign sk .brokerBroker ts with
  | none => rw [hs] at h1; exact absurd (exec_ret.1 h1).1 (by simp)
  | some sig =>
    rw [hs] at h1
    simp only at h1
    cases hp : S.serialize pk with
    | none => rw [hp] at h1; exact absurd (exec_ret.1 h1).1 (by simp)
    | some pkb =>
      rw [hp] at h1
      simp only at h1
      rcases exec_op.1 h1 with ⟨h, -⟩ | ⟨a, t2, he, h2⟩
      · cases h
      simp only [List.cons.injEq, Ev.mk.injEq, Eff.send.injEq] at he
      obtain ⟨⟨rfl, -⟩, -⟩ := he
      refine (C37_accepts_iff S anyBroker pk _ ?_).2 ⟨pkb, ts, sig, now, true, rfl, hkey pkb hp, hsig _ _ hs, hfr⟩
      intro n hn
      simp only [List.mem_cons, Ev.mk.injEq, reduceCtorEq, false_and, List.not_mem_nil, or_false,
        heq_eq_eq, Option.some.injEq, true_and, false_or] at hn
      rw [hn]; exact hnow

/-- What holds of C60: no broker accepts the message a broker sent at clock value `ts`, or any other with that timestamp,
when its own clock shows less than `ts` or more than five seconds after it. -/
theorem C60_not_later_partial [DecidableEq Pub] (S : Scheme Pub Priv) (anyBroker : BrokerId) (ourKey : Pub) (pk : Bytes)
    (ts now : UInt64) (sig : Bytes) (tr : List Ev) (hnow : 5 ≤ now.toNat)
    (h : Exec (brokerVerifyBroker S anyBroker ourKey) (⟨.recv, some (.authKey pk ts sig)⟩ :: ⟨.clock, some now⟩ :: tr)
      (some (some ()))) : ts.toNat ≤ now.toNat ∧ now.toNat ≤ ts.toNat + 5 := by
  unfold brokerVerifyBroker at h
  rcases exec_op.1 h with ⟨h, -⟩ | ⟨a, t1, he, h1⟩
  · cases h
  simp only [List.cons.injEq, Ev.mk.injEq, heq_eq_eq, true_and] at he
  obtain ⟨rfl, rfl⟩ := he
  have hf : ∀ {c : String} {t : List Ev}, ¬ Exec (fail c : Prog (Option Unit)) t (some (some ())) := by
    intro c t h
    rcases exec_fail.1 h with ⟨-, h⟩ | ⟨_, -, h | h⟩ <;> cases h
  simp only at h1
  cases hd : S.deserialize pk with
  | none => rw [hd] at h1; exact absurd h1 hf
  | some pub =>
    rw [hd] at h1
    simp only at h1
    split at h1
    · exact absurd h1 hf
    · rcases exec_op.1 h1 with ⟨h, -⟩ | ⟨a, t2, he, h2⟩
      · cases h
      simp only [List.cons.injEq, Ev.mk.injEq, heq_eq_eq, true_and] at he
      obtain ⟨rfl, rfl⟩ := he
      simp only at h2
      split at h2
      · exact absurd h2 hf
      · rename_i ho
        exact (tooOld_iff now ts hnow).1 (by simpa using ho)

/-- A concrete case of `C60_false` and `C60_not_later_partial`: a message is sent at 100, and
accepted at 103 by whatever broker. -/
example (anyBroker : BrokerId) : Exec (brokerWithBroker toy 7 7)
    [⟨.clock, some 100⟩, ⟨.send (.authKey [7] 100 (7 :: signedBytes .brokerBroker 100)), true⟩] none ∧
    Exec (brokerVerifyBroker toy anyBroker 7)
      [⟨.recv, some (.authKey [7] 100 (7 :: signedBytes .brokerBroker 100))⟩, ⟨.clock, some 103⟩,
        ⟨.send (.authResponse 1 (String.ofList anyBroker.display)), true⟩] (some (some ())) := by
  have h : Exec (brokerWithBroker toy 7 7)
    [⟨.clock, some 100⟩, ⟨.send (.authKey [7] 100 (7 :: signedBytes .brokerBroker 100)), true⟩] none :=
    .op _ _ _ _ _ (.op _ _ _ _ _ (.stop _))
  refine ⟨h, C60_false toy 7 7 ?_ ?_ 100 _ [] none h 103 (by decide) ⟨by decide, by decide⟩ anyBroker⟩
  · intro b hb
    cases hb; rfl
  · intro m s hs
    simp only [toy, Option.some.injEq] at hs
    simp [toy, hs]

end Verif.Props.Auth

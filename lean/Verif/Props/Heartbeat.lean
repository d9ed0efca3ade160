import Verif.Model.Heartbeat
import Verif.Props.Discovery

/-!
# Heartbeats in time (C78, C79)

The theorems are about every run of any number of brokers (`Verif.Hb.Run`), on both discovery stores, with everybody
else using the store at the same time. `late` is how late the runtime may resume a task.
-/

namespace Verif.Props.Heartbeat
open Verif Verif.Disc Verif.Hb Verif.Props.Ident

variable {L : Type}

/-! ## What is used of a store -/

/-- In the history, the last heartbeat of `b` reported `num` and is good until `exp`. -/
def Last (be : Backend L) (ls : List L) (b : BrokerId) (num exp : Nat) : Prop :=
  ∃ pre mid dur t, ls = pre ++ be.put b num dur t :: mid ∧ num < 2 ^ 32 ∧ exp = t + dur ∧
    ∀ num' dur' t', be.put b num' dur' t' ∉ mid

/-- The store lists the brokers whose last heartbeat is still good. -/
structure Lists (be : Backend L) : Prop where
  lists : ∀ ls now, (∀ l ∈ ls, be.ok l) → (∀ l ∈ ls, be.before now l) → ∀ self, Good self →
    ∃ r, be.others ls self now = some r ∧ ∀ b n x, b ≠ self → Last be ls b n x → now ≤ x → b ∈ r
  only : ∀ ls now, (∀ l ∈ ls, be.ok l) → (∀ l ∈ ls, be.before now l) → ∀ self r, Good self →
    be.others ls self now = some r → ∀ b ∈ r, ∃ pre mid num dur t, ls = pre ++ be.put b num dur t :: mid ∧ now ≤ t + dur
  putOk : ∀ b num dur t, be.ok (be.put b num dur t) ↔ Good b
  putBefore : ∀ b num dur t now, be.before now (be.put b num dur t) ↔ t ≤ now
  expOk : ∀ t, be.ok (be.expire t)
  expBefore : ∀ t now, be.before now (be.expire t) ↔ t ≤ now
  expNot : ∀ b num dur t c, be.expire c ≠ be.put b num dur t
  inj : ∀ b b' num num' dur dur' t t', be.put b num dur t = be.put b' num' dur' t' → b = b' ∧ num = num' ∧ dur = dur' ∧ t = t'
  mono : ∀ now now' l, now ≤ now' → be.before now l → be.before now' l

theorem embedded_lists (global : Bool) : Lists (embedded global) where
  lists ls now hok hb self _ := by
    obtain ⟨r, h1, _, h3⟩ := Props.Discovery.C40_embedded_listing global ls hok now hb self
    refine ⟨r, h1, fun b n x hne hl hx => (h3 b).2 ⟨hne, n, x, ?_, hx⟩⟩
    obtain ⟨pre, mid, dur, t, e1, e2, e3, e4⟩ := hl
    exact ⟨pre, mid, dur, t, e1, e2, e3, fun n' d' t' _ => e4 n' d' t'⟩
  only ls now hok hb self r _ hr b hbr := by
    obtain ⟨r', h1, _, h3⟩ := Props.Discovery.C40_embedded_listing global ls hok now hb self
    have : r = r' := by
      have : some r = some r' := hr.symm.trans h1
      exact Option.some.inj this
    subst this
    obtain ⟨_, n, x, ⟨pre, mid, dur, t, e1, _, e3, _⟩, hx⟩ := (h3 b).1 hbr
    exact ⟨pre, mid, n, dur, t, e1, by omega⟩
  putOk _ _ _ _ := Iff.rfl
  putBefore _ _ _ _ _ := Iff.rfl
  expOk _ := trivial
  expBefore _ _ := Iff.rfl
  expNot _ _ _ _ _ := by intro h; cases h
  inj _ _ _ _ _ _ _ _ h := by cases h; exact ⟨rfl, rfl, rfl, rfl⟩
  mono now now' l h hl := by
    cases l <;> simp only [embedded, EBefore] at hl ⊢ <;> omega

theorem redis_lists (global : Bool) : Lists (redis global) where
  lists ls now hok hb self hs := by
    obtain ⟨r, h1, _, h3⟩ := Props.Discovery.C40_redis_listing global ls hok now hb self hs
    refine ⟨r, h1, fun b n x hne hl hx => (h3 b).2 ⟨hne, n, x, ?_, hx⟩⟩
    obtain ⟨pre, mid, dur, t, e1, _, e3, e4⟩ := hl
    exact ⟨pre, mid, dur, t, e1, e3, e4⟩
  only ls now hok hb self r hs hr b hbr := by
    obtain ⟨r', h1, _, h3⟩ := Props.Discovery.C40_redis_listing global ls hok now hb self hs
    have : r = r' := by
      have : some r = some r' := hr.symm.trans h1
      exact Option.some.inj this
    subst this
    obtain ⟨_, n, x, ⟨pre, mid, dur, t, e1, e3, _⟩, hx⟩ := (h3 b).1 hbr
    exact ⟨pre, mid, n, dur, t, e1, by omega⟩
  putOk _ _ _ _ := Iff.rfl
  putBefore _ _ _ _ _ := Iff.rfl
  expOk _ := trivial
  expBefore _ _ := Iff.rfl
  expNot _ _ _ _ _ := by intro h; cases h
  inj _ _ _ _ _ _ _ _ h := by cases h; exact ⟨rfl, rfl, rfl, rfl⟩
  mono now now' l h hl := by
    cases l <;> simp only [redis, RBefore] at hl ⊢ <;> omega

/-! ## Invariants of all runs -/

theorem setPc_self (f : BrokerId → Option Pc) (b p) : setPc f b p b = p := by simp [setPc]
theorem setPc_ne (f : BrokerId → Option Pc) {b x} (p) (h : x ≠ b) : setPc f b p x = f x := by simp [setPc, h]

/-- When the loop arrived where it is. -/
def since : Pc → Nat
  | .beat t _ _ => t
  | .list t _ => t
  | .sleep t => t

structure Sane (be : Backend L) (late : Nat) (w : World L) : Prop where
  ok : ∀ l ∈ w.hist, be.ok l
  before : ∀ l ∈ w.hist, be.before w.time l
  good : ∀ b p, w.pc b = some p → Good b
  since : ∀ b p, w.pc b = some p → since p ≤ w.time
  due : ∀ b p, w.pc b = some p → w.time ≤ p.due late

theorem step_time {be : Backend L} {late : Nat} {w w' : World L} {t : Nat} {e : Ev L} (h : Step be late w t e w') :
    Timely late w t ∧ w'.time = t := by
  cases h <;> exact ⟨by assumption, rfl⟩

theorem sane_step {be : Backend L} (hbe : Lists be) {late : Nat} {w w' : World L} {t : Nat} {e : Ev L}
    (hw : Sane be late w) (h : Step be late w t e w') : Sane be late w' := by
  have hb : ∀ l ∈ w.hist, be.before t l := fun l hl => hbe.mono _ _ l (step_time h).1.1 (hw.before l hl)
  have ht := (step_time h).1
  -- the point of one loop changes
  have chg : ∀ (b : BrokerId) (p : Option Pc) (hist : List L), (∀ l ∈ hist, be.ok l) → (∀ l ∈ hist, be.before t l) →
      (∀ q, p = some q → Good b ∧ since q ≤ t ∧ t ≤ q.due late) → Sane be late ⟨t, setPc w.pc b p, hist⟩ := by
    intro b p hist h1 h2 h3
    refine ⟨h1, h2, fun x q hx => ?_, fun x q hx => ?_, fun x q hx => ?_⟩ <;>
    · by_cases e : x = b
      · subst e; simp only [setPc_self] at hx
        first | exact (h3 q hx).1 | exact (h3 q hx).2.1 | exact (h3 q hx).2.2
      · simp only [setPc_ne _ _ e] at hx
        first | exact hw.good x q hx | exact Nat.le_trans (hw.since x q hx) ht.1 | exact ht.2 x q hx
  cases h with
  | start b num _ hn hg =>
    refine chg _ _ _ hw.ok hb (fun q hq => ?_)
    cases hq; exact ⟨hg, Nat.le_refl _, by simp only [Pc.due]; omega⟩
  | write b t0 num c _ hp h1 h2 _ =>
    have hg := hw.good _ _ hp
    refine chg _ _ _ ?_ ?_ (fun q hq => ?_)
    · intro l hl; rcases List.mem_append.1 hl with hl | hl
      · exact hw.ok l hl
      · rw [List.mem_singleton.1 hl, hbe.putOk]; exact hg
    · intro l hl; rcases List.mem_append.1 hl with hl | hl
      · exact hb l hl
      · rw [List.mem_singleton.1 hl, hbe.putBefore]; exact h2
    · cases hq
      have := hw.since _ _ hp
      have := ht.2 _ _ hp
      simp only [since, Pc.due] at *
      exact ⟨hg, by omega, by omega⟩
  | beatDone b t0 num wr ok _ hp _ =>
    refine chg _ _ _ hw.ok hb (fun q hq => ?_)
    cases hq; exact ⟨hw.good _ _ hp, Nat.le_refl _, by simp only [Pc.due]; omega⟩
  | query b t0 _ hp =>
    refine chg _ _ _ ?_ ?_ (fun q hq => ?_)
    · intro l hl; rcases List.mem_append.1 hl with hl | hl
      · exact hw.ok l hl
      · rw [List.mem_singleton.1 hl]; exact hbe.expOk t
    · intro l hl; rcases List.mem_append.1 hl with hl | hl
      · exact hb l hl
      · rw [List.mem_singleton.1 hl, hbe.expBefore]
    · cases hq
      have := hw.since _ _ hp
      have := ht.2 _ _ hp
      have := ht.1
      simp only [since, Pc.due] at *
      exact ⟨hw.good _ _ hp, by omega, by omega⟩
  | listed b t0 l conn _ hp =>
    refine chg _ _ _ hw.ok hb (fun q hq => ?_)
    cases hq; exact ⟨hw.good _ _ hp, Nat.le_refl _, by simp only [Pc.due]; omega⟩
  | listFailed b t0 seen num _ hp =>
    refine chg _ _ _ hw.ok hb (fun q hq => ?_)
    cases hq; exact ⟨hw.good _ _ hp, Nat.le_refl _, by simp only [Pc.due]; omega⟩
  | wake b t0 num _ hp _ =>
    refine chg _ _ _ hw.ok hb (fun q hq => ?_)
    cases hq; exact ⟨hw.good _ _ hp, Nat.le_refl _, by simp only [Pc.due]; omega⟩
  | stop b p _ hp => exact chg _ _ _ hw.ok hb (fun q hq => by cases hq)
  | store l _ _ hb' hok =>
    refine ⟨?_, ?_, hw.good, fun x q hx => Nat.le_trans (hw.since x q hx) ht.1, ht.2⟩
    · intro x hx; rcases List.mem_append.1 hx with hx | hx
      · exact hw.ok x hx
      · rw [List.mem_singleton.1 hx]; exact hok
    · intro x hx; rcases List.mem_append.1 hx with hx | hx
      · exact hb x hx
      · rw [List.mem_singleton.1 hx]; exact hb'
  | tick _ => exact ⟨hw.ok, hb, hw.good, fun x q hx => Nat.le_trans (hw.since x q hx) ht.1, ht.2⟩

theorem sane_run {be : Backend L} (hbe : Lists be) {late : Nat} {es : List (Nat × Ev L)} {w : World L}
    (h : Run be late es w) : Sane be late w := by
  induction h with
  | nil => exact ⟨by simp [World.init], by simp [World.init], by simp [World.init], by simp [World.init], by simp [World.init]⟩
  | snoc _ hs ih => exact sane_step hbe ih hs

/-! ## C78 -/

/-- Heartbeats of `b` that returned without success. -/
def failures (b : BrokerId) (es : List (Nat × Ev L)) : Nat :=
  es.countP fun e => match e.2 with | .beatDone b' false => decide (b' = b) | _ => false

/-- A heartbeat of `b` returned with success. -/
def Success (b : BrokerId) (es : List (Nat × Ev L)) : Prop := ∃ t, (t, Ev.beatDone b true) ∈ es

/-- At most `k` heartbeats of `b` in a row fail. -/
def InARow (k : Nat) (b : BrokerId) (es : List (Nat × Ev L)) : Prop :=
  ∀ pre mid post, es = pre ++ mid ++ post → ¬ Success b mid → failures b mid ≤ k

/-- The broker keeps running. -/
def Stays (b : BrokerId) (es : List (Nat × Ev L)) : Prop := ∀ t, (t, Ev.stop b) ∉ es

/-- The number of users was read for the next heartbeat. -/
def Reads (b : BrokerId) (num : Nat) : Ev L → Prop
  | .start b' n => b' = b ∧ n = num
  | .listFailed b' n => b' = b ∧ n = num
  | .wake b' n => b' = b ∧ n = num
  | _ => False

/-- How long a round of the loop may take. -/
def round (late : Nat) : Nat := 20000 + 3 * late

/-- What the loop of `b` has done since the last time it wrote. -/
structure Since (be : Backend L) (late : Nat) (b : BrokerId) (es : List (Nat × Ev L)) (w : World L) : Prop where
  ex : ∃ (W c num g : Nat) (pre mid : List (Nat × Ev L)) (hpre hmid : List L) (p : Pc),
    (∃ e, (W, e) ∈ es ∧ Reads b num e) ∧ W ≤ c ∧ num < 2 ^ 32 ∧
    w.hist = hpre ++ be.put b num 60000 c :: hmid ∧ (∀ n d t, be.put b n d t ∉ hmid) ∧
    es = pre ++ mid ∧ ¬ Success b mid ∧ failures b mid = g - 1 ∧
    w.pc b = some p ∧
    match p with
    | .beat t _ true => g = 0 ∧ t = W
    | .beat t _ false => 1 ≤ g ∧ t ≤ W + g * round late
    | .list t _ => 1 ≤ g ∧ t + round late ≤ W + g * round late + (5000 + late)
    | .sleep t => 1 ≤ g ∧ t + round late ≤ W + g * round late + 2 * (5000 + late)

theorem failures_append (b : BrokerId) (xs ys : List (Nat × Ev L)) :
    failures b (xs ++ ys) = failures b xs + failures b ys := by simp [failures, List.countP_append]

/-- An event of the loop of `b` other than the return of a heartbeat. -/
def Quiet (b : BrokerId) (e : Ev L) : Prop := ∀ ok, e ≠ .beatDone b ok

theorem quiet_keeps {b : BrokerId} {t : Nat} {e : Ev L} (h : Quiet b e) (mid : List (Nat × Ev L))
    (hs : ¬ Success b mid) : ¬ Success b (mid ++ [(t, e)]) ∧ failures b (mid ++ [(t, e)]) = failures b mid := by
  constructor
  · rintro ⟨t', ht'⟩
    rcases List.mem_append.1 ht' with h' | h'
    · exact hs ⟨t', h'⟩
    · cases List.mem_singleton.1 h'; exact h true rfl
  · rw [failures_append]
    suffices h0 : failures b [(t, e)] = 0 by omega
    unfold failures
    rw [List.countP_eq_zero]
    intro x hx
    rw [List.mem_singleton.1 hx]
    cases e <;> simp
    rename_i b' ok
    cases ok
    · simp; rintro rfl; exact h false rfl
    · simp

/-- Loads that are to be reported were read when the heartbeat began. -/
theorem read_run {be : Backend L} {late : Nat} {es : List (Nat × Ev L)} {w : World L} (h : Run be late es w) :
    ∀ b t num wr, w.pc b = some (.beat t num wr) → ∃ e, (t, e) ∈ es ∧ Reads b num e := by
  induction h with
  | nil => intro b t num wr h; simp [World.init] at h
  | @snoc es w t e w' _ hs ih =>
    intro b t' num wr hp
    have old : ∀ wr', w.pc b = some (.beat t' num wr') → ∃ x, (t', x) ∈ es ++ [(t, e)] ∧ Reads b num x := by
      intro wr' h
      obtain ⟨x, h1, h2⟩ := ih b t' num wr' h
      exact ⟨x, by simp [h1], h2⟩
    cases hs with
    | start b' num' _ _ _ =>
      by_cases hb : b = b'
      · subst hb; simp only [setPc_self, Option.some.injEq, Pc.beat.injEq] at hp
        obtain ⟨rfl, rfl, _⟩ := hp
        refine ⟨Ev.start b num', by simp, ?_⟩; simp [Reads]
      · simp only [setPc_ne _ _ hb] at hp; exact old _ hp
    | write b' t0 num' c _ hp' _ _ _ =>
      by_cases hb : b = b'
      · subst hb; simp only [setPc_self, Option.some.injEq, Pc.beat.injEq] at hp
        obtain ⟨rfl, rfl, _⟩ := hp
        exact old _ hp'
      · simp only [setPc_ne _ _ hb] at hp; exact old _ hp
    | beatDone b' _ _ _ _ _ _ _ =>
      by_cases hb : b = b'
      · subst hb; simp [setPc_self] at hp
      · simp only [setPc_ne _ _ hb] at hp; exact old _ hp
    | query b' _ _ _ =>
      by_cases hb : b = b'
      · subst hb; simp [setPc_self] at hp
      · simp only [setPc_ne _ _ hb] at hp; exact old _ hp
    | listed b' _ _ _ _ _ =>
      by_cases hb : b = b'
      · subst hb; simp [setPc_self] at hp
      · simp only [setPc_ne _ _ hb] at hp; exact old _ hp
    | listFailed b' _ _ num' _ _ =>
      by_cases hb : b = b'
      · subst hb; simp only [setPc_self, Option.some.injEq, Pc.beat.injEq] at hp
        obtain ⟨rfl, rfl, _⟩ := hp
        refine ⟨Ev.listFailed b num', by simp, ?_⟩; simp [Reads]
      · simp only [setPc_ne _ _ hb] at hp; exact old _ hp
    | wake b' _ num' _ _ _ =>
      by_cases hb : b = b'
      · subst hb; simp only [setPc_self, Option.some.injEq, Pc.beat.injEq] at hp
        obtain ⟨rfl, rfl, _⟩ := hp
        refine ⟨Ev.wake b num', by simp, ?_⟩; simp [Reads]
      · simp only [setPc_ne _ _ hb] at hp; exact old _ hp
    | stop b' _ _ _ =>
      by_cases hb : b = b'
      · subst hb; simp [setPc_self] at hp
      · simp only [setPc_ne _ _ hb] at hp; exact old _ hp
    | store l _ _ _ _ => exact old _ hp
    | tick _ => exact old _ hp

/-- A write starts the count anew. -/
theorem since_write {be : Backend L} {late : Nat} {es : List (Nat × Ev L)} {w w' : World L} {t : Nat} {b : BrokerId}
    {c : Nat} (hr : Run be late es w) (h : Step be late w t (.write b c) w') :
    Since be late b (es ++ [(t, .write b c)]) w' := by
  cases h with
  | write _ t0 num _ _ hp h1 h2 h3 =>
    obtain ⟨e, he, hre⟩ := read_run hr _ _ _ _ hp
    exact ⟨t0, c, num, 0, es ++ [(t, .write b c)], [], w.hist, [], .beat t0 num true,
      ⟨e, by simp [he], hre⟩, h1, h3, rfl, by simp, by simp, by rintro ⟨_, h⟩; simp at h, rfl, by simp [setPc_self],
      rfl, rfl⟩

theorem since_step {be : Backend L} (hbe : Lists be) {late : Nat} {es : List (Nat × Ev L)} {w w' : World L} {t : Nat}
    {e : Ev L} {b : BrokerId} (hr : Run be late es w) (hi : Since be late b es w) (h : Step be late w t e w')
    (hns : e ≠ .stop b) : Since be late b (es ++ [(t, e)]) w' := by
  obtain ⟨W, c, num, g, pre, mid, hpre, hmid, p, ⟨e0, he0, hre0⟩, hc, hnum, hh, hno, hes, hsu, hf, hp, hm⟩ := hi.ex
  have hdue := (step_time h).1.2 b p hp
  -- an event that leaves the loop of `b` and its entry alone
  have other : ∀ extra : List L, (∀ n d x, be.put b n d x ∉ extra) → w'.hist = w.hist ++ extra → w'.pc b = w.pc b →
      Quiet b e → Since be late b (es ++ [(t, e)]) w' := by
    intro extra h1 h2 h3 hq
    obtain ⟨q1, q2⟩ := quiet_keeps (t := t) hq mid hsu
    exact ⟨W, c, num, g, pre, mid ++ [(t, e)], hpre, hmid ++ extra, p, ⟨e0, by simp [he0], hre0⟩, hc, hnum,
      by rw [h2, hh]; simp, fun n d x hx => (List.mem_append.1 hx).elim (hno n d x) (h1 n d x), by rw [hes]; simp, q1,
      by rw [q2]; exact hf, by rw [h3]; exact hp, hm⟩
  -- an event of the loop of `b` that is not the return of a heartbeat
  have move : ∀ (p' : Pc) (extra : List L), (∀ n d x, be.put b n d x ∉ extra) → w'.hist = w.hist ++ extra →
      w'.pc b = some p' → Quiet b e →
      (match p' with
        | .beat t _ true => g = 0 ∧ t = W
        | .beat t _ false => 1 ≤ g ∧ t ≤ W + g * round late
        | .list t _ => 1 ≤ g ∧ t + round late ≤ W + g * round late + (5000 + late)
        | .sleep t => 1 ≤ g ∧ t + round late ≤ W + g * round late + 2 * (5000 + late)) →
      Since be late b (es ++ [(t, e)]) w' := by
    intro p' extra h1 h2 h3 hq hm'
    obtain ⟨q1, q2⟩ := quiet_keeps (t := t) hq mid hsu
    exact ⟨W, c, num, g, pre, mid ++ [(t, e)], hpre, hmid ++ extra, p', ⟨e0, by simp [he0], hre0⟩, hc, hnum,
      by rw [h2, hh]; simp, fun n d x hx => (List.mem_append.1 hx).elim (hno n d x) (h1 n d x), by rw [hes]; simp, q1,
      by rw [q2]; exact hf, h3, hm'⟩
  cases h with
  | start b' num' _ hn _ =>
    have hb : b ≠ b' := by rintro rfl; rw [hp] at hn; cases hn
    exact other [] (by simp) (by simp) (by simp only [setPc_ne _ _ hb]) (by intro ok h; cases h)
  | write b' t0 num' c' ht hp' h1 h2 h3 =>
    by_cases hb : b = b'
    · subst hb; exact since_write hr (.write w t b t0 num' c' ht hp' h1 h2 h3)
    · refine other [be.put b' num' 60000 c'] ?_ rfl (by simp only [setPc_ne _ _ hb]) (by intro ok h; cases h)
      intro n d x hx
      exact hb (hbe.inj _ _ _ _ _ _ _ _ (List.mem_singleton.1 hx)).1
  | beatDone b' t0 num' wr ok ht hp' hok =>
    by_cases hb : b = b'
    · subst hb
      rw [hp] at hp'; cases hp'
      simp only [Pc.due] at hdue
      cases wr with
      | true =>
        obtain ⟨rfl, rfl⟩ := hm
        refine ⟨t0, c, num, 1, es ++ [(t, .beatDone b ok)], [], hpre, hmid, .list t none, ⟨e0, by simp [he0], hre0⟩, hc,
          hnum, hh, hno, by simp, by rintro ⟨_, h⟩; simp at h, rfl, by simp [setPc_self], Nat.le_refl _, ?_⟩
        omega
      | false =>
        obtain ⟨hg, hm⟩ := hm
        have : ok = false := by cases ok with
          | false => rfl
          | true => exact absurd (hok rfl) (by simp)
        subst this
        refine ⟨W, c, num, g + 1, pre, mid ++ [(t, .beatDone b false)], hpre, hmid, .list t none, ⟨e0, by simp [he0], hre0⟩,
          hc, hnum, hh, hno, by rw [hes]; simp, ?_, ?_, by simp [setPc_self], by omega, ?_⟩
        · rintro ⟨x, hx⟩
          rcases List.mem_append.1 hx with hx | hx
          · exact hsu ⟨x, hx⟩
          · cases List.mem_singleton.1 hx
        · rw [failures_append, hf]
          have : failures b [(t, (Ev.beatDone b false : Ev L))] = 1 := by simp [failures]
          rw [this]; omega
        · rw [Nat.succ_mul]; omega
    · have hq : Quiet b (Ev.beatDone b' ok : Ev L) := by intro ok' h; cases h; exact hb rfl
      exact other [] (by simp) (by simp) (by simp only [setPc_ne _ _ hb]) hq
  | query b' t0 ht hp' =>
    by_cases hb : b = b'
    · subst hb
      rw [hp] at hp'; cases hp'
      refine move _ [be.expire t] ?_ rfl (setPc_self _ _ _) (by intro ok h; cases h) hm
      intro n d x hx; exact hbe.expNot _ _ _ _ _ (List.mem_singleton.1 hx).symm
    · refine other [be.expire t] ?_ rfl (by simp only [setPc_ne _ _ hb]) (by intro ok h; cases h)
      intro n d x hx; exact hbe.expNot _ _ _ _ _ (List.mem_singleton.1 hx).symm
  | listed b' t0 l conn ht hp' =>
    by_cases hb : b = b'
    · subst hb
      rw [hp] at hp'; cases hp'
      simp only [Pc.due] at hdue
      refine move (.sleep t) [] (by simp) (by simp) (setPc_self _ _ _) (by intro ok h; cases h) ⟨hm.1, ?_⟩
      have := hm.2; omega
    · exact other [] (by simp) (by simp) (by simp only [setPc_ne _ _ hb]) (by intro ok h; cases h)
  | listFailed b' t0 seen num' ht hp' =>
    by_cases hb : b = b'
    · subst hb
      rw [hp] at hp'; cases hp'
      simp only [Pc.due] at hdue
      refine move (.beat t num' false) [] (by simp) (by simp) (setPc_self _ _ _) (by intro ok h; cases h) ⟨hm.1, ?_⟩
      have := hm.2; simp only [round] at *; omega
    · exact other [] (by simp) (by simp) (by simp only [setPc_ne _ _ hb]) (by intro ok h; cases h)
  | wake b' t0 num' ht hp' _ =>
    by_cases hb : b = b'
    · subst hb
      rw [hp] at hp'; cases hp'
      simp only [Pc.due] at hdue
      refine move (.beat t num' false) [] (by simp) (by simp) (setPc_self _ _ _) (by intro ok h; cases h) ⟨hm.1, ?_⟩
      have := hm.2; simp only [round] at *; omega
    · exact other [] (by simp) (by simp) (by simp only [setPc_ne _ _ hb]) (by intro ok h; cases h)
  | stop b' p' ht hp' =>
    have hb : b ≠ b' := by rintro rfl; exact hns rfl
    exact other [] (by simp) (by simp) (by simp only [setPc_ne _ _ hb]) (by intro ok h; cases h)
  | store l ht hn _ _ =>
    refine other [l] ?_ rfl rfl (by intro ok h; cases h)
    intro n d x hx; exact hn _ _ _ _ (List.mem_singleton.1 hx).symm
  | tick ht => exact other [] (by simp) (by simp) rfl (by intro ok h; cases h)

theorem since_run {be : Backend L} (hbe : Lists be) {late : Nat} {es : List (Nat × Ev L)} {w : World L}
    (h : Run be late es w) : ∀ b pre t c mid, es = pre ++ (t, .write b c) :: mid → Stays b mid →
    Since be late b es w := by
  induction h with
  | nil => intro b pre t c mid h; simp at h
  | @snoc es w t e w' hr hs ih =>
    intro b pre t1 c mid heq hst
    rcases List.eq_nil_or_concat mid with rfl | ⟨mid', x, rfl⟩
    · have := List.append_inj' heq (by simp)
      obtain ⟨rfl, h2⟩ := this
      simp only [List.cons.injEq, Prod.mk.injEq, and_true] at h2
      obtain ⟨rfl, rfl⟩ := h2
      exact since_write hr hs
    · have heq' : es ++ [(t, e)] = (pre ++ (t1, .write b c) :: mid') ++ [x] := by rw [heq]; simp
      obtain ⟨h1, h2⟩ := List.append_inj' heq' (by simp)
      simp only [List.cons.injEq, and_true] at h2
      subst h2
      refine since_step hbe hr (ih b pre t1 c mid' h1 (fun x hx => hst x (by simp [hx]))) hs ?_
      rintro rfl
      exact hst t (by simp)

/-- The entry of a broker that has written and keeps running: still good, and not older than so. -/
theorem fresh_run {be : Backend L} (hbe : Lists be) {late k : Nat} {es : List (Nat × Ev L)} {w : World L}
    (h : Run be late es w) {b : BrokerId} {pre mid : List (Nat × Ev L)} {t c : Nat}
    (hes : es = pre ++ (t, .write b c) :: mid) (hst : Stays b mid) (hk : InARow k b es) :
    ∃ num W c', Last be w.hist b num (c' + 60000) ∧ W ≤ c' ∧ (∃ e, (W, e) ∈ es ∧ Reads b num e) ∧
      w.time ≤ W + (k + 1) * (20000 + 3 * late) + (5000 + late) := by
  obtain ⟨W, c', num, g, pre', mid', hpre, hmid, p, hre, hc, hnum, hh, hno, he, hsu, hf, hp, hm⟩ :=
    (since_run hbe h b pre t c mid hes hst).ex
  have hg : g ≤ k + 1 := by
    have := hk pre' mid' [] (by rw [he]; simp) hsu
    omega
  have hg' : g * round late ≤ (k + 1) * round late := Nat.mul_le_mul_right _ hg
  have hdue := (sane_run hbe h).due b p hp
  refine ⟨num, W, c', ⟨hpre, hmid, 60000, c', hh, hnum, rfl, hno⟩, hc, hre, ?_⟩
  change _ ≤ W + (k + 1) * round late + (5000 + late)
  cases p with
  | beat t0 n wr =>
    simp only [Pc.due] at hdue
    cases wr with
    | true => obtain ⟨_, rfl⟩ := hm; omega
    | false => have := hm.2; omega
  | list t0 s =>
    simp only [Pc.due] at hdue
    have := hm.2; simp only [round] at *; omega
  | sleep t0 =>
    simp only [Pc.due] at hdue
    have := hm.2; simp only [round] at *; omega

theorem listed_run {be : Backend L} (hbe : Lists be) {late k : Nat} {es : List (Nat × Ev L)} {w : World L}
    (h : Run be late es w) {b : BrokerId} {pre mid : List (Nat × Ev L)} {t c : Nat}
    (hes : es = pre ++ (t, .write b c) :: mid) (hst : Stays b mid) (hk : InARow k b es)
    (hlate : (k + 1) * (20000 + 3 * late) + (5000 + late) ≤ 60000) (self : BrokerId) (hself : Good self) (hne : b ≠ self) :
    ∃ r, be.others w.hist self w.time = some r ∧ b ∈ r := by
  obtain ⟨num, W, c', hl, hW, _, ht⟩ := fresh_run hbe h hes hst hk
  have hs := sane_run hbe h
  obtain ⟨r, h1, h2⟩ := hbe.lists w.hist w.time hs.ok hs.before self hself
  exact ⟨r, h1, h2 b num _ hne hl (by omega)⟩

/-- **C78**, Embedded store. From its first heartbeat on a running broker is listed to everybody else at all times, if
at most `k` of its heartbeats in a row fail, where `late`, how late the runtime may be, satisfies the inequality:
with `k = 0`, 8.75 s; with `k = 1`, 2.1 s. The load on record was read at most that long ago. -/
theorem C78_embedded (global : Bool) {late k : Nat} {es : List (Nat × Ev ELabel)} {w : World ELabel}
    (h : Run (embedded global) late es w) {b : BrokerId} {pre mid : List (Nat × Ev ELabel)} {t c : Nat}
    (hes : es = pre ++ (t, .write b c) :: mid) (hst : Stays b mid) (hk : InARow k b es)
    (hlate : (k + 1) * (20000 + 3 * late) + (5000 + late) ≤ 60000) :
    (∀ self, Good self → b ≠ self → ∃ r, ((Emb.new.run global w.hist).1.others self w.time).2 = some r ∧ b ∈ r) ∧
    ∃ num x t' e, (Emb.new.run global w.hist).1.brokers.get b.display = some (num, x) ∧ (t', e) ∈ es ∧ Reads b num e ∧
      w.time ≤ t' + ((k + 1) * (20000 + 3 * late) + (5000 + late)) := by
  refine ⟨fun self hs hne => listed_run (embedded_lists global) h hes hst hk hlate self hs hne, ?_⟩
  obtain ⟨num, W, c', ⟨hpre, hmid, dur, t1, e1, e2, e3, e4⟩, hW, ⟨e, he, hr⟩, ht⟩ :=
    fresh_run (embedded_lists global) h hes hst hk
  have hs := sane_run (embedded_lists global) h
  refine ⟨num, c' + 60000, W, e, ?_, he, hr, by omega⟩
  exact Props.Discovery.C40_embedded_load global w.hist hs.ok w.time hs.before b num _
    ⟨hpre, hmid, dur, t1, e1, e2, e3, fun n d x _ => e4 n d x⟩ (by omega)

/-- **C78**, Redis: the same. -/
theorem C78_redis (global : Bool) {late k : Nat} {es : List (Nat × Ev RLabel)} {w : World RLabel}
    (h : Run (redis global) late es w) {b : BrokerId} {pre mid : List (Nat × Ev RLabel)} {t c : Nat}
    (hes : es = pre ++ (t, .write b c) :: mid) (hst : Stays b mid) (hk : InARow k b es)
    (hlate : (k + 1) * (20000 + 3 * late) + (5000 + late) ≤ 60000) :
    (∀ self, Good self → b ≠ self → ∃ r, (Redis.new.run global w.hist).1.others self w.time = some r ∧ b ∈ r) ∧
    ∃ num t' e, (Redis.new.run global w.hist).1.getNum (Redis.numKey b.display) = some num ∧ (t', e) ∈ es ∧
      Reads b num e ∧ w.time ≤ t' + ((k + 1) * (20000 + 3 * late) + (5000 + late)) := by
  refine ⟨fun self hs hne => listed_run (redis_lists global) h hes hst hk hlate self hs hne, ?_⟩
  obtain ⟨num, W, c', ⟨hpre, hmid, dur, t1, e1, e2, e3, e4⟩, hW, ⟨e, he, hr⟩, ht⟩ :=
    fresh_run (redis_lists global) h hes hst hk
  have hs := sane_run (redis_lists global) h
  refine ⟨num, W, e, ?_, he, hr, by omega⟩
  exact Props.Discovery.C40_redis_load global w.hist hs.ok w.time hs.before b num _
    ⟨hpre, hmid, dur, t1, e1, e3, e4⟩ (by omega)

/-! ### After it stops -/

theorem puts_run {be : Backend L} (hbe : Lists be) {late : Nat} {es : List (Nat × Ev L)} {w : World L}
    (h : Run be late es w) : ∀ b num dur c, be.put b num dur c ∈ w.hist → dur = 60000 ∧ c ≤ w.time := by
  induction h with
  | nil => intro b num dur c h; simp [World.init] at h
  | @snoc es w t e w' hr hs ih =>
    have ht := (step_time hs).1.1
    intro b num dur c hm
    have old : be.put b num dur c ∈ w.hist → dur = 60000 ∧ c ≤ t := fun h =>
      ⟨(ih b num dur c h).1, Nat.le_trans (ih b num dur c h).2 ht⟩
    cases hs with
    | write b' t0 num' c' _ _ _ hc _ =>
      rcases List.mem_append.1 hm with hm | hm
      · exact old hm
      · obtain ⟨_, _, rfl, rfl⟩ := hbe.inj _ _ _ _ _ _ _ _ (List.mem_singleton.1 hm)
        exact ⟨rfl, hc⟩
    | query b' t0 _ _ =>
      rcases List.mem_append.1 hm with hm | hm
      · exact old hm
      · exact absurd (List.mem_singleton.1 hm).symm (hbe.expNot _ _ _ _ _)
    | store l _ hn _ _ =>
      rcases List.mem_append.1 hm with hm | hm
      · exact old hm
      · exact absurd (List.mem_singleton.1 hm).symm (hn _ _ _ _)
    | _ => exact old hm

/-- A broker that is not running does not write. -/
theorem stopped_run {be : Backend L} (hbe : Lists be) {late : Nat} {es : List (Nat × Ev L)} {w : World L}
    (h : Run be late es w) : ∀ b pre t mid, es = pre ++ (t, .stop b) :: mid → (∀ x num, (x, .start b num) ∉ mid) →
    w.pc b = none ∧ ∀ num dur c, be.put b num dur c ∈ w.hist → dur = 60000 ∧ c ≤ t := by
  induction h with
  | nil => intro b pre t mid h; simp at h
  | @snoc es w t e w' hr hs ih =>
    intro b pre t1 mid heq hst
    rcases List.eq_nil_or_concat mid with rfl | ⟨mid', x, rfl⟩
    · obtain ⟨rfl, h2⟩ := List.append_inj' heq (by simp)
      simp only [List.cons.injEq, Prod.mk.injEq, and_true] at h2
      obtain ⟨rfl, rfl⟩ := h2
      have hp := puts_run hbe (.snoc hr hs)
      rw [(step_time hs).2] at hp
      cases hs with
      | stop _ p _ _ => exact ⟨setPc_self _ _ _, fun num dur c => hp b num dur c⟩
    · have heq' : es ++ [(t, e)] = (pre ++ (t1, .stop b) :: mid') ++ [x] := by rw [heq]; simp
      obtain ⟨h1, h2⟩ := List.append_inj' heq' (by simp)
      simp only [List.cons.injEq, and_true] at h2
      subst h2
      obtain ⟨g1, g2⟩ := ih b pre t1 mid' h1 (fun x n hx => hst x n (by simp [hx]))
      have go : ∀ b' p, w.pc b' = some p → b ≠ b' := by rintro b' p hp rfl; rw [g1] at hp; cases hp
      cases hs with
      | start b' num _ _ _ =>
        have hb : b ≠ b' := by rintro rfl; exact hst t num (by simp)
        exact ⟨by simp only [setPc_ne _ _ hb]; exact g1, g2⟩
      | write b' t0 num' c' _ hp _ _ _ =>
        refine ⟨by simp only [setPc_ne _ _ (go _ _ hp)]; exact g1, fun num dur c hm => ?_⟩
        rcases List.mem_append.1 hm with hm | hm
        · exact g2 _ _ _ hm
        · exact absurd (hbe.inj _ _ _ _ _ _ _ _ (List.mem_singleton.1 hm)).1 (go _ _ hp)
      | beatDone b' _ _ _ _ _ hp _ => exact ⟨by simp only [setPc_ne _ _ (go _ _ hp)]; exact g1, g2⟩
      | query b' t0 _ hp =>
        refine ⟨by simp only [setPc_ne _ _ (go _ _ hp)]; exact g1, fun num dur c hm => ?_⟩
        rcases List.mem_append.1 hm with hm | hm
        · exact g2 _ _ _ hm
        · exact absurd (List.mem_singleton.1 hm).symm (hbe.expNot _ _ _ _ _)
      | listed b' _ _ _ _ hp => exact ⟨by simp only [setPc_ne _ _ (go _ _ hp)]; exact g1, g2⟩
      | listFailed b' _ _ _ _ hp => exact ⟨by simp only [setPc_ne _ _ (go _ _ hp)]; exact g1, g2⟩
      | wake b' _ _ _ hp _ => exact ⟨by simp only [setPc_ne _ _ (go _ _ hp)]; exact g1, g2⟩
      | stop b' _ _ hp => exact ⟨by simp only [setPc_ne _ _ (go _ _ hp)]; exact g1, g2⟩
      | store l _ hn _ _ =>
        refine ⟨g1, fun num dur c hm => ?_⟩
        rcases List.mem_append.1 hm with hm | hm
        · exact g2 _ _ _ hm
        · exact absurd (List.mem_singleton.1 hm).symm (hn _ _ _ _)
      | tick _ => exact ⟨g1, g2⟩

theorem gone_run {be : Backend L} (hbe : Lists be) {late : Nat} {es : List (Nat × Ev L)} {w : World L}
    (h : Run be late es w) {b : BrokerId} {pre mid : List (Nat × Ev L)} {t : Nat}
    (hes : es = pre ++ (t, .stop b) :: mid) (hst : ∀ x num, (x, .start b num) ∉ mid) (ht : t + 60000 < w.time)
    (self : BrokerId) (hself : Good self) (r : List BrokerId) (hr : be.others w.hist self w.time = some r) : b ∉ r := by
  intro hb
  have hs := sane_run hbe h
  obtain ⟨hpre, hmid, num, dur, c, e1, e2⟩ := hbe.only w.hist w.time hs.ok hs.before self r hself hr b hb
  have := (stopped_run hbe h b pre t mid hes hst).2 num dur c (by rw [e1]; simp)
  omega

/-- **C78.** A broker that has stopped, and not been started again, is not listed any more after 60 seconds. -/
theorem C78_embedded_gone (global : Bool) {late : Nat} {es : List (Nat × Ev ELabel)} {w : World ELabel}
    (h : Run (embedded global) late es w) {b : BrokerId} {pre mid : List (Nat × Ev ELabel)} {t : Nat}
    (hes : es = pre ++ (t, .stop b) :: mid) (hst : ∀ x num, (x, .start b num) ∉ mid) (ht : t + 60000 < w.time)
    (self : BrokerId) (hself : Good self) (r : List BrokerId)
    (hr : ((Emb.new.run global w.hist).1.others self w.time).2 = some r) : b ∉ r :=
  gone_run (embedded_lists global) h hes hst ht self hself r hr

theorem C78_redis_gone (global : Bool) {late : Nat} {es : List (Nat × Ev RLabel)} {w : World RLabel}
    (h : Run (redis global) late es w) {b : BrokerId} {pre mid : List (Nat × Ev RLabel)} {t : Nat}
    (hes : es = pre ++ (t, .stop b) :: mid) (hst : ∀ x num, (x, .start b num) ∉ mid) (ht : t + 60000 < w.time)
    (self : BrokerId) (hself : Good self) (r : List BrokerId)
    (hr : (Redis.new.run global w.hist).1.others self w.time = some r) : b ∉ r :=
  gone_run (redis_lists global) h hes hst ht self hself r hr

/-! ### Examples, and that two failures in a row are too many -/

/-- The world with one broker. -/
def one (b : BrokerId) (t : Nat) (p : Pc) (hist : List L) : World L := ⟨t, setPc (fun _ => none) b (some p), hist⟩

theorem setPc_twice (f : BrokerId → Option Pc) (b p q) : setPc (setPc f b p) b q = setPc f b q := by
  funext x; simp only [setPc]; split <;> rfl

theorem one_timely {late : Nat} {b : BrokerId} {t t' : Nat} {p : Pc} {hist : List L} (h1 : t ≤ t') (h2 : t' ≤ p.due late) :
    Timely late (one b t p hist) t' := by
  refine ⟨h1, fun x q hx => ?_⟩
  by_cases e : x = b
  · subst e; simp only [one, setPc_self, Option.some.injEq] at hx; subst hx; exact h2
  · simp [one, setPc_ne _ _ e] at hx

theorem one_pc {b : BrokerId} {t : Nat} {p : Pc} {hist : List L} : (one b t p hist).pc b = some p := by
  simp [one, setPc]

section
variable {be : Backend L} {late : Nat} {es : List (Nat × Ev L)} {b : BrokerId} {t : Nat} {hist : List L}

theorem one_start (b : BrokerId) (num : Nat) (hb : Good b) :
    Run be late [(0, .start b num)] (one b 0 (.beat 0 num false) []) :=
  .snoc .nil (.start _ 0 b num ⟨Nat.le_refl _, by simp [World.init]⟩ rfl hb)

theorem one_write {t0 num : Nat} (h : Run be late es (one b t (.beat t0 num false) hist)) (t' : Nat) (h1 : t ≤ t')
    (h2 : t' ≤ t0 + 5000 + late) (h3 : t0 ≤ t') (h4 : num < 2 ^ 32) :
    Run be late (es ++ [(t', .write b t')]) (one b t' (.beat t0 num true) (hist ++ [be.put b num 60000 t'])) := by
  have := Run.snoc h (.write _ t' b t0 num t' (one_timely h1 h2) one_pc h3 (Nat.le_refl _) h4)
  simpa only [one, setPc_twice] using this

theorem one_done {t0 num : Nat} {wr : Bool} (h : Run be late es (one b t (.beat t0 num wr) hist)) (t' : Nat) (h1 : t ≤ t')
    (h2 : t' ≤ t0 + 5000 + late) : Run be late (es ++ [(t', .beatDone b wr)]) (one b t' (.list t' none) hist) := by
  have := Run.snoc h (.beatDone _ t' b t0 num wr wr (one_timely h1 h2) one_pc id)
  simpa only [one, setPc_twice] using this

theorem one_listed {t0 : Nat} (h : Run be late es (one b t (.list t0 none) hist)) (t' : Nat) (h1 : t ≤ t')
    (h2 : t' ≤ t0 + 5000 + late) (l : List BrokerId) (hl : be.others hist b t' = some l) :
    Run be late (es ++ [(t', .query b), (t', .listed b [] (BrokerId.toDial b l []))])
      (one b t' (.sleep t') (hist ++ [be.expire t'])) := by
  have r1 : Run be late (es ++ [(t', .query b)])
      (one b t' (.list t0 (some (some l))) (hist ++ [be.expire t'])) := by
    have := Run.snoc h (.query _ t' b t0 (one_timely h1 h2) one_pc)
    simp only [one, setPc_twice] at this
    rw [hl] at this
    exact this
  have r2 := Run.snoc r1 (.listed _ t' b t0 l [] (one_timely (Nat.le_refl _) h2) one_pc)
  simpa only [one, setPc_twice, List.append_assoc, List.cons_append, List.nil_append] using r2

theorem one_wake {t0 : Nat} (h : Run be late es (one b t (.sleep t0) hist)) (num : Nat) (t' : Nat) (h1 : t ≤ t')
    (h2 : t' ≤ t0 + 10000 + late) (h3 : t0 + 10000 ≤ t') :
    Run be late (es ++ [(t', .wake b num)]) (one b t' (.beat t' num false) hist) := by
  have := Run.snoc h (.wake _ t' b t0 num (one_timely h1 h2) one_pc h3)
  simpa only [one, setPc_twice] using this

theorem one_tick {p : Pc} (h : Run be late es (one b t p hist)) (t' : Nat) (h1 : t ≤ t') (h2 : t' ≤ p.due late) :
    Run be late (es ++ [(t', .tick)]) (one b t' p hist) := .snoc h (.tick _ t' (one_timely h1 h2))

end

def hA : BrokerId := ⟨"a:1".toList, "a:2".toList⟩
def hB : BrokerId := ⟨"b:1".toList, "b:2".toList⟩

theorem good_hA : Good hA := by constructor <;> (intro h; revert h; decide)
theorem good_hB : Good hB := by constructor <;> (intro h; revert h; decide)

/-- One good heartbeat, then two that time out. -/
def twoFail : List (Nat × Ev RLabel) :=
  [(0, .start hA 3), (0, .write hA 0), (5000, .beatDone hA true), (10000, .query hA), (10000, .listed hA [] []),
   (20000, .wake hA 4), (25000, .beatDone hA false), (30000, .query hA), (30000, .listed hA [] []),
   (40000, .wake hA 4), (45000, .beatDone hA false), (50000, .query hA), (50000, .listed hA [] []),
   (60000, .wake hA 5), (60001, .tick)]

theorem twoFail_run : Run (redis false) 0 twoFail
    (one hA 60001 (.beat 60000 5 false) [.heartbeat hA 3 60000 0, .expire 10000, .expire 30000, .expire 50000]) := by
  have r := one_start (be := redis false) (late := 0) hA 3 good_hA
  have r := one_write r 0 (by decide) (by decide) (by decide) (by decide)
  have r := one_done r 5000 (by decide) (by decide)
  have r := one_listed r 10000 (by decide) (by decide) [] (by decide +kernel)
  have r := one_wake r 4 20000 (by decide) (by decide) (by decide)
  have r := one_done r 25000 (by decide) (by decide)
  have r := one_listed r 30000 (by decide) (by decide) [] (by decide +kernel)
  have r := one_wake r 4 40000 (by decide) (by decide) (by decide)
  have r := one_done r 45000 (by decide) (by decide)
  have r := one_listed r 50000 (by decide) (by decide) [] (by decide +kernel)
  have r := one_wake r 5 60000 (by decide) (by decide) (by decide)
  exact one_tick r 60001 (by decide) (by decide)

/-- **C78 is sharp**: after two failures in a row a broker that is running all the time is not listed, even if the
runtime is never late. -/
theorem C78_two_failures : ∃ (es : List (Nat × Ev RLabel)) (w : World RLabel) (b self : BrokerId) (mid : _) (t c : Nat),
    Run (redis false) 0 es w ∧ es = [(0, .start b 3)] ++ (t, .write b c) :: mid ∧ Stays b mid ∧ failures b es = 2 ∧
    b ≠ self ∧ (Redis.new.run false w.hist).1.others self w.time = some [] := by
  refine ⟨twoFail, _, hA, hB, twoFail.drop 2, 0, 0, twoFail_run, rfl, ?_, by decide +kernel, by decide, by decide +kernel⟩
  intro t h
  simp [twoFail] at h

/-- A run meeting the hypotheses of C78 with one failure: at 45 s the broker is listed, with the load of the start. -/
example : ∃ w : World RLabel, Run (redis false) 0 (twoFail.take 11) w ∧ Stays hA ((twoFail.take 11).drop 2) ∧
    w.time = 45000 ∧ (Redis.new.run false w.hist).1.others hB w.time = some [hA] ∧
    (Redis.new.run false w.hist).1.getNum (Redis.numKey hA.display) = some 3 := by
  have r := one_start (be := redis false) (late := 0) hA 3 good_hA
  have r := one_write r 0 (by decide) (by decide) (by decide) (by decide)
  have r := one_done r 5000 (by decide) (by decide)
  have r := one_listed r 10000 (by decide) (by decide) [] (by decide +kernel)
  have r := one_wake r 4 20000 (by decide) (by decide) (by decide)
  have r := one_done r 25000 (by decide) (by decide)
  have r := one_listed r 30000 (by decide) (by decide) [] (by decide +kernel)
  have r := one_wake r 4 40000 (by decide) (by decide) (by decide)
  have r := one_done r 45000 (by decide) (by decide)
  refine ⟨_, r, ?_, rfl, by decide +kernel, by decide +kernel⟩
  intro t h
  simp [twoFail] at h

/-- In it at most one heartbeat in a row fails until 40 s. -/
example : InARow 1 hA (twoFail.take 10) := by
  intro pre mid post h hs
  have h1 : failures hA (pre ++ mid ++ post) = 1 := by rw [← h]; decide +kernel
  rw [failures_append, failures_append] at h1
  omega

/-! ## C79 -/

/-- What can happen from `w0` on. -/
inductive From (be : Backend L) (late : Nat) (w0 : World L) : List (Nat × Ev L) → World L → Prop
  | nil : From be late w0 [] w0
  | snoc {es w t e w'} : From be late w0 es w → Step be late w t e w' → From be late w0 (es ++ [(t, e)]) w'

theorem run_from {be : Backend L} {late : Nat} {pre mid : List (Nat × Ev L)} {w0 w : World L} (h : Run be late pre w0)
    (h' : From be late w0 mid w) : Run be late (pre ++ mid) w := by
  induction h' with
  | nil => simpa using h
  | snoc _ hs ih => rw [← List.append_assoc]; exact .snoc ih hs

/-- A listing that shows `b'` came back to `b` among these events. -/
def SeenBy (b b' : BrokerId) (es : List (Nat × Ev L)) : Prop :=
  ∃ t conn dialled l, (t, Ev.listed b conn dialled) ∈ es ∧ b' ∈ l ∧ dialled = BrokerId.toDial b l conn

/-- Where the loop of `b` is in a period that began at `T`, unless it has completed a listing whose query fell into that
period. -/
def OnTheWay (late T : Nat) (b' : BrokerId) : Pc → Prop
  | .list t (some s) => t ≤ T ∨ (t ≤ T + 20000 + 3 * late ∧ ∃ l, s = some l ∧ b' ∈ l)
  | .sleep t => t ≤ T + 5000 + late
  | .beat t _ _ => t ≤ T + 15000 + 2 * late
  | .list t none => t ≤ T + 20000 + 3 * late

theorem inARow_quiet {k : Nat} {b : BrokerId} {es : List (Nat × Ev L)} {t : Nat} {e : Ev L} (h : InARow k b es)
    (hq : Quiet b e) : InARow k b (es ++ [(t, e)]) := by
  intro pre mid post he hs
  rcases List.eq_nil_or_concat post with rfl | ⟨post', x, rfl⟩
  · rcases List.eq_nil_or_concat mid with rfl | ⟨mid', x, rfl⟩
    · simp [failures]
    · have he' : es ++ [(t, e)] = (pre ++ mid') ++ [x] := by rw [he]; simp
      obtain ⟨h1, h2⟩ := List.append_inj' he' (by simp)
      simp only [List.cons.injEq, and_true] at h2
      subst h2
      have hs' : ¬ Success b mid' := fun ⟨y, hy⟩ => hs ⟨y, by simp [hy]⟩
      rw [List.concat_eq_append, (quiet_keeps hq mid' hs').2]
      exact h pre mid' [] (by simpa using h1) hs'
  · have he' : es ++ [(t, e)] = (pre ++ mid ++ post') ++ [x] := by rw [he]; simp
    exact h pre mid post' (List.append_inj' he' (by simp)).1 hs

theorem dial_run {be : Backend L} (hbe : Lists be) {late k : Nat} {pre mid : List (Nat × Ev L)} {w0 w : World L}
    (hr0 : Run be late pre w0) (h : From be late w0 mid w) {b b' : BrokerId} (hne : b' ≠ b)
    (hlate : (k + 1) * (20000 + 3 * late) + (5000 + late) ≤ 60000) (hb0 : w0.pc b ≠ none)
    (hwr : ∃ p t c m, pre = p ++ (t, .write b' c) :: m ∧ Stays b' m) :
    Stays b' mid → InARow k b' (pre ++ mid) → Stays b mid → (∀ t n, (t, .listFailed b n) ∉ mid) →
      SeenBy b b' mid ∨ ∃ p, w.pc b = some p ∧ OnTheWay late w0.time b' p := by
  induction h with
  | nil =>
    intro _ _ _ _
    obtain ⟨p, hp⟩ := Option.ne_none_iff_exists'.1 hb0
    have := (sane_run hbe hr0).since b p hp
    refine Or.inr ⟨p, hp, ?_⟩
    cases p with
    | beat t n wr => simp only [since, OnTheWay] at *; omega
    | list t s => cases s with
      | none => simp only [since, OnTheWay] at *; omega
      | some s => exact Or.inl this
    | sleep t => simp only [since, OnTheWay] at *; omega
  | @snoc mid w t e w' hf hs ih =>
    intro hst' hk hst hnf
    have hrun := run_from hr0 hf
    have hk' : InARow k b' (pre ++ mid) := fun x y z he hn => hk x y (z ++ [(t, e)]) (by rw [← List.append_assoc, he]; simp) hn
    rcases ih (fun x hx => hst' x (by simp [hx])) hk' (fun x hx => hst x (by simp [hx]))
      (fun x n hx => hnf x n (by simp [hx])) with ⟨t1, conn, d, l, h1, h2, h3⟩ | ⟨p, hp, hm⟩
    · exact Or.inl ⟨t1, conn, d, l, by simp [h1], h2, h3⟩
    have hdue := (step_time hs).1.2 b p hp
    have ht := (step_time hs).1.1
    have hgood := (sane_run hbe hrun).good b p hp
    cases hs with
    | start b1 num _ hn _ =>
      have hb : b ≠ b1 := by rintro rfl; rw [hp] at hn; cases hn
      exact Or.inr ⟨p, by simp only [setPc_ne _ _ hb]; exact hp, hm⟩
    | write b1 t0 num c _ hp' _ _ _ =>
      by_cases hb : b = b1
      · subst hb; rw [hp] at hp'; cases hp'
        exact Or.inr ⟨_, setPc_self _ _ _, hm⟩
      · exact Or.inr ⟨p, by simp only [setPc_ne _ _ hb]; exact hp, hm⟩
    | beatDone b1 t0 num wr ok _ hp' _ =>
      by_cases hb : b = b1
      · subst hb; rw [hp] at hp'; cases hp'
        refine Or.inr ⟨_, setPc_self _ _ _, ?_⟩
        simp only [OnTheWay, Pc.due] at *; omega
      · exact Or.inr ⟨p, by simp only [setPc_ne _ _ hb]; exact hp, hm⟩
    | query b1 t0 ht' hp' =>
      by_cases hb : b = b1
      · subst hb; rw [hp] at hp'; cases hp'
        refine Or.inr ⟨_, setPc_self _ _ _, Or.inr ⟨hm, ?_⟩⟩
        -- what the store shows at this moment
        obtain ⟨pp, t1, c, m, hpre, hsm⟩ := hwr
        have hrt : Run be late (pre ++ mid ++ [(t, .tick)]) ⟨t, w.pc, w.hist⟩ := .snoc hrun (.tick w t ht')
        refine listed_run hbe (b := b') (pre := pp) (mid := m ++ mid ++ [(t, .tick)]) (t := t1) (c := c) (k := k) hrt
          (by rw [hpre]; simp) ?_ (inARow_quiet hk' (by intro ok h; cases h)) hlate b hgood hne
        · intro x hx
          simp only [List.mem_append, List.mem_singleton, Prod.mk.injEq, reduceCtorEq, and_false, or_false] at hx
          rcases hx with hx | hx
          · exact hsm x hx
          · exact hst' x (by simp [hx])
      · exact Or.inr ⟨p, by simp only [setPc_ne _ _ hb]; exact hp, hm⟩
    | listed b1 t0 l conn _ hp' =>
      by_cases hb : b = b1
      · subst hb; rw [hp] at hp'; cases hp'
        rcases hm with hm | ⟨hm, l', hl, hbl⟩
        · refine Or.inr ⟨_, setPc_self _ _ _, ?_⟩
          simp only [OnTheWay, Pc.due] at *; omega
        · cases hl
          exact Or.inl ⟨t, conn, _, l, by simp, hbl, rfl⟩
      · exact Or.inr ⟨p, by simp only [setPc_ne _ _ hb]; exact hp, hm⟩
    | listFailed b1 t0 seen num _ hp' =>
      have hb : b ≠ b1 := by rintro rfl; exact hnf t num (by simp)
      exact Or.inr ⟨p, by simp only [setPc_ne _ _ hb]; exact hp, hm⟩
    | wake b1 t0 num _ hp' _ =>
      by_cases hb : b = b1
      · subst hb; rw [hp] at hp'; cases hp'
        refine Or.inr ⟨_, setPc_self _ _ _, ?_⟩
        simp only [OnTheWay, Pc.due] at *; omega
      · exact Or.inr ⟨p, by simp only [setPc_ne _ _ hb]; exact hp, hm⟩
    | stop b1 p' _ hp' =>
      have hb : b ≠ b1 := by rintro rfl; exact hst t (by simp)
      exact Or.inr ⟨p, by simp only [setPc_ne _ _ hb]; exact hp, hm⟩
    | store l _ _ _ _ => exact Or.inr ⟨p, hp, hm⟩
    | tick _ => exact Or.inr ⟨p, hp, hm⟩

theorem dials_in_time {be : Backend L} (hbe : Lists be) {late k : Nat} {pre mid : List (Nat × Ev L)} {w0 w : World L}
    (hr0 : Run be late pre w0) (h : From be late w0 mid w) {b b' : BrokerId} (hlt : b < b')
    (hlate : (k + 1) * (20000 + 3 * late) + (5000 + late) ≤ 60000) (hb0 : w0.pc b ≠ none)
    (hwr : ∃ p t c m, pre = p ++ (t, .write b' c) :: m ∧ Stays b' m)
    (hst' : Stays b' mid) (hk : InARow k b' (pre ++ mid)) (hst : Stays b mid) (hnf : ∀ t n, (t, .listFailed b n) ∉ mid)
    (htime : w0.time + 25000 + 4 * late < w.time) :
    ∃ t conn dialled, (t, .listed b conn dialled) ∈ mid ∧ (b' ∈ conn ∨ b' ∈ dialled) := by
  have hne : b' ≠ b := by rintro rfl; exact lt_asymm hlt hlt
  rcases dial_run hbe hr0 h hne hlate hb0 hwr hst' hk hst hnf with ⟨t, conn, d, l, h1, h2, rfl⟩ | ⟨p, hp, hm⟩
  · refine ⟨t, conn, _, h1, ?_⟩
    by_cases hc : b' ∈ conn
    · exact Or.inl hc
    · right
      simp only [BrokerId.toDial, List.mem_filter, List.contains_eq_mem, Bool.not_eq_true', decide_eq_false_iff_not]
      exact ⟨⟨h2, hc⟩, lt_asymm hlt⟩
  · have hdue := (sane_run hbe (run_from hr0 h)).due b p hp
    exfalso
    cases p with
    | beat t n wr => simp only [OnTheWay, Pc.due] at *; omega
    | list t s => cases s with
      | none => simp only [OnTheWay, Pc.due] at *; omega
      | some s =>
        simp only [Pc.due] at hdue
        rcases hm with hm | ⟨hm, _⟩ <;> omega
    | sleep t => simp only [OnTheWay, Pc.due] at *; omega

/-- **C79**, Embedded. A running broker finds out about, and dials, every running broker with a greater identity that has
performed a heartbeat, within 25 seconds (and four times what the runtime is late), unless it is connected to it;
as long as the store answers its listings. -/
theorem C79_embedded (global : Bool) {late k : Nat} {pre mid : List (Nat × Ev ELabel)} {w0 w : World ELabel}
    (hr0 : Run (embedded global) late pre w0) (h : From (embedded global) late w0 mid w) {b b' : BrokerId} (hlt : b < b')
    (hlate : (k + 1) * (20000 + 3 * late) + (5000 + late) ≤ 60000) (hb0 : w0.pc b ≠ none)
    (hwr : ∃ p t c m, pre = p ++ (t, .write b' c) :: m ∧ Stays b' m)
    (hst' : Stays b' mid) (hk : InARow k b' (pre ++ mid)) (hst : Stays b mid) (hnf : ∀ t n, (t, .listFailed b n) ∉ mid)
    (htime : w0.time + 25000 + 4 * late < w.time) :
    ∃ t conn dialled, (t, .listed b conn dialled) ∈ mid ∧ (b' ∈ conn ∨ b' ∈ dialled) :=
  dials_in_time (embedded_lists global) hr0 h hlt hlate hb0 hwr hst' hk hst hnf htime

/-- **C79**, Redis. -/
theorem C79_redis (global : Bool) {late k : Nat} {pre mid : List (Nat × Ev RLabel)} {w0 w : World RLabel}
    (hr0 : Run (redis global) late pre w0) (h : From (redis global) late w0 mid w) {b b' : BrokerId} (hlt : b < b')
    (hlate : (k + 1) * (20000 + 3 * late) + (5000 + late) ≤ 60000) (hb0 : w0.pc b ≠ none)
    (hwr : ∃ p t c m, pre = p ++ (t, .write b' c) :: m ∧ Stays b' m)
    (hst' : Stays b' mid) (hk : InARow k b' (pre ++ mid)) (hst : Stays b mid) (hnf : ∀ t n, (t, .listFailed b n) ∉ mid)
    (htime : w0.time + 25000 + 4 * late < w.time) :
    ∃ t conn dialled, (t, .listed b conn dialled) ∈ mid ∧ (b' ∈ conn ∨ b' ∈ dialled) :=
  dials_in_time (redis_lists global) hr0 h hlt hlate hb0 hwr hst' hk hst hnf htime

/-! ### Example -/

/-- Runs an event, if it can happen; `bs` are the brokers there are. -/
def exec (be : Backend L) (late : Nat) (bs : List BrokerId) (w : World L) (t : Nat) (e : Ev L) : Option (World L) :=
  if w.time ≤ t ∧ (bs.all fun b => match w.pc b with | some p => decide (t ≤ p.due late) | none => true) = true then
    match e with
    | .start b num => if b ∈ bs ∧ w.pc b = none ∧ '/' ∉ b.pub ∧ '/' ∉ b.priv then
        some ⟨t, setPc w.pc b (some (.beat t num false)), w.hist⟩ else none
    | .write b c => match w.pc b with
      | some (.beat t0 num false) => if t0 ≤ c ∧ c ≤ t ∧ num < 2 ^ 32 then
          some ⟨t, setPc w.pc b (some (.beat t0 num true)), w.hist ++ [be.put b num 60000 c]⟩ else none
      | _ => none
    | .beatDone b ok => match w.pc b with
      | some (.beat _ _ wrote) => if ok = true → wrote = true then
          some ⟨t, setPc w.pc b (some (.list t none)), w.hist⟩ else none
      | _ => none
    | .query b => match w.pc b with
      | some (.list t0 none) =>
          some ⟨t, setPc w.pc b (some (.list t0 (some (be.others w.hist b t)))), w.hist ++ [be.expire t]⟩
      | _ => none
    | .listed b conn d => match w.pc b with
      | some (.list _ (some (some l))) => if d = BrokerId.toDial b l conn then
          some ⟨t, setPc w.pc b (some (.sleep t)), w.hist⟩ else none
      | _ => none
    | .listFailed b num => match w.pc b with
      | some (.list _ _) => some ⟨t, setPc w.pc b (some (.beat t num false)), w.hist⟩
      | _ => none
    | .wake b num => match w.pc b with
      | some (.sleep t0) => if t0 + 10000 ≤ t then some ⟨t, setPc w.pc b (some (.beat t num false)), w.hist⟩ else none
      | _ => none
    | .stop b => match w.pc b with
      | some _ => some ⟨t, setPc w.pc b none, w.hist⟩
      | none => none
    | .store _ => none
    | .tick => some ⟨t, w.pc, w.hist⟩
  else none

theorem exec_step {be : Backend L} {late : Nat} {bs : List BrokerId} {w w' : World L} {t : Nat} {e : Ev L}
    (hbs : ∀ b, b ∉ bs → w.pc b = none) (h : exec be late bs w t e = some w') :
    Step be late w t e w' ∧ ∀ b, b ∉ bs → w'.pc b = none := by
  unfold exec at h
  split at h
  case isFalse => cases h
  rename_i hc
  have ht : Timely late w t := by
    refine ⟨hc.1, fun b p hp => ?_⟩
    by_cases hb : b ∈ bs
    · have := List.all_eq_true.1 hc.2 b hb; rw [hp] at this; exact of_decide_eq_true this
    · rw [hbs b hb] at hp; cases hp
  have out : ∀ b p, w.pc b = some p → ∀ (q : Option Pc) (x : BrokerId), x ∉ bs → setPc w.pc b q x = none := by
    intro b p hp q x hx
    rw [setPc_ne _ _ (by rintro rfl; rw [hbs x hx] at hp; cases hp)]; exact hbs x hx
  cases e with
  | start b num =>
    simp only at h
    split at h <;> cases h
    rename_i hc'
    refine ⟨.start w t b num ht hc'.2.1 ⟨fun h => hc'.2.2.1 h, fun h => hc'.2.2.2 h⟩, fun x hx => ?_⟩
    simp only [setPc_ne _ _ (by rintro rfl; exact hx hc'.1 : x ≠ b)]; exact hbs x hx
  | write b c =>
    simp only at h
    split at h
    · rename_i hp
      split at h <;> cases h
      rename_i hc'
      exact ⟨.write w t b _ _ c ht hp hc'.1 hc'.2.1 hc'.2.2, out b _ hp _⟩
    · cases h
  | beatDone b ok =>
    simp only at h
    split at h
    · rename_i hp
      split at h <;> cases h
      rename_i hc'
      exact ⟨.beatDone w t b _ _ _ ok ht hp hc', out b _ hp _⟩
    · cases h
  | query b =>
    simp only at h
    split at h
    · rename_i hp
      cases h
      exact ⟨.query w t b _ ht hp, out b _ hp _⟩
    · cases h
  | listed b conn d =>
    simp only at h
    split at h
    · rename_i hp
      split at h <;> cases h
      rename_i hc'
      subst hc'
      exact ⟨.listed w t b _ _ conn ht hp, out b _ hp _⟩
    · cases h
  | listFailed b num =>
    simp only at h
    split at h
    · rename_i hp
      cases h
      exact ⟨.listFailed w t b _ _ num ht hp, out b _ hp _⟩
    · cases h
  | wake b num =>
    simp only at h
    split at h
    · rename_i hp
      split at h <;> cases h
      rename_i hc'
      exact ⟨.wake w t b _ num ht hp hc', out b _ hp _⟩
    · cases h
  | stop b =>
    simp only at h
    split at h
    · rename_i hp
      cases h
      exact ⟨.stop w t b _ ht hp, out b _ hp _⟩
    · cases h
  | store l => cases h
  | tick => cases h; exact ⟨.tick w t ht, hbs⟩

def execs (be : Backend L) (late : Nat) (bs : List BrokerId) (w : World L) : List (Nat × Ev L) → Option (World L)
  | [] => some w
  | (t, e) :: es => (exec be late bs w t e).bind fun w' => execs be late bs w' es

theorem execs_from {be : Backend L} {late : Nat} {bs : List BrokerId} (w0 : World L) (es0 : List (Nat × Ev L)) (w w' : World L)
    (es : List (Nat × Ev L)) (h0 : From be late w0 es0 w) (hbs : ∀ b, b ∉ bs → w.pc b = none)
    (h : execs be late bs w es = some w') : From be late w0 (es0 ++ es) w' ∧ ∀ b, b ∉ bs → w'.pc b = none := by
  induction es generalizing es0 w with
  | nil => cases h; simpa using ⟨h0, hbs⟩
  | cons x es ih =>
    obtain ⟨t, e⟩ := x
    simp only [execs, Option.bind_eq_some_iff] at h
    obtain ⟨w1, h1, h2⟩ := h
    obtain ⟨g1, g2⟩ := exec_step hbs h1
    have := ih (es0 ++ [(t, e)]) w1 (.snoc h0 g1) g2 h2
    simpa using this

/-- `a` is sleeping when `b`, the greater one, starts. -/
def twoPre : List (Nat × Ev RLabel) :=
  [(0, .start hA 3), (10, .write hA 10), (20, .beatDone hA true), (30, .query hA), (40, .listed hA [] []),
   (100, .start hB 0), (200, .write hB 200)]

/-- `a` finds `b` in its next round and dials it. -/
def twoMid : List (Nat × Ev RLabel) :=
  [(300, .beatDone hB true), (400, .query hB), (500, .listed hB [] []), (10040, .wake hA 3), (10050, .write hA 10050),
   (10060, .beatDone hA true), (10070, .query hA), (10080, .listed hA [] [hB]), (10500, .wake hB 0),
   (10600, .write hB 10600), (10700, .beatDone hB true), (10800, .query hB), (10900, .listed hB [hA] []),
   (20080, .wake hA 3), (20090, .write hA 20090), (20095, .beatDone hA true), (20900, .wake hB 7), (21000, .query hA),
   (25000, .listed hA [hB] []), (25300, .tick)]

def twoCheck : Bool :=
  match execs (redis false) 0 [hA, hB] World.init twoPre with
  | none => false
  | some w0 => decide (w0.time = 200) && (w0.pc hA).isSome &&
    match execs (redis false) 0 [hA, hB] w0 twoMid with
    | none => false
    | some w => decide (w.time = 25300)

/-- The hypotheses of C79 are met. -/
example : ∃ w0 w, Run (redis false) 0 twoPre w0 ∧ From (redis false) 0 w0 twoMid w ∧ hA < hB ∧ w0.pc hA ≠ none ∧
    w0.time + 25000 + 4 * 0 < w.time ∧ (∃ p t c m, twoPre = p ++ (t, .write hB c) :: m ∧ Stays hB m) ∧
    Stays hB twoMid ∧ Stays hA twoMid ∧ InARow 0 hB (twoPre ++ twoMid) ∧ ∀ t n, (t, .listFailed hA n) ∉ twoMid := by
  have hc : twoCheck = true := by decide +kernel
  unfold twoCheck at hc
  split at hc
  · cases hc
  · rename_i w0 h0
    split at hc
    · simp at hc
    · rename_i w h1
      simp only [Bool.and_eq_true, decide_eq_true_eq] at hc
      obtain ⟨g1, g2⟩ := execs_from World.init [] World.init w0 twoPre .nil (fun _ _ => rfl) h0
      obtain ⟨g3, _⟩ := execs_from w0 [] w0 w twoMid .nil g2 h1
      refine ⟨w0, w, ?_, by simpa using g3, by decide +kernel, ?_, by omega, ⟨twoPre.take 6, 200, 200, [], rfl, by
        intro t h; simp at h⟩, ?_, ?_, ?_, ?_⟩
      · have := run_from .nil g1; simpa using this
      · intro h; rw [h] at hc; simp at hc
      · intro t h; simp [twoMid] at h
      · intro t h; simp [twoMid] at h
      · intro pre mid post he _
        have h1 : failures hB (pre ++ mid ++ post) = 0 := by rw [← he]; decide +kernel
        rw [failures_append, failures_append] at h1
        omega
      · intro t n h; simp [twoMid] at h

/-! ## Time can always go on -/

/-- No broker stops and no call fails. -/
def Smooth (es : List (Nat × Ev L)) : Prop :=
  (∀ b, Stays b es) ∧ (∀ b t, (t, Ev.beatDone b false) ∉ es) ∧ ∀ b t n, (t, Ev.listFailed b n) ∉ es

theorem Smooth.append {es es' : List (Nat × Ev L)} (h : Smooth es) (h' : Smooth es') : Smooth (es ++ es') :=
  ⟨fun b t hm => (List.mem_append.1 hm).elim (h.1 b t) (h'.1 b t),
   fun b t hm => (List.mem_append.1 hm).elim (h.2.1 b t) (h'.2.1 b t),
   fun b t n hm => (List.mem_append.1 hm).elim (h.2.2 b t n) (h'.2.2 b t n)⟩

theorem from_trans {be : Backend L} {late : Nat} {w w' w'' : World L} {es es' : List (Nat × Ev L)} (h : From be late w es w')
    (h' : From be late w' es' w'') : From be late w (es ++ es') w'' := by
  induction h' with
  | nil => simpa using h
  | snoc _ hs ih => rw [← List.append_assoc]; exact .snoc ih hs

/-- The heartbeat under way can be written, and no listing was answered with an error. -/
def Able (p : Pc) : Prop := (∀ t n wr, p = .beat t n wr → n < 2 ^ 32) ∧ ∀ t, p ≠ .list t (some none)

theorem able_run {be : Backend L} (hbe : Lists be) {late : Nat} {es : List (Nat × Ev L)} {w : World L} (h : Run be late es w)
    (hn : ∀ t e b num, (t, e) ∈ es → Reads b num e → num < 2 ^ 32) :
    (∃ l : List BrokerId, ∀ b, w.pc b ≠ none → b ∈ l) ∧ ∀ b p, w.pc b = some p → Able p := by
  induction h with
  | nil => exact ⟨⟨[], fun b h => absurd rfl h⟩, fun b p h => by cases h⟩
  | @snoc es w t e w' hr hs ih =>
    obtain ⟨⟨l, hl⟩, ha⟩ := ih fun t e b num hm => hn t e b num (List.mem_append_left _ hm)
    have hs0 := sane_run hbe hr
    have me := hn t e
    have keep : ∀ (b : BrokerId) (p : Option Pc) (hist : List L), (w.pc b ≠ none) → (∀ q, p = some q → Able q) →
        (∃ l : List BrokerId, ∀ b', (⟨t, setPc w.pc b p, hist⟩ : World L).pc b' ≠ none → b' ∈ l) ∧
        ∀ b' q, (⟨t, setPc w.pc b p, hist⟩ : World L).pc b' = some q → Able q := by
      intro b p hist hb hp
      refine ⟨⟨l, fun b' h' => ?_⟩, fun b' q h' => ?_⟩
      · by_cases he : b' = b
        · exact he ▸ hl b hb
        · exact hl b' (by simpa [setPc_ne _ _ he] using h')
      · by_cases he : b' = b
        · subst he; exact hp q (by simpa [setPc_self] using h')
        · exact ha b' q (by simpa [setPc_ne _ _ he] using h')
    cases hs with
    | start b num hT hb hg =>
      refine ⟨⟨b :: l, fun b' h' => ?_⟩, fun b' q h' => ?_⟩
      · by_cases he : b' = b
        · exact he ▸ List.mem_cons_self
        · exact List.mem_cons_of_mem _ (hl b' (by simpa [setPc_ne _ _ he] using h'))
      · by_cases he : b' = b
        · subst he
          simp only [setPc_self, Option.some.injEq] at h'
          subst h'
          exact ⟨fun t n wr e => by cases e; exact me _ _ (by simp) ⟨rfl, rfl⟩, fun t e => by cases e⟩
        · exact ha b' q (by simpa [setPc_ne _ _ he] using h')
    | write b t0 num c hT hb h1 h2 h3 =>
      exact keep b _ _ (by rw [hb]; simp) (fun q e => by cases e; exact ⟨fun t n wr e => by cases e; exact h3, fun t e => by cases e⟩)
    | beatDone b t0 num wrote ok hT hb h1 =>
      exact keep b _ _ (by rw [hb]; simp) (fun q e => by cases e; exact ⟨fun t n wr e => (by cases e), fun t e => by cases e⟩)
    | query b t0 hT hb =>
      obtain ⟨r, hr', _⟩ := hbe.lists w.hist t hs0.ok (fun l hl => hbe.mono _ _ l hT.1 (hs0.before l hl)) b (hs0.good b _ hb)
      refine keep b _ _ (by rw [hb]; simp) (fun q e => ?_)
      cases e
      rw [hr']
      exact ⟨fun t n wr e => (by cases e), fun t e => by cases e⟩
    | listed b t0 l conn hT hb =>
      exact keep b _ _ (by rw [hb]; simp) (fun q e => by cases e; exact ⟨fun t n wr e => (by cases e), fun t e => by cases e⟩)
    | listFailed b t0 seen num hT hb =>
      exact keep b _ _ (by rw [hb]; simp) (fun q e => by
        cases e; exact ⟨fun t n wr e => by cases e; exact me _ _ (by simp) ⟨rfl, rfl⟩, fun t e => by cases e⟩)
    | wake b t0 num hT hb h1 =>
      exact keep b _ _ (by rw [hb]; simp) (fun q e => by
        cases e; exact ⟨fun t n wr e => by cases e; exact me _ _ (by simp) ⟨rfl, rfl⟩, fun t e => by cases e⟩)
    | stop b p hT hb => exact keep b _ _ (by rw [hb]; simp) (fun q e => by cases e)
    | store l' hT h1 h2 h3 => exact ⟨⟨l, hl⟩, ha⟩
    | tick hT => exact ⟨⟨l, hl⟩, ha⟩

/-- The loop has nothing to do now. -/
def Rests (w : World L) (b : BrokerId) : Prop := w.pc b = none ∨ ∃ t, w.pc b = some (.sleep t) ∧ w.time < t + 10000

/-- From `w` the loop of `b` can be brought to rest at once. -/
def Tended (be : Backend L) (late : Nat) (b : BrokerId) (w : World L) : Prop :=
  ∃ es w', From be late w es w' ∧ Smooth es ∧ w'.time = w.time ∧ (∀ b', b' ≠ b → w'.pc b' = w.pc b') ∧ Rests w' b ∧
    (w.pc b = none → w'.pc b = none) ∧ Sane be late w' ∧ ∀ t e b num, (t, e) ∈ es → Reads b num e → num < 2 ^ 32

theorem tended_step {be : Backend L} (hbe : Lists be) {late : Nat} {b : BrokerId} {w : World L} (hw : Sane be late w)
    {e : Ev L} {p : Pc} {q : Pc} {hist : List L} (hp : w.pc b = some p) (h : Step be late w w.time e ⟨w.time, setPc w.pc b (some q), hist⟩)
    (he : Smooth [(w.time, e)]) (hn : ∀ b num, Reads b num e → num < 2 ^ 32)
    (next : ∀ w' : World L, Sane be late w' → w'.time = w.time → w'.pc b = some q → Tended be late b w') : Tended be late b w := by
  have hs := sane_step hbe hw h
  obtain ⟨es, w', h1, h2, h3, h4, h5, h6, h7, h8⟩ := next _ hs rfl (setPc_self _ _ _)
  refine ⟨[(w.time, e)] ++ es, w', from_trans (.snoc .nil h) h1, he.append h2, h3, fun b' hb => (h4 b' hb).trans (setPc_ne _ _ hb),
    h5, fun e => (by rw [hp] at e; cases e), h7, fun t e' b num hm hr => ?_⟩
  rcases List.mem_append.1 hm with hm | hm
  · simp at hm; exact hn b num (hm.2 ▸ hr)
  · exact h8 t e' b num hm hr

theorem tended_rest {be : Backend L} {late : Nat} {b : BrokerId} {w : World L} (hw : Sane be late w) (h : Rests w b) :
    Tended be late b w :=
  ⟨[], w, .nil, ⟨fun _ _ h => (by cases h), fun _ _ h => (by cases h), fun _ _ _ h => (by cases h)⟩, rfl, fun _ _ => rfl, h, fun h => h, hw,
    fun t e b num hm => (by cases hm)⟩

theorem tend {be : Backend L} (hbe : Lists be) {late : Nat} (b : BrokerId) (w : World L) (hw : Sane be late w)
    (ha : ∀ p, w.pc b = some p → Able p) : Tended be late b w := by
  have tm : ∀ w : World L, Sane be late w → Timely late w w.time := fun w h => ⟨Nat.le_refl _, h.due⟩
  have sm : ∀ (t : Nat) (e : Ev L), (∀ b, e ≠ .stop b) → (∀ b, e ≠ .beatDone b false) → (∀ b n, e ≠ .listFailed b n) → Smooth [(t, e)] := by
    intro t e h1 h2 h3
    refine ⟨fun b t' hm => ?_, fun b t' hm => ?_, fun b t' n hm => ?_⟩ <;> simp at hm
    · exact h1 b hm.2.symm
    · exact h2 b hm.2.symm
    · exact h3 b n hm.2.symm
  have seen : ∀ (w : World L) (t : Nat) (l : List BrokerId), Sane be late w → w.pc b = some (.list t (some (some l))) → Tended be late b w := by
    intro w t l hw hp
    refine tended_step hbe hw hp (.listed w w.time b t l [] (tm w hw) hp) (sm _ _ (by simp) (by simp) (by simp)) (fun _ _ h => h.elim) ?_
    intro w' h1 h2 h3
    exact tended_rest h1 (.inr ⟨_, h3, by omega⟩)
  have list : ∀ (w : World L) (t : Nat), Sane be late w → w.pc b = some (.list t none) → Tended be late b w := by
    intro w t hw hp
    obtain ⟨r, hr, _⟩ := hbe.lists w.hist w.time hw.ok hw.before b (hw.good b _ hp)
    refine tended_step hbe hw hp (.query w w.time b t (tm w hw) hp) (sm _ _ (by simp) (by simp) (by simp)) (fun _ _ h => h.elim) ?_
    intro w' h1 h2 h3
    rw [hr] at h3
    exact seen w' t r h1 h3
  have wrote : ∀ (w : World L) (t n : Nat), Sane be late w → w.pc b = some (.beat t n true) → Tended be late b w := by
    intro w t n hw hp
    refine tended_step hbe hw hp (.beatDone w w.time b t n true true (tm w hw) hp (fun _ => rfl)) (sm _ _ (by simp) (by simp) (by simp)) (fun _ _ h => h.elim) ?_
    intro w' h1 h2 h3
    exact list w' _ h1 h3
  have beat : ∀ (w : World L) (t n : Nat), Sane be late w → n < 2 ^ 32 → w.pc b = some (.beat t n false) → Tended be late b w := by
    intro w t n hw hn hp
    refine tended_step hbe hw hp (.write w w.time b t n w.time (tm w hw) hp (hw.since b _ hp) (Nat.le_refl _) hn) (sm _ _ (by simp) (by simp) (by simp)) (fun _ _ h => h.elim) ?_
    intro w' h1 h2 h3
    exact wrote w' t n h1 h3
  cases hp : w.pc b with
  | none => exact tended_rest hw (.inl hp)
  | some p =>
    have hab := ha p hp
    cases p with
    | beat t n wr =>
      cases wr with
      | true => exact wrote w t n hw hp
      | false => exact beat w t n hw (hab.1 _ _ _ rfl) hp
    | list t s =>
      cases s with
      | none => exact list w t hw hp
      | some s =>
        cases s with
        | none => exact absurd rfl (hab.2 t)
        | some l => exact seen w t l hw hp
    | sleep t =>
      by_cases hd : t + 10000 ≤ w.time
      · refine tended_step hbe hw hp (.wake w w.time b t 0 (tm w hw) hp hd) (sm _ _ (by simp) (by simp) (by simp)) (fun _ _ h => by rw [← h.2]; decide) ?_
        intro w' h1 h2 h3
        exact beat w' _ 0 h1 (by decide) h3
      · exact tended_rest hw (.inr ⟨t, hp, Nat.lt_of_not_le hd⟩)

theorem tend_all {be : Backend L} (hbe : Lists be) {late : Nat} : ∀ (l : List BrokerId) (w : World L), Sane be late w →
    (∀ b p, w.pc b = some p → Able p) →
    ∃ es w', From be late w es w' ∧ Smooth es ∧ w'.time = w.time ∧ (∀ b, b ∈ l ∨ Rests w b → Rests w' b) ∧
      (∀ b, w.pc b = none → w'.pc b = none) ∧ ∀ t e b num, (t, e) ∈ es → Reads b num e → num < 2 ^ 32 := by
  intro l
  induction l with
  | nil =>
    intro w hw _
    exact ⟨[], w, .nil, ⟨fun _ _ h => (by cases h), fun _ _ h => (by cases h), fun _ _ _ h => (by cases h)⟩, rfl,
      fun b h => h.elim (fun h => by cases h) (fun h => h), fun _ h => h, fun t e b num hm => by cases hm⟩
  | cons b l ih =>
    intro w hw ha
    obtain ⟨e1, w1, h1, h2, h3, h4, h5, h6, h7, h8⟩ := tend hbe b w hw (ha b)
    obtain ⟨e2, w2, k1, k2, k3, k4, k5, k6⟩ := ih w1 h7 (by
      intro b' p hp
      by_cases he : b' = b
      · subst he
        rcases h5 with h5 | ⟨t, h5, _⟩
        · rw [hp] at h5; cases h5
        · rw [hp] at h5; cases h5
          exact ⟨fun _ _ _ e => (by cases e), fun _ e => by cases e⟩
      · exact ha b' p (by rw [← h4 b' he]; exact hp))
    refine ⟨e1 ++ e2, w2, from_trans h1 k1, h2.append k2, k3.trans h3, fun b' hb => ?_, fun b' hb => ?_, fun t e b' num hm hr => ?_⟩
    · by_cases he : b' = b
      · subst he; exact k4 _ (.inr h5)
      · rcases hb with hb | hb
        · exact k4 b' (.inl ((List.mem_cons.1 hb).resolve_left he))
        · exact k4 b' (.inr (by simpa [Rests, h4 b' he, h3] using hb))
    · refine k5 b' ?_
      by_cases he : b' = b
      · subst he; exact h6 hb
      · rw [h4 b' he]; exact hb
    · rcases List.mem_append.1 hm with hm | hm
      · exact h8 t e b' num hm hr
      · exact k6 t e b' num hm hr

theorem goes_on {be : Backend L} (hbe : Lists be) {late : Nat} {es : List (Nat × Ev L)} {w : World L} (h : Run be late es w)
    (hn : ∀ t e b num, (t, e) ∈ es → Reads b num e → num < 2 ^ 32) (n : Nat) :
    ∃ es' w', From be late w es' w' ∧ Smooth es' ∧ w'.time = w.time + n := by
  induction n generalizing es w with
  | zero => exact ⟨[], w, .nil, ⟨fun _ _ h => (by cases h), fun _ _ h => (by cases h), fun _ _ _ h => (by cases h)⟩, rfl⟩
  | succ n ih =>
    obtain ⟨⟨l, hl⟩, ha⟩ := able_run hbe h hn
    obtain ⟨e1, w1, h1, h2, h3, h4, h5, h6⟩ := tend_all hbe l w (sane_run hbe h) ha
    have q : Step be late w1 (w1.time + 1) .tick ⟨w1.time + 1, w1.pc, w1.hist⟩ := .tick _ _ ⟨Nat.le_succ _, fun b p hp => by
      have hb : b ∈ l := hl b (fun e => by rw [h5 b e] at hp; cases hp)
      rcases h4 b (.inl hb) with e | ⟨t, e, ht⟩
      · rw [e] at hp; cases hp
      · rw [e] at hp; cases hp; simp only [Pc.due]; omega⟩
    have r := From.snoc h1 q
    have sq : Smooth [(w1.time + 1, (Ev.tick : Ev L))] :=
      ⟨fun _ _ h => (by simp at h), fun _ _ h => (by simp at h), fun _ _ _ h => (by simp at h)⟩
    obtain ⟨e2, w2, k1, k2, k3⟩ := ih (run_from h r) (by
      intro t e b num hm hr
      rcases List.mem_append.1 hm with hm | hm
      · exact hn t e b num hm hr
      · rcases List.mem_append.1 hm with hm | hm
        · exact h6 t e b num hm hr
        · simp at hm; obtain ⟨_, rfl⟩ := hm; exact hr.elim)
    refine ⟨_, w2, from_trans r k1, (h2.append sq).append k2, ?_⟩
    dsimp only at k3
    rw [k3, h3]; omega

/-- **C78, C79**, it is not an empty promise: from every state that can be reached (with less than 2^32 users at each broker)
time can go on for as long as one likes, with all brokers running and no call failing. -/
theorem C78_embedded_goes_on (global : Bool) {late : Nat} {es : List (Nat × Ev ELabel)} {w : World ELabel}
    (h : Run (embedded global) late es w) (hn : ∀ t e b num, (t, e) ∈ es → Reads b num e → num < 2 ^ 32) (n : Nat) :
    ∃ es' w', From (embedded global) late w es' w' ∧ (∀ b, Stays b es') ∧ (∀ b t, (t, Ev.beatDone b false) ∉ es') ∧
      (∀ b t n, (t, Ev.listFailed b n) ∉ es') ∧ w'.time = w.time + n := by
  obtain ⟨es', w', h1, h2, h3⟩ := goes_on (embedded_lists global) h hn n
  exact ⟨es', w', h1, h2.1, h2.2.1, h2.2.2, h3⟩

theorem C78_redis_goes_on (global : Bool) {late : Nat} {es : List (Nat × Ev RLabel)} {w : World RLabel}
    (h : Run (redis global) late es w) (hn : ∀ t e b num, (t, e) ∈ es → Reads b num e → num < 2 ^ 32) (n : Nat) :
    ∃ es' w', From (redis global) late w es' w' ∧ (∀ b, Stays b es') ∧ (∀ b t, (t, Ev.beatDone b false) ∉ es') ∧
      (∀ b t n, (t, Ev.listFailed b n) ∉ es') ∧ w'.time = w.time + n := by
  obtain ⟨es', w', h1, h2, h3⟩ := goes_on (redis_lists global) h hn n
  exact ⟨es', w', h1, h2.1, h2.2.1, h2.2.2, h3⟩
end Verif.Props.Heartbeat

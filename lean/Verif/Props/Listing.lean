import Verif.Model.Discovery
import Verif.Props.Ident
import Mathlib.Data.List.Perm.Subperm

/-!
# Property C83: listing and choosing brokers works whatever endpoints are advertised

The stores keep identifiers as text and parse them again; the Embedded one unwraps the result (embedded.rs:216), so that a
text that cannot be parsed would end the heartbeat task and with it the broker.
-/

namespace Verif.Props.Listing
open Verif Verif.Disc Verif.Props.Ident

theorem parse_display (b : BrokerId) : BrokerId.parse b.display ≠ none := by
  rw [Ne, C42_parse_fails_iff]
  intro h
  exact h (by simp [BrokerId.display])

theorem mapM_parse {ts : List Str} (h : ∀ t ∈ ts, BrokerId.parse t ≠ none) : ts.mapM BrokerId.parse ≠ none := by
  induction ts with
  | nil => simp
  | cons t ts ih =>
    have h1 := h t (by simp)
    have h2 := ih (fun t ht => h t (by simp [ht]))
    rw [List.mapM_cons]
    cases e1 : BrokerId.parse t with
    | none => exact absurd e1 h1
    | some a =>
      cases e2 : ts.mapM BrokerId.parse with
      | none => exact absurd e2 h2
      | some l => simp

/-! ## Embedded -/

/-- Every identifier in the table is the text form of some broker's identifier. -/
def EKeys (s : Emb) : Prop := ∀ t, t ∈ s.brokers.keys → ∃ b : BrokerId, t = b.display

theorem ekeys_prune {s : Emb} (h : EKeys s) (now : Nat) : EKeys (s.pruneBrokers now) := by
  intro t ht
  refine h t ?_
  rw [AMap.mem_keys, Option.isSome_iff_exists] at ht ⊢
  obtain ⟨x, hx⟩ := ht
  simp only [Emb.pruneBrokers, AMap.get_retain, Option.filter_eq_some_iff] at hx
  exact ⟨x, hx.1⟩

theorem ekeys_step (global : Bool) {s : Emb} (h : EKeys s) (l : ELabel) : EKeys (s.step global l).1 := by
  cases l with
  | putBroker self num dur now =>
    simp only [Emb.step]
    split
    · intro t ht
      rw [AMap.mem_keys, Option.isSome_iff_exists] at ht
      obtain ⟨x, hx⟩ := ht
      simp only [Emb.putBroker, AMap.get_insert] at hx
      split at hx
      · rename_i e; exact ⟨self, e.symm⟩
      · exact h t (by rw [AMap.mem_keys, hx]; rfl)
    · exact h
  | pruneBrokers now => exact ekeys_prune h now
  | prunePermits now => exact h
  | issue b k dur now r =>
    simp only [Emb.step, Emb.issue]
    split <;> exact h
  | take b p =>
    simp only [Emb.step, Emb.take]
    repeat' split
    all_goals exact h
  | whitelist w =>
    cases w with
    | drop => exact h
    | create => exact h
    | insert ks =>
      simp only [Emb.step, Emb.wstep]
      repeat' split
      all_goals exact h

theorem ekeys_run (global : Bool) (ls : List ELabel) : ∀ {s : Emb}, EKeys s → EKeys (s.run global ls).1 := by
  induction ls with
  | nil => intro s h; exact h
  | cons l ls ih => intro s h; exact ih (ekeys_step global h l)

theorem ekeys_new : EKeys Emb.new := by intro t ht; simp [Emb.new, AMap.mem_keys] at ht

/-- **C83, Embedded: listing never panics.** Whatever the brokers call themselves, in every state that calls of any
processes can lead to. -/
theorem C83_embedded_listing (global : Bool) (ls : List ELabel) (self : BrokerId) (now : Nat) :
    ((Emb.new.run global ls).1.others self now).2 ≠ none := by
  have h := ekeys_prune (ekeys_run global ls ekeys_new) now
  simp only [Emb.others, Ne, Option.map_eq_none_iff]
  refine mapM_parse fun t ht => ?_
  obtain ⟨b, rfl⟩ := h t ht
  exact parse_display b

theorem leastLoop_keys (s : Emb) (rows : List (Str × Nat × Nat)) (acc : Nat × Str) :
    s.leastLoop rows acc = acc ∨ ∃ r ∈ rows, (s.leastLoop rows acc).2 = r.1 := by
  induction rows generalizing acc with
  | nil => exact .inl rfl
  | cons r rows ih =>
    simp only [Emb.leastLoop]
    rcases ih (if s.countPermits r.1 + r.2.1 < acc.1 then (s.countPermits r.1 + r.2.1, r.1) else acc) with h | ⟨x, h1, h2⟩
    · split at h
      · rename_i hlt
        exact .inr ⟨r, by simp, by rw [if_pos hlt, h]⟩
      · rename_i hlt
        exact .inl (by rw [if_neg hlt, h])
    · exact .inr ⟨x, by simp [h1], h2⟩

theorem leastLoop_le (s : Emb) (rows : List (Str × Nat × Nat)) (acc : Nat × Str) :
    (s.leastLoop rows acc).1 ≤ acc.1 ∧ ∀ r ∈ rows, (s.leastLoop rows acc).1 ≤ s.countPermits r.1 + r.2.1 := by
  induction rows generalizing acc with
  | nil => exact ⟨Nat.le_refl _, by simp⟩
  | cons r rows ih =>
    simp only [Emb.leastLoop]
    by_cases hlt : s.countPermits r.1 + r.2.1 < acc.1
    · rw [if_pos hlt]
      obtain ⟨h1, h2⟩ := ih (s.countPermits r.1 + r.2.1, r.1)
      simp only at h1
      refine ⟨by omega, fun x hx => ?_⟩
      rcases List.mem_cons.1 hx with rfl | hx
      · exact h1
      · exact h2 x hx
    · rw [if_neg hlt]
      obtain ⟨h1, h2⟩ := ih acc
      refine ⟨h1, fun x hx => ?_⟩
      rcases List.mem_cons.1 hx with rfl | hx
      · omega
      · exact h2 x hx

/-- Loads and permit numbers fit 32 bits. -/
structure ESmall (s : Emb) : Prop where
  load : ∀ t n x, s.brokers.get t = some (n, x) → n < 2 ^ 32
  permit : ∀ p, p ∈ s.permits.keys → p < 2 ^ 32

theorem esmall_pruneB {s : Emb} (h : ESmall s) (now : Nat) : ESmall (s.pruneBrokers now) := by
  refine ⟨fun t n x ht => ?_, h.permit⟩
  simp only [Emb.pruneBrokers, AMap.get_retain, Option.filter_eq_some_iff] at ht
  exact h.load t n x ht.1

theorem esmall_pruneP {s : Emb} (h : ESmall s) (now : Nat) : ESmall (s.prunePermits now) := by
  refine ⟨h.load, fun p hp => h.permit p ?_⟩
  rw [AMap.mem_keys, Option.isSome_iff_exists] at hp ⊢
  obtain ⟨x, hx⟩ := hp
  simp only [Emb.prunePermits, AMap.get_retain, Option.filter_eq_some_iff] at hx
  exact ⟨x, hx.1⟩

theorem esmall_step (global : Bool) {s : Emb} (h : ESmall s) (l : ELabel) : ESmall (s.step global l).1 := by
  cases l with
  | putBroker self num dur now =>
    simp only [Emb.step]
    split
    · rename_i hnum
      refine ⟨fun t n x ht => ?_, h.permit⟩
      simp only [Emb.putBroker, AMap.get_insert] at ht
      split at ht
      · cases ht; exact hnum
      · exact h.load t n x ht
    · exact h
  | pruneBrokers now => exact esmall_pruneB h now
  | prunePermits now => exact esmall_pruneP h now
  | issue b k dur now r =>
    simp only [Emb.step, Emb.issue]
    split
    · exact h
    · refine ⟨h.load, fun p hp => ?_⟩
      rw [AMap.mem_keys, Option.isSome_iff_exists] at hp
      obtain ⟨x, hx⟩ := hp
      simp only [AMap.get_insert] at hx
      split at hx
      · rename_i e; rw [← e]; exact r.toNat_lt
      · exact h.permit p (by rw [AMap.mem_keys, hx]; rfl)
  | take b p =>
    simp only [Emb.step, Emb.take]
    repeat' split
    all_goals first | exact h | skip
    refine ⟨h.load, fun q hq => h.permit q ?_⟩
    rw [AMap.mem_keys, Option.isSome_iff_exists] at hq
    obtain ⟨x, hx⟩ := hq
    simp only [AMap.get_erase] at hx
    split at hx
    · cases hx
    · rw [AMap.mem_keys, hx]; rfl
  | whitelist w =>
    cases w with
    | drop => exact ⟨h.load, h.permit⟩
    | create => exact ⟨h.load, h.permit⟩
    | insert ks =>
      simp only [Emb.step, Emb.wstep]
      repeat' split
      all_goals exact ⟨h.load, h.permit⟩

theorem esmall_run (global : Bool) (ls : List ELabel) : ∀ {s : Emb}, ESmall s → ESmall (s.run global ls).1 := by
  induction ls with
  | nil => intro s h; exact h
  | cons l ls ih => intro s h; exact ih (esmall_step global h l)

theorem esmall_new : ESmall Emb.new :=
  ⟨fun t n x h => by simp [Emb.new] at h, fun p h => by simp [Emb.new, AMap.mem_keys] at h⟩

theorem length_le_of_lt {l : List Nat} {N : Nat} (hd : l.Nodup) (h : ∀ x ∈ l, x < N) : l.length ≤ N := by
  have := (List.subperm_of_subset hd (l₂ := List.range N) (fun x hx => List.mem_range.2 (h x hx))).length_le
  simpa using this

theorem count_le {s : Emb} (h : ESmall s) (t : Str) : s.countPermits t ≤ 2 ^ 32 := by
  have h1 : s.countPermits t ≤ s.permits.entries.length := List.length_filter_le _ _
  have h2 : s.permits.keys.length ≤ 2 ^ 32 := length_le_of_lt s.permits.keys_nodup h.permit
  simp only [AMap.keys, List.length_map] at h2
  omega

/-- Keeps the entry of `t` on record at `now`. -/
def EKeeps (t : Str) (now : Nat) : ELabel → Prop
  | .putBroker b num dur c => b.display = t → num < 2 ^ 32 → now ≤ c + dur
  | .pruneBrokers c => c ≤ now
  | _ => True

theorem keeps_step (global : Bool) {t : Str} {now : Nat} {s : Emb} {l : ELabel} (hl : EKeeps t now l)
    (h : ∃ n x, s.brokers.get t = some (n, x) ∧ now ≤ x) :
    ∃ n x, (s.step global l).1.brokers.get t = some (n, x) ∧ now ≤ x := by
  cases l with
  | putBroker b num dur c =>
    simp only [Emb.step]
    split
    · rename_i hnum
      simp only [Emb.putBroker, AMap.get_insert]
      by_cases e : b.display = t
      · exact ⟨num, c + dur, by rw [if_pos e], hl e hnum⟩
      · rw [if_neg e]; exact h
    · exact h
  | pruneBrokers c =>
    obtain ⟨n, x, h1, h2⟩ := h
    have hl : c ≤ now := hl
    refine ⟨n, x, ?_, h2⟩
    simp only [Emb.step, Emb.pruneBrokers, AMap.get_retain, h1]
    have : c ≤ x := by omega
    simp [this]
  | prunePermits c => exact h
  | issue b k dur c r =>
    simp only [Emb.step, Emb.issue]
    split <;> exact h
  | take b p =>
    simp only [Emb.step, Emb.take]
    repeat' split
    all_goals exact h
  | whitelist w =>
    cases w with
    | drop => exact h
    | create => exact h
    | insert ks =>
      simp only [Emb.step, Emb.wstep]
      repeat' split
      all_goals exact h

theorem emb_run_append (global : Bool) (a b : List ELabel) (s : Emb) :
    (s.run global (a ++ b)).1 = ((s.run global a).1.run global b).1 := by
  induction a generalizing s with
  | nil => rfl
  | cons l a ih => exact ih _

/-- **C83, Embedded: choosing.** After a heartbeat of a broker with any name, as long as it has not expired (and a later
heartbeat under the same text is not shorter), a broker is found. -/
theorem C83_embedded_choice (global : Bool) (pre post : List ELabel) (b : BrokerId) (num dur c now : Nat)
    (hnum : num < 2 ^ 32) (hnow : now ≤ c + dur) (hpost : ∀ l ∈ post, EKeeps b.display now l) :
    ((Emb.new.run global (pre ++ .putBroker b num dur c :: post)).1.least now).2 ≠ none := by
  generalize hs : (Emb.new.run global (pre ++ .putBroker b num dur c :: post)).1 = s
  have hk : EKeys (s.pruneBrokers now) := by rw [← hs]; exact ekeys_prune (ekeys_run global _ ekeys_new) now
  have hsm : ESmall s := by rw [← hs]; exact esmall_run global _ esmall_new
  obtain ⟨num', x, ht, hx⟩ : ∃ n x, s.brokers.get b.display = some (n, x) ∧ now ≤ x := by
    rw [← hs, emb_run_append]
    have key : ∀ (ls : List ELabel) (s : Emb), (∀ l ∈ ls, EKeeps b.display now l) →
        (∃ n x, s.brokers.get b.display = some (n, x) ∧ now ≤ x) →
        ∃ n x, (s.run global ls).1.brokers.get b.display = some (n, x) ∧ now ≤ x := by
      intro ls
      induction ls with
      | nil => intro s _ h; exact h
      | cons l ls ih =>
        intro s hl h
        exact ih _ (fun l hl' => hl l (by simp [hl'])) (keeps_step global (hl l (by simp)) h)
    refine key post _ hpost ?_
    simp only [Emb.step, if_pos hnum, Emb.putBroker]
    exact ⟨num, c + dur, by simp, hnow⟩
  generalize b.display = t at ht
  have hget : (s.pruneBrokers now).brokers.get t = some (num', x) := by
    simp [Emb.pruneBrokers, AMap.get_retain, ht, hx]
  have hne : (s.pruneBrokers now).brokers.isEmpty = false := by
    cases he : (s.pruneBrokers now).brokers.isEmpty with
    | false => rfl
    | true =>
      exfalso
      have := AMap.isEmpty_iff.1 he t
      rw [hget] at this; cases this
  simp only [Emb.least, hne, Bool.false_eq_true, if_false]
  have hsm2 := esmall_pruneP (esmall_pruneB hsm now) now
  generalize hs2 : (s.pruneBrokers now).prunePermits now = s2 at hsm2 ⊢
  have hb2 : s2.brokers = (s.pruneBrokers now).brokers := by rw [← hs2]; rfl
  have hmem : (t, num', x) ∈ s2.brokers.entries := by
    rw [hb2]; exact AMap.mem_entries.2 hget
  have hle := (leastLoop_le s2 s2.brokers.entries (Emb.u64Max, [])).2 _ hmem
  rcases leastLoop_keys s2 s2.brokers.entries (Emb.u64Max, []) with h | ⟨r, h1, h2⟩
  · rw [h] at hle
    have e1 := count_le hsm2 t
    have e2 := hsm.load t num' x ht
    simp only [Emb.u64Max] at hle
    omega
  · rw [h2]
    have : r.1 ∈ s2.brokers.keys := List.mem_map.2 ⟨r, h1, rfl⟩
    rw [hb2] at this
    obtain ⟨b, hb⟩ := hk _ this
    rw [hb]
    exact parse_display b

/-! ## Redis -/

/-- Members of the set are text forms; each has its load stored, for at least as long; numbers are stored under load keys
and nothing is stored under a key that is asked for as a set of permits. -/
structure RKeys (s : Redis) : Prop where
  keys : ∀ t e, s.brokers.get t = some e → ∃ b : BrokerId, t = b.display
  load : ∀ t e, s.brokers.get t = some e → ∃ n e', s.kv.get (Redis.numKey t) = some (.num n, e') ∧ e ≤ e'
  sets : ∀ t, s.kv.get (Redis.permitsKey t) = none

theorem dec_last (n : Nat) : ∃ xs d, Disc.dec n = xs ++ [Char.ofNat (48 + d)] ∧ d < 10 := by
  rw [Disc.dec]
  split
  · exact ⟨[], n, rfl, by assumption⟩
  · exact ⟨_, n % 10, rfl, Nat.mod_lt _ (by decide)⟩

theorem last_ne {xs ys : Str} {a b : Char} (h : a ≠ b) : xs ++ [a] ≠ ys ++ [b] := by
  intro e
  have := congrArg List.getLast? e
  simp at this
  exact h this

theorem digit_ne (d : Nat) (h : d < 10) : Char.ofNat (48 + d) ≠ 's' := by
  match d, h with
  | 0, _ | 1, _ | 2, _ | 3, _ | 4, _ | 5, _ | 6, _ | 7, _ | 8, _ | 9, _ => decide

theorem permitKey_last (global : Bool) (b : BrokerId) (p : Nat) :
    ∃ xs d, Redis.permitKey global b p = xs ++ [Char.ofNat (48 + d)] ∧ d < 10 := by
  obtain ⟨xs, d, h1, h2⟩ := dec_last p
  unfold Redis.permitKey
  rw [h1]
  split
  · exact ⟨"permits/".toList ++ xs, d, by simp, h2⟩
  · exact ⟨b.display ++ "/permits/".toList ++ xs, d, by simp, h2⟩

theorem numKey_last (t : Str) : ∃ xs, Redis.numKey t = xs ++ ['s'] := by
  refine ⟨t ++ "/num_connection".toList, ?_⟩
  unfold Redis.numKey
  rw [List.append_assoc]
  congr 1

theorem permitsKey_last (t : Str) : ∃ xs, Redis.permitsKey t = xs ++ ['s'] := by
  refine ⟨t ++ "/permit".toList, ?_⟩
  unfold Redis.permitsKey
  rw [List.append_assoc]
  congr 1

theorem permitKey_ne_numKey (global : Bool) (b : BrokerId) (p : Nat) (t : Str) :
    Redis.permitKey global b p ≠ Redis.numKey t := by
  obtain ⟨xs, d, h1, h2⟩ := permitKey_last global b p
  obtain ⟨ys, h3⟩ := numKey_last t
  rw [h1, h3]
  exact last_ne (digit_ne d h2)

theorem permitKey_ne_permitsKey (global : Bool) (b : BrokerId) (p : Nat) (t : Str) :
    Redis.permitKey global b p ≠ Redis.permitsKey t := by
  obtain ⟨xs, d, h1, h2⟩ := permitKey_last global b p
  obtain ⟨ys, h3⟩ := permitsKey_last t
  rw [h1, h3]
  exact last_ne (digit_ne d h2)

theorem numKey_ne_permitsKey (t u : Str) : Redis.numKey t ≠ Redis.permitsKey u := by
  intro e
  have h : (Redis.numKey t).reverse.take 2 = (Redis.permitsKey u).reverse.take 2 := by rw [e]
  unfold Redis.numKey Redis.permitsKey at h
  rw [List.reverse_append, List.reverse_append] at h
  have e1 : ("/num_connections".toList).reverse = ['s', 'n', 'o', 'i', 't', 'c', 'e', 'n', 'n', 'o', 'c', '_', 'm', 'u', 'n', '/'] := by
    decide
  have e2 : ("/permits".toList).reverse = ['s', 't', 'i', 'm', 'r', 'e', 'p', '/'] := by decide
  rw [e1, e2] at h
  simp at h

theorem numKey_inj {t u : Str} (h : Redis.numKey t = Redis.numKey u) : t = u := List.append_cancel_right h

theorem rkeys_expire {s : Redis} (h : RKeys s) (now : Nat) : RKeys (s.expire now) := by
  refine ⟨?_, ?_, ?_⟩
  · intro t e ht
    simp only [Redis.expire, AMap.get_retain, Option.filter_eq_some_iff] at ht
    exact h.keys t e ht.1
  · intro t e ht
    simp only [Redis.expire, AMap.get_retain, Option.filter_eq_some_iff, decide_eq_true_eq] at ht ⊢
    obtain ⟨n, e', h1, h2⟩ := h.load t e ht.1
    exact ⟨n, e', ⟨h1, by have := ht.2; omega⟩, h2⟩
  · intro t
    simp [Redis.expire, AMap.get_retain, h.sets t]

theorem rkeys_step (global : Bool) {s : Redis} (h : RKeys s) (l : RLabel) : RKeys (s.step global l).1 := by
  cases l with
  | heartbeat self num dur now =>
    have h' := rkeys_expire h now
    refine ⟨?_, ?_, ?_⟩
    · intro t e ht
      simp only [Redis.step, Redis.heartbeat, AMap.get_insert] at ht
      split at ht
      · rename_i e'; exact ⟨self, e'.symm⟩
      · exact h'.keys t e ht
    · intro t e ht
      simp only [Redis.step, Redis.heartbeat, AMap.get_insert] at ht ⊢
      split at ht
      · rename_i e'
        cases ht
        exact ⟨num, now + dur, by rw [if_pos (by rw [e'])], Nat.le_refl _⟩
      · rename_i e'
        obtain ⟨n, x, h1, h2⟩ := h'.load t e ht
        exact ⟨n, x, by rw [if_neg (fun e2 => e' (numKey_inj e2))]; exact h1, h2⟩
    · intro t
      simp only [Redis.step, Redis.heartbeat, AMap.get_insert]
      rw [if_neg (fun e => numKey_ne_permitsKey _ _ e)]
      exact h'.sets t
  | expire now => exact rkeys_expire h now
  | issue b k dur now r =>
    have h' := rkeys_expire h now
    refine ⟨h'.keys, ?_, ?_⟩
    · intro t e ht
      obtain ⟨n, x, h1, h2⟩ := h'.load t e ht
      refine ⟨n, x, ?_, h2⟩
      simp only [Redis.step, Redis.issue, AMap.get_insert]
      rw [if_neg (permitKey_ne_numKey _ _ _ _)]
      exact h1
    · intro t
      simp only [Redis.step, Redis.issue, AMap.get_insert]
      rw [if_neg (permitKey_ne_permitsKey _ _ _ _)]
      exact h'.sets t
  | validate b p now =>
    have h' := rkeys_expire h now
    have her : RKeys { s.expire now with kv := (s.expire now).kv.erase (Redis.permitKey global b p) } := by
      refine ⟨h'.keys, ?_, ?_⟩
      · intro t e ht
        obtain ⟨n, x, h1, h2⟩ := h'.load t e ht
        refine ⟨n, x, ?_, h2⟩
        simp only [AMap.get_erase]
        rw [if_neg (permitKey_ne_numKey _ _ _ _)]
        exact h1
      · intro t
        simp only [AMap.get_erase]
        split
        · rfl
        · exact h'.sets t
    simp only [Redis.step, Redis.validate]
    split
    · exact her
    · exact her
    · exact h'
  | setWhitelist ks => exact ⟨h.keys, h.load, h.sets⟩

theorem rkeys_run (global : Bool) (ls : List RLabel) : ∀ {s : Redis}, RKeys s → RKeys (s.run global ls).1 := by
  induction ls with
  | nil => intro s h; exact h
  | cons l ls ih => intro s h; exact ih (rkeys_step global h l)

theorem rkeys_new : RKeys Redis.new := by
  refine ⟨?_, ?_, ?_⟩
  · intro t e ht; simp [Redis.new] at ht
  · intro t e ht; simp [Redis.new] at ht
  · intro t; simp [Redis.new]

/-- **C83, Redis: listing never fails.** -/
theorem C83_redis_listing (global : Bool) (ls : List RLabel) (self : BrokerId) (now : Nat) :
    (Redis.new.run global ls).1.others self now ≠ none := by
  have h := rkeys_expire (rkeys_run global ls rkeys_new) now
  simp only [Redis.others, Ne, Option.map_eq_none_iff]
  refine mapM_parse fun t ht => ?_
  have ht := (List.mem_filter.1 ht).1
  rw [AMap.mem_keys, Option.isSome_iff_exists] at ht
  obtain ⟨x, hx⟩ := ht
  obtain ⟨b, rfl⟩ := h.keys t x hx
  exact parse_display b

theorem redis_leastLoop (s : Redis) (ts : List Str) (acc : Nat × Str)
    (h1 : ∀ t ∈ ts, ∃ n e, s.kv.get (Redis.numKey t) = some (.num n, e))
    (h2 : ∀ t, s.kv.get (Redis.permitsKey t) = none) :
    ∃ r, s.leastLoop ts acc = some r ∧ (r = acc ∨ r.2 ∈ ts) ∧ r.1 ≤ acc.1 ∧
      ∀ t ∈ ts, ∀ n e, s.kv.get (Redis.numKey t) = some (.num n, e) → n < 2 ^ 64 → r.1 ≤ n := by
  induction ts generalizing acc with
  | nil => exact ⟨acc, rfl, .inl rfl, Nat.le_refl _, by simp⟩
  | cons t ts ih =>
    obtain ⟨n, e, hn⟩ := h1 t (by simp)
    have hg : s.getNum (Redis.numKey t) = some n := by simp [Redis.getNum, hn]
    have hs : s.scard (Redis.permitsKey t) = some 0 := by simp [Redis.scard, h2]
    simp only [Redis.leastLoop, hg, hs, Nat.zero_add]
    by_cases hlt : n % 2 ^ 64 < acc.1
    · rw [if_pos hlt]
      obtain ⟨r, e1, e2, e3, e4⟩ := ih (n % 2 ^ 64, t) (fun t ht => h1 t (by simp [ht]))
      simp only at e3
      refine ⟨r, e1, .inr ?_, by omega, ?_⟩
      · rcases e2 with e2 | e2
        · rw [e2]; simp
        · simp [e2]
      · intro t' ht' n' x hn' hlt'
        rcases List.mem_cons.1 ht' with rfl | ht'
        · rw [hn] at hn'; cases hn'
          rw [Nat.mod_eq_of_lt hlt'] at e3
          exact e3
        · exact e4 t' ht' n' x hn' hlt'
    · rw [if_neg hlt]
      obtain ⟨r, e1, e2, e3, e4⟩ := ih acc (fun t ht => h1 t (by simp [ht]))
      refine ⟨r, e1, ?_, e3, ?_⟩
      · rcases e2 with e2 | e2
        · exact .inl e2
        · exact .inr (by simp [e2])
      · intro t' ht' n' x hn' hlt'
        rcases List.mem_cons.1 ht' with rfl | ht'
        · rw [hn] at hn'; cases hn'
          rw [Nat.mod_eq_of_lt hlt'] at hlt
          omega
        · exact e4 t' ht' n' x hn' hlt'

/-- Keeps the entry of `t` on record at `now`, with a number below the largest. -/
def RKeeps (t : Str) (now : Nat) : RLabel → Prop
  | .heartbeat b num dur c => c ≤ now ∧ (b.display = t → num < 2 ^ 64 - 1 ∧ now ≤ c + dur)
  | .expire c => c ≤ now
  | .issue _ _ _ c _ => c ≤ now
  | .validate _ _ c => c ≤ now
  | .setWhitelist _ => True

/-- On record at `now`, with a number below the largest. -/
def OnRecord (t : Str) (now : Nat) (s : Redis) : Prop :=
  (∃ x, s.brokers.get t = some x ∧ now ≤ x) ∧ ∃ n x, s.kv.get (Redis.numKey t) = some (.num n, x) ∧ now ≤ x ∧ n < 2 ^ 64 - 1

theorem onRecord_expire {t : Str} {now c : Nat} {s : Redis} (h : OnRecord t now s) (hc : c ≤ now) :
    OnRecord t now (s.expire c) := by
  obtain ⟨⟨x, h1, h2⟩, n, y, h3, h4, h5⟩ := h
  have e1 : c ≤ x := by omega
  have e2 : c ≤ y := by omega
  exact ⟨⟨x, by simp [Redis.expire, AMap.get_retain, h1, e1], h2⟩, n, y, by simp [Redis.expire, AMap.get_retain, h3, e2], h4, h5⟩

theorem onRecord_step (global : Bool) {t : Str} {now : Nat} {s : Redis} {l : RLabel} (hl : RKeeps t now l)
    (h : OnRecord t now s) : OnRecord t now (s.step global l).1 := by
  cases l with
  | heartbeat b num dur c =>
    obtain ⟨hc, hb⟩ := hl
    obtain ⟨⟨x, h1, h2⟩, n, y, h3, h4, h5⟩ := onRecord_expire h hc
    by_cases e : b.display = t
    · obtain ⟨e1, e2⟩ := hb e
      refine ⟨⟨c + dur, ?_, e2⟩, num, c + dur, ?_, e2, e1⟩
      · simp only [Redis.step, Redis.heartbeat, AMap.get_insert]; rw [if_pos e]
      · simp only [Redis.step, Redis.heartbeat, AMap.get_insert]; rw [if_pos (by rw [e])]
    · refine ⟨⟨x, ?_, h2⟩, n, y, ?_, h4, h5⟩
      · simp only [Redis.step, Redis.heartbeat, AMap.get_insert]; rw [if_neg e]; exact h1
      · simp only [Redis.step, Redis.heartbeat, AMap.get_insert]; rw [if_neg (fun e' => e (numKey_inj e'))]; exact h3
  | expire c => exact onRecord_expire h hl
  | issue b k dur c r =>
    obtain ⟨h0, n, y, h3, h4, h5⟩ := onRecord_expire h hl
    refine ⟨h0, n, y, ?_, h4, h5⟩
    simp only [Redis.step, Redis.issue, AMap.get_insert]
    rw [if_neg (permitKey_ne_numKey _ _ _ _)]
    exact h3
  | validate b p c =>
    have h' := onRecord_expire h hl
    obtain ⟨h0, n, y, h3, h4, h5⟩ := h'
    have her : OnRecord t now { s.expire c with kv := (s.expire c).kv.erase (Redis.permitKey global b p) } := by
      refine ⟨h0, n, y, ?_, h4, h5⟩
      simp only [AMap.get_erase]
      rw [if_neg (permitKey_ne_numKey _ _ _ _)]
      exact h3
    simp only [Redis.step, Redis.validate]
    split
    · exact her
    · exact her
    · exact ⟨h0, n, y, h3, h4, h5⟩
  | setWhitelist ks => exact h

theorem redis_run_append (global : Bool) (a b : List RLabel) (s : Redis) :
    (s.run global (a ++ b)).1 = ((s.run global a).1.run global b).1 := by
  induction a generalizing s with
  | nil => rfl
  | cons l a ih => exact ih _

/-- **C83, Redis: choosing.** After a heartbeat of a broker with any name and a load below the largest number, as long as it has
not expired (and a later heartbeat under the same text is not shorter), a broker is found. -/
theorem C83_redis_choice (global : Bool) (pre post : List RLabel) (b : BrokerId) (num dur c now : Nat)
    (hnum : num < 2 ^ 64 - 1) (hnow : now ≤ c + dur) (hpost : ∀ l ∈ post, RKeeps b.display now l) :
    (Redis.new.run global (pre ++ .heartbeat b num dur c :: post)).1.least now ≠ none := by
  generalize hs : (Redis.new.run global (pre ++ .heartbeat b num dur c :: post)).1 = s
  have h0 : RKeys s := by rw [← hs]; exact rkeys_run global _ rkeys_new
  obtain ⟨⟨x, ht, hx⟩, nn, yy, hl1, hl2, hl3⟩ : OnRecord b.display now s := by
    rw [← hs, redis_run_append]
    have key : ∀ (ls : List RLabel) (s : Redis), (∀ l ∈ ls, RKeeps b.display now l) →
        OnRecord b.display now s → OnRecord b.display now (s.run global ls).1 := by
      intro ls
      induction ls with
      | nil => intro s _ h; exact h
      | cons l ls ih =>
        intro s hl h
        exact ih _ (fun l hl' => hl l (by simp [hl'])) (onRecord_step global (hl l (by simp)) h)
    refine key post _ hpost ⟨⟨c + dur, ?_, hnow⟩, num, c + dur, ?_, hnow, hnum⟩
    · simp [Redis.step, Redis.heartbeat]
    · simp [Redis.step, Redis.heartbeat]
  generalize b.display = t at ht hl1
  have hn : ∀ n e, s.kv.get (Redis.numKey t) = some (.num n, e) → n < 2 ^ 64 - 1 := by
    intro n e he; rw [hl1] at he; cases he; exact hl3
  have h := rkeys_expire h0 now
  have hget : (s.expire now).brokers.get t = some x := by simp [Redis.expire, AMap.get_retain, ht, hx]
  have hmem : t ∈ (s.expire now).brokers.keys := by rw [AMap.mem_keys, hget]; rfl
  have hne : (s.expire now).brokers.keys.isEmpty = false := by
    cases hk : (s.expire now).brokers.keys with
    | nil => rw [hk] at hmem; simp at hmem
    | cons a l => rfl
  simp only [Redis.least, hne, Bool.false_eq_true, if_false]
  obtain ⟨r, e1, e2, e3, e4⟩ := redis_leastLoop (s.expire now) (s.expire now).brokers.keys (Emb.u64Max, [])
    (by
      intro u hu
      rw [AMap.mem_keys, Option.isSome_iff_exists] at hu
      obtain ⟨e, he⟩ := hu
      obtain ⟨n, e', h1, _⟩ := h.load u e he
      exact ⟨n, e', h1⟩) h.sets
  rw [e1]
  obtain ⟨n, e', h1, h2⟩ := h.load t x hget
  have h1' : s.kv.get (Redis.numKey t) = some (.num n, e') := by
    simp only [Redis.expire, AMap.get_retain, Option.filter_eq_some_iff] at h1
    exact h1.1
  have hlt := hn n e' h1'
  have hle := e4 t hmem n e' h1 (by omega)
  simp only
  rcases e2 with e2 | e2
  · rw [e2] at hle
    simp only [Emb.u64Max] at hle
    omega
  · rw [AMap.mem_keys, Option.isSome_iff_exists] at e2
    obtain ⟨y, hy⟩ := e2
    obtain ⟨b, hb⟩ := h.keys _ y hy
    rw [hb]
    exact parse_display b

/-! ## Cases -/

/-- A broker with slashes in its endpoints. -/
def odd : BrokerId := ⟨"http://a".toList, "b/".toList⟩

/-- It is listed (under a wrong name, `C42_slash_needed`), and nothing fails. -/
example : ((Emb.new.run false [.putBroker odd 3 60 100]).1.others ⟨"x".toList, "y".toList⟩ 120).2 =
    some [⟨"http:".toList, []⟩] := by decide +kernel

example : ((Emb.new.run false ([] ++ .putBroker odd 3 60 100 :: [.pruneBrokers 110, .issue odd [1] 30 110 5])).1.least 120).2 ≠
    none :=
  C83_embedded_choice false [] _ odd 3 60 100 120 (by decide) (by decide) (by
    intro l hl
    simp only [List.mem_cons, List.not_mem_nil, or_false] at hl
    rcases hl with rfl | rfl
    · show 110 ≤ 120; decide
    · trivial)

example : (Redis.new.run false [.heartbeat odd 3 60 100, .issue odd [1] 30 110 5]).1.least 120 =
    some ⟨"http:".toList, []⟩ := by decide +kernel

end Verif.Props.Listing

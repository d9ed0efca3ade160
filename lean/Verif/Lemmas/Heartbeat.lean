import Verif.Lemmas.Discovery
import Mathlib.Data.List.Perm.Subperm
import Mathlib.Data.List.Nodup
import Mathlib.Data.List.Range

/-!
# Lemmas about heartbeats and the choice of a broker
-/

namespace Verif.Disc
open Verif Verif.Props.Ident

theorem Emb.run_snoc (global : Bool) (s : Emb) (ls : List ELabel) (l : ELabel) :
    s.run global (ls ++ [l]) =
      (((s.run global ls).1.step global l).1, (s.run global ls).2 ++ ((s.run global ls).1.step global l).2) := by
  induction ls generalizing s with
  | nil => simp [Emb.run]
  | cons x ls ih => simp only [List.cons_append, Emb.run, ih, List.append_assoc]

theorem Redis.run_snoc (global : Bool) (s : Redis) (ls : List RLabel) (l : RLabel) :
    s.run global (ls ++ [l]) =
      (((s.run global ls).1.step global l).1, (s.run global ls).2 ++ ((s.run global ls).1.step global l).2) := by
  induction ls generalizing s with
  | nil => simp [Redis.run]
  | cons x ls ih => simp only [List.cons_append, Redis.run, ih, List.append_assoc]

theorem elast_snoc {ls : List ELabel} {l : ELabel} {b : BrokerId} {n x : Nat} :
    ELast (ls ++ [l]) b n x ↔
      (∃ dur t, l = .putBroker b n dur t ∧ n < 2 ^ 32 ∧ x = t + dur) ∨
      (ELast ls b n x ∧ ∀ n' dur' t', n' < 2 ^ 32 → l ≠ .putBroker b n' dur' t') := by
  constructor
  · rintro ⟨pre, mid, dur, t, h, hn, hx, hk⟩
    rcases snoc_split h with ⟨rfl, rfl, rfl⟩ | ⟨mid', rfl, rfl⟩
    · exact Or.inl ⟨dur, t, rfl, hn, hx⟩
    · refine Or.inr ⟨⟨pre, mid', dur, t, rfl, hn, hx, ?_⟩, ?_⟩
      · intro n' d' t' hn' hm
        exact hk n' d' t' hn' (List.mem_append_left _ hm)
      · intro n' d' t' hn' e
        exact hk n' d' t' hn' (List.mem_append_right _ (List.mem_singleton.2 e.symm))
  · rintro (⟨dur, t, rfl, hn, hx⟩ | ⟨⟨pre, mid, dur, t, rfl, hn, hx, hk⟩, he⟩)
    · exact ⟨ls, [], dur, t, rfl, hn, hx, by simp⟩
    · refine ⟨pre, mid ++ [l], dur, t, by simp, hn, hx, ?_⟩
      intro n' d' t' hn' hm
      rcases List.mem_append.1 hm with hm | hm
      · exact hk n' d' t' hn' hm
      · exact he n' d' t' hn' (List.mem_singleton.1 hm).symm

theorem rlast_snoc {ls : List RLabel} {l : RLabel} {b : BrokerId} {n x : Nat} :
    RLast (ls ++ [l]) b n x ↔
      (∃ dur t, l = .heartbeat b n dur t ∧ x = t + dur) ∨
      (RLast ls b n x ∧ ∀ n' dur' t', l ≠ .heartbeat b n' dur' t') := by
  constructor
  · rintro ⟨pre, mid, dur, t, h, hx, hk⟩
    rcases snoc_split h with ⟨rfl, rfl, rfl⟩ | ⟨mid', rfl, rfl⟩
    · exact Or.inl ⟨dur, t, rfl, hx⟩
    · refine Or.inr ⟨⟨pre, mid', dur, t, rfl, hx, ?_⟩, ?_⟩
      · intro n' d' t' hm
        exact hk n' d' t' (List.mem_append_left _ hm)
      · intro n' d' t' e
        exact hk n' d' t' (List.mem_append_right _ (List.mem_singleton.2 e.symm))
  · rintro (⟨dur, t, rfl, hx⟩ | ⟨⟨pre, mid, dur, t, rfl, hx, hk⟩, he⟩)
    · exact ⟨ls, [], dur, t, rfl, hx, by simp⟩
    · refine ⟨pre, mid ++ [l], dur, t, by simp, hx, ?_⟩
      intro n' d' t' hm
      rcases List.mem_append.1 hm with hm | hm
      · exact hk n' d' t' hm
      · exact he n' d' t' (List.mem_singleton.1 hm).symm

/-! ## Embedded -/

/-- The brokers table holds last heartbeats, and all those still good at `now`. -/
structure EHeart (now : Nat) (ls : List ELabel) (s : Emb) : Prop where
  rows : ∀ t r, s.brokers.get t = some r → ∃ b, Good b ∧ t = b.display ∧ ELast ls b r.1 r.2
  live : ∀ b n x, Good b → ELast ls b n x → now ≤ x → s.brokers.get b.display = some (n, x)

theorem elast_other {ls : List ELabel} {l : ELabel} {b : BrokerId} {n x : Nat}
    (h : ∀ b n d t, l ≠ .putBroker b n d t) : ELast (ls ++ [l]) b n x ↔ ELast ls b n x := by
  rw [elast_snoc]
  constructor
  · rintro (⟨d, t, e, _⟩ | ⟨h1, _⟩)
    · exact absurd e (h _ _ _ _)
    · exact h1
  · intro h1; exact Or.inr ⟨h1, fun _ _ _ _ => h _ _ _ _⟩

theorem eheart_other {now : Nat} {ls : List ELabel} {l : ELabel} {s s' : Emb}
    (hl : ∀ b n d t, l ≠ .putBroker b n d t) (hb : s'.brokers = s.brokers) (h : EHeart now ls s) :
    EHeart now (ls ++ [l]) s' := by
  refine ⟨?_, ?_⟩
  · intro t r hr
    rw [hb] at hr
    obtain ⟨b, h1, h2, h3⟩ := h.rows t r hr
    exact ⟨b, h1, h2, (elast_other hl).2 h3⟩
  · intro b n x hg hx hn
    rw [hb]
    exact h.live b n x hg ((elast_other hl).1 hx) hn

theorem eheart_prune {now t0 : Nat} {ls : List ELabel} {s : Emb} (h : EHeart now ls s) (ht : t0 ≤ now) :
    EHeart now ls (s.pruneBrokers t0) := by
  refine ⟨?_, ?_⟩
  · intro t r hr
    simp only [Emb.pruneBrokers, AMap.get_retain, Option.filter_eq_some_iff] at hr
    exact h.rows t r hr.1
  · intro b n x hg hx hn
    simp only [Emb.pruneBrokers, AMap.get_retain]
    rw [h.live b n x hg hx hn, Option.filter_some, if_pos]
    simp only [decide_eq_true_eq]
    omega

theorem eheart_step (global : Bool) {now : Nat} {ls : List ELabel} {l : ELabel} {s : Emb}
    (h : EHeart now ls s) (hok : l.Ok) (hb : EBefore now l) :
    EHeart now (ls ++ [l]) (s.step global l).1 := by
  cases l with
  | putBroker self num dur t0 =>
    simp only [Emb.step]
    by_cases hn : num < 2 ^ 32
    · rw [if_pos hn]
      refine ⟨?_, ?_⟩
      · intro t r hr
        simp only [Emb.putBroker, AMap.get_insert] at hr
        split at hr
        · rename_i e
          simp only [Option.some.injEq] at hr
          subst hr
          exact ⟨self, hok, e.symm, elast_snoc.2 (Or.inl ⟨dur, t0, rfl, hn, rfl⟩)⟩
        · rename_i e
          obtain ⟨b, h1, h2, h3⟩ := h.rows t r hr
          refine ⟨b, h1, h2, elast_snoc.2 (Or.inr ⟨h3, ?_⟩)⟩
          intro n' d' t' _ e'
          simp only [ELabel.putBroker.injEq] at e'
          exact e (by rw [h2, e'.1])
      · intro b n x hg hx hnow
        simp only [Emb.putBroker, AMap.get_insert]
        rcases elast_snoc.1 hx with ⟨d, t, e, h1, rfl⟩ | ⟨h1, h2⟩
        · simp only [ELabel.putBroker.injEq] at e
          obtain ⟨rfl, rfl, rfl, rfl⟩ := e
          simp
        · rw [if_neg, h.live b n x hg h1 hnow]
          intro e
          have := Good.inj hok hg e
          subst this
          exact h2 num dur t0 hn rfl
    · rw [if_neg hn]
      have hiff : ∀ b n x, ELast (ls ++ [.putBroker self num dur t0]) b n x ↔ ELast ls b n x := by
        intro b n x
        rw [elast_snoc]
        constructor
        · rintro (⟨d, t, e, h1, _⟩ | ⟨h1, _⟩)
          · simp only [ELabel.putBroker.injEq] at e
            obtain ⟨rfl, rfl, rfl, rfl⟩ := e
            exact absurd h1 hn
          · exact h1
        · intro h1
          refine Or.inr ⟨h1, ?_⟩
          intro n' d' t' hn' e
          simp only [ELabel.putBroker.injEq] at e
          obtain ⟨rfl, rfl, rfl, rfl⟩ := e
          exact hn hn'
      refine ⟨?_, ?_⟩
      · intro t r hr
        obtain ⟨b, h1, h2, h3⟩ := h.rows t r hr
        exact ⟨b, h1, h2, (hiff _ _ _).2 h3⟩
      · intro b n x hg hx hnow
        exact h.live b n x hg ((hiff _ _ _).1 hx) hnow
  | pruneBrokers t =>
    exact eheart_other (by intros; simp) rfl (eheart_prune h hb)
  | prunePermits t => exact eheart_other (s := s) (by intros; simp) rfl h
  | issue b k dur t r =>
    refine eheart_other (by intros; simp) ?_ h
    simp only [Emb.step, Emb.issue]
    split <;> rfl
  | take b p =>
    refine eheart_other (by intros; simp) ?_ h
    simp only [Emb.step, Emb.take]
    repeat' split
    all_goals rfl
  | whitelist w =>
    refine eheart_other (by intros; simp) ?_ h
    cases w with
    | drop => rfl
    | create => rfl
    | insert ks =>
      simp only [Emb.step, Emb.wstep]
      repeat' split
      all_goals rfl

theorem eheart_run (global : Bool) {now : Nat} {ls : List ELabel} (hok : ∀ l ∈ ls, l.Ok)
    (hb : ∀ l ∈ ls, EBefore now l) : EHeart now ls (Emb.new.run global ls).1 := by
  induction ls using List.reverseRecOn with
  | nil =>
    refine ⟨?_, ?_⟩
    · intro t r h; simp [Emb.run, Emb.new] at h
    · rintro b n x _ ⟨pre, mid, d, t, h, _⟩ _
      simp at h
  | append_singleton ls l ih =>
    rw [Emb.run_snoc]
    exact eheart_step global (ih (fun x hx => hok x (List.mem_append_left _ hx))
      (fun x hx => hb x (List.mem_append_left _ hx)))
      (hok l (List.mem_append_right _ (List.mem_singleton.2 rfl)))
      (hb l (List.mem_append_right _ (List.mem_singleton.2 rfl)))

theorem pruned_broker {now : Nat} {ls : List ELabel} {s : Emb} (h : EHeart now ls s) {b : BrokerId}
    (hg : Good b) {n x : Nat} :
    (s.pruneBrokers now).brokers.get b.display = some (n, x) ↔ ELast ls b n x ∧ now ≤ x := by
  constructor
  · intro hr
    simp only [Emb.pruneBrokers, AMap.get_retain, Option.filter_eq_some_iff, decide_eq_true_eq] at hr
    obtain ⟨b', h1, h2, h3⟩ := h.rows _ _ hr.1
    have := Good.inj hg h1 h2
    subst this
    exact ⟨h3, hr.2⟩
  · rintro ⟨h1, h2⟩
    exact (eheart_prune h (le_refl now)).live b n x hg h1 h2

theorem mapM_parse (ts : List Str) (h : ∀ t ∈ ts, ∃ b, Good b ∧ t = b.display) :
    ∃ l, ts.mapM BrokerId.parse = some l ∧ l.map BrokerId.display = ts ∧ ∀ b ∈ l, Good b := by
  induction ts with
  | nil => exact ⟨[], rfl, rfl, by simp⟩
  | cons t ts ih =>
    obtain ⟨b, hb, rfl⟩ := h t List.mem_cons_self
    obtain ⟨l, h1, h2, h3⟩ := ih fun x hx => h x (List.mem_cons_of_mem _ hx)
    refine ⟨b :: l, ?_, by simp [h2], ?_⟩
    · rw [List.mapM_cons, hb.parse, h1]; rfl
    · intro x hx
      rcases List.mem_cons.1 hx with rfl | hx
      · exact hb
      · exact h3 x hx

theorem elast_good {ls : List ELabel} (hok : ∀ l ∈ ls, l.Ok) {b : BrokerId} {n x : Nat}
    (h : ELast ls b n x) : Good b := by
  obtain ⟨pre, mid, d, t, rfl, _⟩ := h
  exact hok _ (List.mem_append_right _ List.mem_cons_self)

theorem rlast_good {ls : List RLabel} (hok : ∀ l ∈ ls, l.Ok) {b : BrokerId} {n x : Nat}
    (h : RLast ls b n x) : Good b := by
  obtain ⟨pre, mid, d, t, rfl, _⟩ := h
  exact hok _ (List.mem_append_right _ List.mem_cons_self)

theorem emb_others {now : Nat} {ls : List ELabel} (hok : ∀ l ∈ ls, l.Ok) {s : Emb} (h : EHeart now ls s)
    (self : BrokerId) :
    ∃ l, (s.others self now).2 = some l ∧ l.Nodup ∧
      ∀ b, b ∈ l ↔ b ≠ self ∧ ∃ n x, ELast ls b n x ∧ now ≤ x := by
  have hp := eheart_prune h (le_refl now)
  obtain ⟨l, h1, h2, h3⟩ := mapM_parse (s.pruneBrokers now).brokers.keys (by
    intro t ht
    rw [AMap.mem_keys, Option.isSome_iff_exists] at ht
    obtain ⟨r, hr⟩ := ht
    obtain ⟨b, hb, hd, _⟩ := hp.rows t r hr
    exact ⟨b, hb, hd⟩)
  refine ⟨(FSet.ofList l).elems.filter fun b => b ≠ self, ?_, (FSet.ofList l).nodup.filter _, ?_⟩
  · simp only [Emb.others, h1, Option.map_some]
  · intro b
    rw [List.mem_filter, ← FSet.mem_def, FSet.mem_ofList, decide_eq_true_eq, and_comm]
    refine and_congr_right fun _ => ?_
    constructor
    · intro hb
      have hk : b.display ∈ (s.pruneBrokers now).brokers.keys := by
        rw [← h2]; exact List.mem_map_of_mem hb
      rw [AMap.mem_keys, Option.isSome_iff_exists] at hk
      obtain ⟨⟨n, x⟩, hr⟩ := hk
      exact ⟨n, x, (pruned_broker h (h3 b hb)).1 hr⟩
    · rintro ⟨n, x, h4, h5⟩
      have hg := elast_good hok h4
      have hr := (pruned_broker h hg).2 ⟨h4, h5⟩
      have hk : b.display ∈ (s.pruneBrokers now).brokers.keys := by
        rw [AMap.mem_keys, hr]; rfl
      rw [← h2, List.mem_map] at hk
      obtain ⟨b', hb', e⟩ := hk
      rwa [← Good.inj (h3 b' hb') hg e]

theorem emb_leastLoop (s : Emb) (rs : List (Str × Nat × Nat)) (acc : Nat × Str) :
    (s.leastLoop rs acc).1 ≤ acc.1 ∧
    (∀ r ∈ rs, (s.leastLoop rs acc).1 ≤ s.countPermits r.1 + r.2.1) ∧
    (s.leastLoop rs acc = acc ∨ ∃ r ∈ rs, s.leastLoop rs acc = (s.countPermits r.1 + r.2.1, r.1)) := by
  induction rs generalizing acc with
  | nil => exact ⟨le_refl _, by simp, Or.inl rfl⟩
  | cons r rs ih =>
    simp only [Emb.leastLoop]
    obtain ⟨h1, h2, h3⟩ := ih (if s.countPermits r.1 + r.2.1 < acc.1 then (s.countPermits r.1 + r.2.1, r.1) else acc)
    by_cases hc : s.countPermits r.1 + r.2.1 < acc.1
    · simp only [if_pos hc] at h1 h2 h3 ⊢
      refine ⟨by omega, ?_, ?_⟩
      · intro r' hr'
        rcases List.mem_cons.1 hr' with rfl | hr'
        · exact h1
        · exact h2 r' hr'
      · rcases h3 with h3 | ⟨r', hr', h3⟩
        · exact Or.inr ⟨r, List.mem_cons_self, h3⟩
        · exact Or.inr ⟨r', List.mem_cons_of_mem _ hr', h3⟩
    · simp only [if_neg hc] at h1 h2 h3 ⊢
      refine ⟨h1, ?_, ?_⟩
      · intro r' hr'
        rcases List.mem_cons.1 hr' with rfl | hr'
        · omega
        · exact h2 r' hr'
      · rcases h3 with h3 | ⟨r', hr', h3⟩
        · exact Or.inl h3
        · exact Or.inr ⟨r', List.mem_cons_of_mem _ hr', h3⟩

theorem parse_nil : BrokerId.parse [] = none := by decide

/-- The permits counted for a broker: their numbers. -/
def Emb.numbers (s : Emb) (id : Str) : List Nat :=
  (s.permits.entries.filter fun e => decide (e.2.1 = id)).map Prod.fst

theorem numbers_nodup (s : Emb) (id : Str) : (s.numbers id).Nodup :=
  (s.permits.nodup).sublist ((List.filter_sublist).map _)

theorem mem_numbers {s : Emb} {id : Str} {p : Nat} :
    p ∈ s.numbers id ↔ ∃ k x, s.permits.get p = some (id, k, x) := by
  simp only [Emb.numbers, List.mem_map, List.mem_filter, decide_eq_true_eq]
  constructor
  · rintro ⟨⟨p', i, k, x⟩, ⟨h1, h2⟩, h3⟩
    simp only at h2 h3
    subst h2; subst h3
    exact ⟨k, x, AMap.mem_entries.1 h1⟩
  · rintro ⟨k, x, h⟩
    exact ⟨(p, id, k, x), ⟨AMap.mem_entries.2 h, rfl⟩, rfl⟩

theorem countPermits_eq (s : Emb) (id : Str) : s.countPermits id = (s.numbers id).length := by
  simp [Emb.countPermits, Emb.numbers]

theorem numbers_bound {global : Bool} {s : Emb} (h : s.PInv global) (id : Str) :
    (s.numbers id).length ≤ 2 ^ 32 := by
  have hs : s.numbers id ⊆ List.range (2 ^ 32) := by
    intro p hp
    obtain ⟨k, x, hk⟩ := mem_numbers.1 hp
    exact List.mem_range.2 (h p _ hk).1
  have := ((numbers_nodup s id).subperm hs).length_le
  rwa [List.length_range] at this

theorem same_length {a b : List Nat} (ha : a.Nodup) (hb : b.Nodup) (h : ∀ x, x ∈ a ↔ x ∈ b) :
    a.length = b.length :=
  Nat.le_antisymm (ha.subperm fun x hx => (h x).1 hx).length_le (hb.subperm fun x hx => (h x).2 hx).length_le

theorem emb_least {now : Nat} {ls : List ELabel} (hok : ∀ l ∈ ls, l.Ok) {s : Emb} (h : EHeart now ls s)
    (hp : s.PInv false) :
    (∀ b, (s.least now).2 = some b → ∃ n x, ELast ls b n x ∧ now ≤ x ∧
      ∀ b' n' x', ELast ls b' n' x' → now ≤ x' →
        ((s.prunePermits now).numbers b.display).length + n ≤
          ((s.prunePermits now).numbers b'.display).length + n') ∧
    ((s.least now).2 = none → ∀ b n x, ELast ls b n x → x < now) := by
  have hpr := eheart_prune h (le_refl now)
  have hpp : (s.prunePermits now).PInv false := by
    have := Emb.pinv_step false s hp (.prunePermits now) trivial
    simpa only [Emb.step] using this
  by_cases hemp : (s.pruneBrokers now).brokers.isEmpty
  · have hnone : (s.least now).2 = none := by
      simp only [Emb.least, hemp, if_true]
      have : (s.pruneBrokers now).brokers.entries = [] := by
        simpa [AMap.isEmpty] using hemp
      rw [this]
      exact parse_nil
    refine ⟨fun b hb => (by rw [hnone] at hb; cases hb), ?_⟩
    intro _ b n x hl
    by_contra hx
    have := hpr.live b n x (elast_good hok hl) hl (by omega)
    rw [AMap.isEmpty_iff] at hemp
    rw [hemp] at this
    cases this
  · -- the loop
    have hbr : ((s.pruneBrokers now).prunePermits now).brokers = (s.pruneBrokers now).brokers := rfl
    have hnum : ∀ id, ((s.pruneBrokers now).prunePermits now).countPermits id =
        ((s.prunePermits now).numbers id).length := by
      intro id; rw [countPermits_eq]; rfl
    have hL : (s.least now).2 = BrokerId.parse
        (((s.pruneBrokers now).prunePermits now).leastLoop (s.pruneBrokers now).brokers.entries
          (Emb.u64Max, [])).2 := by
      simp only [Emb.least, hemp, Bool.false_eq_true, if_false, hbr]
    obtain ⟨h1, h2, h3⟩ := emb_leastLoop ((s.pruneBrokers now).prunePermits now)
      (s.pruneBrokers now).brokers.entries (Emb.u64Max, [])
    generalize hres : ((s.pruneBrokers now).prunePermits now).leastLoop (s.pruneBrokers now).brokers.entries
          (Emb.u64Max, []) = res at *
    -- every row comes from a last heartbeat
    have hrow : ∀ r ∈ (s.pruneBrokers now).brokers.entries, ∃ b, Good b ∧ r.1 = b.display ∧
        ELast ls b r.2.1 r.2.2 ∧ now ≤ r.2.2 := by
      rintro ⟨t, n, x⟩ hr
      rw [AMap.mem_entries] at hr
      obtain ⟨b, hb, rfl, h4⟩ := hpr.rows _ _ hr
      exact ⟨b, hb, rfl, h4, ((pruned_broker h hb).1 hr).2⟩
    have hsome : ∃ r ∈ (s.pruneBrokers now).brokers.entries,
        res = (((s.pruneBrokers now).prunePermits now).countPermits r.1 + r.2.1, r.1) := by
      rcases h3 with h3 | h3
      · exfalso
        have hne : (s.pruneBrokers now).brokers.entries ≠ [] := by
          intro e; exact hemp (by simp [AMap.isEmpty, e])
        obtain ⟨r, hr⟩ := List.exists_mem_of_ne_nil _ hne
        have h5 := h2 r hr
        obtain ⟨b, hb, e, ⟨_, _, _, _, _, hlt, _⟩, _⟩ := hrow r hr
        rw [h3, hnum] at h5
        have := numbers_bound hpp r.1
        simp only [Emb.u64Max] at h5
        omega
      · exact h3
    obtain ⟨r, hr, hres'⟩ := hsome
    obtain ⟨b, hb, e, hl, hx⟩ := hrow r hr
    have hLb : (s.least now).2 = some b := by
      rw [hL, hres', e]; exact hb.parse
    refine ⟨?_, fun hn => by rw [hLb] at hn; cases hn⟩
    intro b1 hb1
    rw [hLb] at hb1
    simp only [Option.some.injEq] at hb1
    subst hb1
    refine ⟨r.2.1, r.2.2, hl, hx, ?_⟩
    intro b' n' x' hl' hx'
    have hg' := elast_good hok hl'
    have hr' := AMap.mem_entries.2 ((pruned_broker h hg').2 ⟨hl', hx'⟩)
    have := h2 _ hr'
    rw [hres', hnum, hnum] at this
    simp only [e] at this
    exact this

/-! ## Redis -/

structure RHeart (now : Nat) (ls : List RLabel) (s : Redis) : Prop where
  rows : ∀ t x, s.brokers.get t = some x → ∃ b n, Good b ∧ t = b.display ∧ RLast ls b n x
  live : ∀ b n x, Good b → RLast ls b n x → now ≤ x →
    s.brokers.get b.display = some x ∧ s.kv.get (Redis.numKey b.display) = some (.num n, x)

theorem rlast_other {ls : List RLabel} {l : RLabel} {b : BrokerId} {n x : Nat}
    (h : ∀ b n d t, l ≠ .heartbeat b n d t) : RLast (ls ++ [l]) b n x ↔ RLast ls b n x := by
  rw [rlast_snoc]
  constructor
  · rintro (⟨d, t, e, _⟩ | ⟨h1, _⟩)
    · exact absurd e (h _ _ _ _)
    · exact h1
  · intro h1; exact Or.inr ⟨h1, fun _ _ _ => h _ _ _ _⟩

theorem rheart_expire {now t0 : Nat} {ls : List RLabel} {s : Redis} (h : RHeart now ls s) (ht : t0 ≤ now) :
    RHeart now ls (s.expire t0) := by
  refine ⟨?_, ?_⟩
  · intro t r hr
    simp only [Redis.expire, AMap.get_retain, Option.filter_eq_some_iff] at hr
    exact h.rows t r hr.1
  · intro b n x hg hx hn
    obtain ⟨h1, h2⟩ := h.live b n x hg hx hn
    simp only [Redis.expire, AMap.get_retain]
    rw [h1, h2, Option.filter_some, Option.filter_some, if_pos, if_pos]
    · exact ⟨rfl, rfl⟩
    all_goals
      simp only [decide_eq_true_eq]
      omega

theorem rheart_other {now : Nat} {ls : List RLabel} {l : RLabel} {s s' : Redis}
    (hl : ∀ b n d t, l ≠ .heartbeat b n d t) (hb : s'.brokers = s.brokers)
    (hk : ∀ b, Good b → s'.kv.get (Redis.numKey b.display) = s.kv.get (Redis.numKey b.display))
    (h : RHeart now ls s) : RHeart now (ls ++ [l]) s' := by
  refine ⟨?_, ?_⟩
  · intro t r hr
    rw [hb] at hr
    obtain ⟨b, n, h1, h2, h3⟩ := h.rows t r hr
    exact ⟨b, n, h1, h2, (rlast_other hl).2 h3⟩
  · intro b n x hg hx hn
    rw [hb, hk b hg]
    exact h.live b n x hg ((rlast_other hl).1 hx) hn

theorem rheart_step (global : Bool) {now : Nat} {ls : List RLabel} {l : RLabel} {s : Redis}
    (h : RHeart now ls s) (hok : l.Ok) (hb : RBefore now l) :
    RHeart now (ls ++ [l]) (s.step global l).1 := by
  cases l with
  | heartbeat self num dur t0 =>
    have h' := rheart_expire h hb
    simp only [Redis.step, Redis.heartbeat]
    refine ⟨?_, ?_⟩
    · intro t r hr
      simp only [AMap.get_insert] at hr
      split at hr
      · rename_i e
        simp only [Option.some.injEq] at hr
        subst hr
        exact ⟨self, num, hok, e.symm, rlast_snoc.2 (Or.inl ⟨dur, t0, rfl, rfl⟩)⟩
      · rename_i e
        obtain ⟨b, n, h1, h2, h3⟩ := h'.rows t r hr
        refine ⟨b, n, h1, h2, rlast_snoc.2 (Or.inr ⟨h3, ?_⟩)⟩
        intro n' d' t' e'
        simp only [RLabel.heartbeat.injEq] at e'
        exact e (by rw [h2, e'.1])
    · intro b n x hg hx hnow
      simp only [AMap.get_insert]
      rcases rlast_snoc.1 hx with ⟨d, t, e, rfl⟩ | ⟨h1, h2⟩
      · simp only [RLabel.heartbeat.injEq] at e
        obtain ⟨rfl, rfl, rfl, rfl⟩ := e
        simp
      · have hne : self ≠ b := by
          rintro rfl
          exact h2 num dur t0 rfl
        rw [if_neg (fun e => hne (Good.inj hok hg e)), if_neg (fun e => hne (numKey_inj hok hg e))]
        exact h'.live b n x hg h1 hnow
  | expire t => exact rheart_other (by intros; simp) rfl (fun _ _ => rfl) (rheart_expire h hb)
  | issue b k dur t r =>
    refine rheart_other (s := s.expire t) (by intros; simp) rfl ?_ (rheart_expire h hb)
    intro b' hb'
    simp only [Redis.step, Redis.issue, AMap.get_insert]
    rw [if_neg (fun e => numKey_ne_permitKey hb' hok _ e.symm)]
  | validate b p t =>
    refine rheart_other (s := s.expire t) (by intros; simp) ?_ ?_ (rheart_expire h hb)
    · simp only [Redis.step, Redis.validate]
      split <;> rfl
    · intro b' hb'
      simp only [Redis.step, Redis.validate]
      split
      · simp only [AMap.get_erase]
        rw [if_neg (fun e => numKey_ne_permitKey hb' hok _ e.symm)]
      · simp only [AMap.get_erase]
        rw [if_neg (fun e => numKey_ne_permitKey hb' hok _ e.symm)]
      · rfl
  | setWhitelist ks => exact rheart_other (s := s) (by intros; simp) rfl (fun _ _ => rfl) h

theorem rheart_run (global : Bool) {now : Nat} {ls : List RLabel} (hok : ∀ l ∈ ls, l.Ok)
    (hb : ∀ l ∈ ls, RBefore now l) : RHeart now ls (Redis.new.run global ls).1 := by
  induction ls using List.reverseRecOn with
  | nil =>
    refine ⟨?_, ?_⟩
    · intro t r h; simp [Redis.run, Redis.new] at h
    · rintro b n x _ ⟨pre, mid, d, t, h, _⟩ _
      simp at h
  | append_singleton ls l ih =>
    rw [Redis.run_snoc]
    exact rheart_step global (ih (fun x hx => hok x (List.mem_append_left _ hx))
      (fun x hx => hb x (List.mem_append_left _ hx)))
      (hok l (List.mem_append_right _ (List.mem_singleton.2 rfl)))
      (hb l (List.mem_append_right _ (List.mem_singleton.2 rfl)))

theorem expired_broker {now : Nat} {ls : List RLabel} {s : Redis} (h : RHeart now ls s) {t : Str} {x : Nat}
    (hr : (s.expire now).brokers.get t = some x) :
    ∃ b n, Good b ∧ t = b.display ∧ RLast ls b n x ∧ now ≤ x := by
  simp only [Redis.expire, AMap.get_retain, Option.filter_eq_some_iff, decide_eq_true_eq] at hr
  obtain ⟨b, n, h1, h2, h3⟩ := h.rows _ _ hr.1
  exact ⟨b, n, h1, h2, h3, hr.2⟩

theorem redis_others {now : Nat} {ls : List RLabel} (hok : ∀ l ∈ ls, l.Ok) {s : Redis} (h : RHeart now ls s)
    (self : BrokerId) (hself : Good self) :
    ∃ l, s.others self now = some l ∧ l.Nodup ∧
      ∀ b, b ∈ l ↔ b ≠ self ∧ ∃ n x, RLast ls b n x ∧ now ≤ x := by
  have hp := rheart_expire h (le_refl now)
  obtain ⟨l, h1, h2, h3⟩ := mapM_parse ((s.expire now).brokers.keys.filter fun t => t ≠ self.display) (by
    intro t ht
    have ht := (List.mem_filter.1 ht).1
    rw [AMap.mem_keys, Option.isSome_iff_exists] at ht
    obtain ⟨r, hr⟩ := ht
    obtain ⟨b, n, hb, hd, _⟩ := hp.rows t r hr
    exact ⟨b, hb, hd⟩)
  refine ⟨(FSet.ofList l).elems, ?_, (FSet.ofList l).nodup, ?_⟩
  · simp only [Redis.others, h1, Option.map_some]
  · intro b
    rw [← FSet.mem_def, FSet.mem_ofList]
    constructor
    · intro hb
      have hk : b.display ∈ (s.expire now).brokers.keys.filter fun t => t ≠ self.display := by
        rw [← h2]; exact List.mem_map_of_mem hb
      rw [List.mem_filter, decide_eq_true_eq, AMap.mem_keys, Option.isSome_iff_exists] at hk
      obtain ⟨⟨x, hr⟩, hne⟩ := hk
      obtain ⟨b', n, hb', e, h4, h5⟩ := expired_broker h hr
      have := Good.inj (h3 b hb) hb' e
      subst this
      exact ⟨fun e => hne (by rw [e]), n, x, h4, h5⟩
    · rintro ⟨hne, n, x, h4, h5⟩
      have hg := rlast_good hok h4
      have hr := (hp.live b n x hg h4 h5).1
      have hk : b.display ∈ (s.expire now).brokers.keys.filter fun t => t ≠ self.display := by
        rw [List.mem_filter, decide_eq_true_eq, AMap.mem_keys, hr]
        exact ⟨rfl, fun e => hne (Good.inj hg hself e)⟩
      rw [← h2, List.mem_map] at hk
      obtain ⟨b', hb', e⟩ := hk
      rwa [← Good.inj (h3 b' hb') hg e]

theorem redis_leastLoop (s : Redis) (f : Str → Nat) (ts : List Str)
    (hf : ∀ t ∈ ts, s.getNum (Redis.numKey t) = some (f t) ∧ s.scard (Redis.permitsKey t) = some 0 ∧
      f t < 2 ^ 64 - 1) (acc : Nat × Str) :
    ∃ r, s.leastLoop ts acc = some r ∧ r.1 ≤ acc.1 ∧ (∀ t ∈ ts, r.1 ≤ f t) ∧
      (r = acc ∨ ∃ t ∈ ts, r = (f t, t)) := by
  induction ts generalizing acc with
  | nil => exact ⟨acc, rfl, le_refl _, by simp, Or.inl rfl⟩
  | cons t ts ih =>
    obtain ⟨hn, hc, hlt⟩ := hf t List.mem_cons_self
    simp only [Redis.leastLoop, hn, hc, Nat.zero_add]
    have hm : f t % 2 ^ 64 = f t := Nat.mod_eq_of_lt (by omega)
    rw [hm]
    obtain ⟨r, h0, h1, h2, h3⟩ := ih (fun x hx => hf x (List.mem_cons_of_mem _ hx))
      (if f t < acc.1 then (f t, t) else acc)
    refine ⟨r, h0, ?_⟩
    by_cases hcc : f t < acc.1
    · simp only [if_pos hcc] at h1 h3
      refine ⟨by omega, ?_, ?_⟩
      · intro t' ht'
        rcases List.mem_cons.1 ht' with rfl | ht'
        · exact h1
        · exact h2 t' ht'
      · rcases h3 with h3 | ⟨t', ht', h3⟩
        · exact Or.inr ⟨t, List.mem_cons_self, h3⟩
        · exact Or.inr ⟨t', List.mem_cons_of_mem _ ht', h3⟩
    · simp only [if_neg hcc] at h1 h3
      refine ⟨h1, ?_, ?_⟩
      · intro t' ht'
        rcases List.mem_cons.1 ht' with rfl | ht'
        · omega
        · exact h2 t' ht'
      · rcases h3 with h3 | ⟨t', ht', h3⟩
        · exact Or.inl h3
        · exact Or.inr ⟨t', List.mem_cons_of_mem _ ht', h3⟩

theorem rlast_unique {now : Nat} {ls : List RLabel} {s : Redis} (h : RHeart now ls s) {b : BrokerId}
    (hg : Good b) {n n' x x' : Nat} (h1 : RLast ls b n x) (h2 : RLast ls b n' x') (hx : now ≤ x)
    (hx' : now ≤ x') : n = n' ∧ x = x' := by
  have e1 := (h.live b n x hg h1 hx).2
  have e2 := (h.live b n' x' hg h2 hx').2
  rw [e1] at e2
  simpa using e2

theorem redis_least {global : Bool} {now : Nat} {ls : List RLabel} (hok : ∀ l ∈ ls, l.Ok) {s : Redis}
    (h : RHeart now ls s) (hk : s.KInv global)
    (hbig : ∀ b n x, RLast ls b n x → n < 2 ^ 64 - 1) :
    (∀ b, s.least now = some b → ∃ n x, RLast ls b n x ∧ now ≤ x ∧
      ∀ b' n' x', RLast ls b' n' x' → now ≤ x' → n ≤ n') ∧
    (s.least now = none → ∀ b n x, RLast ls b n x → x < now) := by
  have hpr := rheart_expire h (le_refl now)
  have hke := Redis.kinv_expire global s hk now
  have hkey : ∀ t ∈ (s.expire now).brokers.keys, ∃ b n x, Good b ∧ t = b.display ∧ RLast ls b n x ∧ now ≤ x := by
    intro t ht
    rw [AMap.mem_keys, Option.isSome_iff_exists] at ht
    obtain ⟨x, hr⟩ := ht
    obtain ⟨b, n, h1, h2, h3, h4⟩ := expired_broker h hr
    exact ⟨b, n, x, h1, h2, h3, h4⟩
  by_cases hemp : (s.expire now).brokers.keys.isEmpty
  · have hnone : s.least now = none := by
      simp only [Redis.least, hemp, if_true]
    refine ⟨fun b hb => (by rw [hnone] at hb; cases hb), ?_⟩
    intro _ b n x hl
    by_contra hx
    have := (hpr.live b n x (rlast_good hok hl) hl (by omega)).1
    have hm : b.display ∈ (s.expire now).brokers.keys := by rw [AMap.mem_keys, this]; rfl
    rw [List.isEmpty_iff] at hemp
    rw [hemp] at hm
    cases hm
  · have hscard : ∀ b, Good b → (s.expire now).scard (Redis.permitsKey b.display) = some 0 := by
      intro b hb
      unfold Redis.scard
      cases hv : (s.expire now).kv.get (Redis.permitsKey b.display) with
      | none => rfl
      | some r =>
        exfalso
        obtain ⟨v, e⟩ := r
        cases v with
        | num n =>
          obtain ⟨b', hb', e'⟩ := hke.1 _ _ _ hv
          exact permitsKey_ne_numKey hb hb' e'
        | key k =>
          obtain ⟨b', p, hb', e'⟩ := hke.2 _ _ _ hv
          exact permitsKey_ne_permitKey hb hb' p e'
    let f : Str → Nat := fun t => ((s.expire now).getNum (Redis.numKey t)).getD 0
    have hfb : ∀ b n x, RLast ls b n x → now ≤ x →
        (s.expire now).getNum (Redis.numKey b.display) = some n := by
      intro b n x hl hx
      have := (hpr.live b n x (rlast_good hok hl) hl hx).2
      simp only [Redis.getNum, this]
    have hff : ∀ b n x, RLast ls b n x → now ≤ x → f b.display = n := by
      intro b n x hl hx
      show ((s.expire now).getNum (Redis.numKey b.display)).getD 0 = n
      rw [hfb b n x hl hx]; rfl
    have hf : ∀ t ∈ (s.expire now).brokers.keys, (s.expire now).getNum (Redis.numKey t) = some (f t) ∧
        (s.expire now).scard (Redis.permitsKey t) = some 0 ∧ f t < 2 ^ 64 - 1 := by
      intro t ht
      obtain ⟨b, n, x, h1, rfl, h3, h4⟩ := hkey t ht
      rw [hff b n x h3 h4]
      exact ⟨hfb b n x h3 h4, hscard b h1, hbig b n x h3⟩
    obtain ⟨r, hr0, hr1, hr2, hr3⟩ := redis_leastLoop (s.expire now) f _ hf (Emb.u64Max, [])
    have hL : s.least now = BrokerId.parse r.2 := by
      simp only [Redis.least, hemp, Bool.false_eq_true, if_false, hr0]
    have hsome : ∃ t ∈ (s.expire now).brokers.keys, r = (f t, t) := by
      rcases hr3 with hr3 | hr3
      · exfalso
        have hne : (s.expire now).brokers.keys ≠ [] := by
          intro e; exact hemp (by rw [e]; rfl)
        obtain ⟨t, ht⟩ := List.exists_mem_of_ne_nil _ hne
        have h5 := hr2 t ht
        have h6 := (hf t ht).2.2
        rw [hr3] at h5
        simp only [Emb.u64Max] at h5
        omega
      · exact hr3
    obtain ⟨t, ht, hrt⟩ := hsome
    obtain ⟨b, n, x, hb, rfl, hl, hx⟩ := hkey t ht
    have hLb : s.least now = some b := by
      rw [hL, hrt]; exact hb.parse
    refine ⟨?_, fun hn => by rw [hLb] at hn; cases hn⟩
    intro b1 hb1
    rw [hLb] at hb1
    simp only [Option.some.injEq] at hb1
    subst hb1
    refine ⟨n, x, hl, hx, ?_⟩
    intro b' n' x' hl' hx'
    have hg' := rlast_good hok hl'
    have hm : b'.display ∈ (s.expire now).brokers.keys := by
      rw [AMap.mem_keys, (hpr.live b' n' x' hg' hl' hx').1]; rfl
    have h5 := hr2 _ hm
    rw [hrt, hff b' n' x' hl' hx'] at h5
    simp only [hff b n x hl hx] at h5
    exact h5

/-- The call names a broker whenever a heartbeat is still good at `now`, also if asked with an earlier
clock value. -/
theorem emb_least_some {global : Bool} {t now : Nat} {ls : List ELabel} (hok : ∀ l ∈ ls, l.Ok) {s : Emb}
    (h : EHeart now ls s) (hp : s.PInv global) (ht : t ≤ now) {b : BrokerId} {n x : Nat}
    (hl : ELast ls b n x) (hx : now ≤ x) : ∃ b', Good b' ∧ (s.least t).2 = some b' := by
  have hpr := eheart_prune h ht
  have hpp : (s.prunePermits t).PInv global := by
    have := Emb.pinv_step global s hp (.prunePermits t) trivial
    simpa only [Emb.step] using this
  have hrow0 := hpr.live b n x (elast_good hok hl) hl hx
  have hemp : (s.pruneBrokers t).brokers.isEmpty = false := by
    cases he : (s.pruneBrokers t).brokers.isEmpty with
    | false => rfl
    | true => rw [AMap.isEmpty_iff] at he; rw [he] at hrow0; cases hrow0
  have hbr : ((s.pruneBrokers t).prunePermits t).brokers = (s.pruneBrokers t).brokers := rfl
  have hnum : ∀ id, ((s.pruneBrokers t).prunePermits t).countPermits id =
      ((s.prunePermits t).numbers id).length := by
    intro id; rw [countPermits_eq]; rfl
  have hL : (s.least t).2 = BrokerId.parse
      (((s.pruneBrokers t).prunePermits t).leastLoop (s.pruneBrokers t).brokers.entries
        (Emb.u64Max, [])).2 := by
    simp only [Emb.least, hemp, Bool.false_eq_true, if_false, hbr]
  obtain ⟨h1, h2, h3⟩ := emb_leastLoop ((s.pruneBrokers t).prunePermits t)
    (s.pruneBrokers t).brokers.entries (Emb.u64Max, [])
  generalize hres : ((s.pruneBrokers t).prunePermits t).leastLoop (s.pruneBrokers t).brokers.entries
        (Emb.u64Max, []) = res at *
  rcases h3 with h3 | ⟨r, hr, h3⟩
  · exfalso
    have hr : (b.display, n, x) ∈ (s.pruneBrokers t).brokers.entries := AMap.mem_entries.2 hrow0
    have h5 := h2 _ hr
    obtain ⟨_, _, _, _, _, hlt, _⟩ := hl
    rw [h3, hnum] at h5
    have := numbers_bound hpp b.display
    simp only [Emb.u64Max] at h5
    omega
  · obtain ⟨t', r⟩ := r
    obtain ⟨b', hb', e, -⟩ := hpr.rows _ _ (AMap.mem_entries.1 hr)
    refine ⟨b', hb', ?_⟩
    rw [hL, h3]
    simp only at e ⊢
    rw [e]; exact hb'.parse

end Verif.Disc

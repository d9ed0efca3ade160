import Verif.Model.Updating
import Verif.Props.Discovery

/-!
# Property C113: setting the whitelist from several processes at once
-/

namespace Verif.Props.Updating
open Verif Verif.Disc

/-! ## Invariant -/

/-- The keys of `w` are those of the calls in `I`, all of which have succeeded, and which have no key in common. -/
structure Made (calls I : List WCall) (w : FSet Bytes) : Prop where
  mem : ∀ c ∈ I, c ∈ calls ∧ c.phase = .returned true
  keys : ∀ k, k ∈ w ↔ ∃ c ∈ I, k ∈ c.ks
  apart : I.Pairwise (fun c c' => ∀ k ∈ c.ks, k ∉ c'.ks)

/-- Somebody has executed the first statement and not yet the last. -/
def Busy (calls : List WCall) : Prop := ∃ c ∈ calls, c.phase = .create ∨ c.phase = .insert

structure Inv (n : WNet) : Prop where
  gone : n.s.whitelist = none → (∀ c ∈ n.calls, c.phase = .drop) ∨ ∃ c ∈ n.calls, c.phase = .create
  there : ∀ w, n.s.whitelist = some w → (∀ c ∈ n.calls, c.phase = .drop) ∨
    ∃ I, Made n.calls I w ∧ (I ≠ [] ∨ Busy n.calls)

/-- The lists are good enough for `INSERT`. -/
def Sane (ks : List Bytes) : Prop := ks ≠ [] ∧ ks.Nodup ∧ ks.length ≤ Emb.maxVars

theorem made_set {calls I : List WCall} {w : FSet Bytes} {i : Nat} {c c' : WCall} (h : Made calls I w)
    (hi : calls[i]? = some c) (hc : c.phase ≠ .returned true) : Made (calls.set i c') I w := by
  refine ⟨fun d hd => ?_, h.keys, h.apart⟩
  obtain ⟨h1, h2⟩ := h.mem d hd
  refine ⟨?_, h2⟩
  obtain ⟨j, hj⟩ := List.mem_iff_getElem?.1 h1
  apply List.mem_iff_getElem?.2
  refine ⟨j, ?_⟩
  rw [List.getElem?_set]
  split
  · rename_i e; subst e
    rw [hi] at hj; cases hj; exact absurd h2 hc
  · exact hj

theorem mem_set_self {calls : List WCall} {i : Nat} {c c' : WCall} (hi : calls[i]? = some c) :
    c' ∈ calls.set i c' :=
  List.mem_iff_getElem?.2 ⟨i, List.getElem?_set_self (List.getElem?_eq_some_iff.1 hi).1⟩

theorem other_whitelist (global : Bool) (s : Emb) (l : ELabel) (hl : l.setsWhitelist = false) :
    (s.step global l).1.whitelist = s.whitelist := by
  cases l with
  | whitelist w => cases hl
  | putBroker self num dur now => simp only [Emb.step]; split <;> rfl
  | pruneBrokers now => rfl
  | prunePermits now => rfl
  | issue b k dur now r => simp only [Emb.step, Emb.issue]; repeat' split
                           all_goals rfl
  | take b p => simp only [Emb.step, Emb.take]; repeat' split
                all_goals rfl

theorem inv_step (global : Bool) {n : WNet} (h : Inv n) (l : WLabel)
    (hs : ∀ c ∈ n.calls, Sane c.ks) : Inv (n.step global l) := by
  cases l with
  | call ks =>
    refine ⟨fun hw => ?_, fun w hw => ?_⟩
    · rcases h.gone hw with h1 | ⟨c, h1, h2⟩
      · left; intro c hc
        rcases List.mem_append.1 hc with hc | hc
        · exact h1 c hc
        · cases List.mem_singleton.1 hc; rfl
      · exact Or.inr ⟨c, List.mem_append_left _ h1, h2⟩
    · rcases h.there w hw with h1 | ⟨I, h1, h2⟩
      · left; intro c hc
        rcases List.mem_append.1 hc with hc | hc
        · exact h1 c hc
        · cases List.mem_singleton.1 hc; rfl
      · refine Or.inr ⟨I, ⟨fun d hd => ⟨List.mem_append_left _ (h1.mem d hd).1, (h1.mem d hd).2⟩, h1.keys, h1.apart⟩, ?_⟩
        rcases h2 with h2 | ⟨c, h2, h3⟩
        · exact Or.inl h2
        · exact Or.inr ⟨c, List.mem_append_left _ h2, h3⟩
  | other l =>
    simp only [WNet.step]
    split
    · exact h
    · rename_i hl
      have hw := other_whitelist global n.s l (by simpa using hl)
      exact ⟨fun h1 => h.gone (hw ▸ h1), fun w h1 => h.there w (hw ▸ h1)⟩
  | stmt i =>
    simp only [WNet.step]
    split
    · rename_i ks hi
      refine ⟨fun _ => Or.inr ⟨_, mem_set_self hi, rfl⟩, fun w hw => ?_⟩
      simp [Emb.wstep] at hw
    · rename_i ks hi
      refine ⟨fun hw => by simp [Emb.wstep] at hw, fun w hw => Or.inr ?_⟩
      simp only [Emb.wstep, Option.some.injEq] at hw
      have hmem : (⟨ks, .create⟩ : WCall) ∈ n.calls := List.mem_iff_getElem?.2 ⟨i, hi⟩
      cases hold : n.s.whitelist with
      | none =>
        rw [hold] at hw; subst hw
        exact ⟨[], ⟨by simp, by simp, List.Pairwise.nil⟩, Or.inr ⟨_, mem_set_self hi, Or.inr rfl⟩⟩
      | some w' =>
        rw [hold] at hw; cases hw
        rcases h.there _ hold with h1 | ⟨I, h1, _⟩
        · exact absurd (h1 _ hmem) (by simp)
        · exact ⟨I, made_set h1 hi (by simp), Or.inr ⟨_, mem_set_self hi, Or.inr rfl⟩⟩
    · rename_i ks hi
      have hmem : (⟨ks, .insert⟩ : WCall) ∈ n.calls := List.mem_iff_getElem?.2 ⟨i, hi⟩
      obtain ⟨s1, s2, s3⟩ := hs _ hmem
      cases hold : n.s.whitelist with
      | none =>
        have e : n.s.wstep (.insert ks) = (n.s, false) := by simp [Emb.wstep, hold]
        rw [e]
        refine ⟨fun _ => Or.inr ?_, fun w hw => by rw [hold] at hw; cases hw⟩
        rcases h.gone hold with h1 | ⟨c, h1, h2⟩
        · exact absurd (h1 _ hmem) (by simp)
        · obtain ⟨j, hj⟩ := List.mem_iff_getElem?.1 h1
          refine ⟨c, List.mem_iff_getElem?.2 ⟨j, ?_⟩, h2⟩
          rw [List.getElem?_set]
          split
          · rename_i e'; subst e'; rw [hi] at hj; cases hj; cases h2
          · exact hj
      | some w =>
        rcases h.there _ hold with h1 | ⟨I, h1, h2⟩
        · exact absurd (h1 _ hmem) (by simp)
        by_cases hnew : ∀ k ∈ ks, k ∉ w
        · have e : n.s.wstep (.insert ks) = ({ n.s with whitelist := some (w.insertMany ks) }, true) := by
            simp only [Emb.wstep, hold]
            rw [if_pos ⟨s1, s3, s2, hnew⟩]
          rw [e]
          refine ⟨fun hw => by simp at hw, fun w' hw => Or.inr ⟨⟨ks, .returned true⟩ :: I, ⟨?_, ?_, ?_⟩, Or.inl (by simp)⟩⟩
          · intro d hd
            rcases List.mem_cons.1 hd with rfl | hd
            · exact ⟨mem_set_self hi, rfl⟩
            · exact (made_set h1 hi (by simp)).mem d hd
          · intro k
            simp only [Option.some.injEq] at hw
            subst hw
            rw [FSet.mem_insertMany, h1.keys k]
            simp only [List.mem_cons, exists_eq_or_imp]
          · refine List.pairwise_cons.2 ⟨fun d hd k hk hk' => hnew k hk ((h1.keys k).2 ⟨d, hd, hk'⟩), h1.apart⟩
        · have e : n.s.wstep (.insert ks) = (n.s, false) := by
            simp only [Emb.wstep, hold]
            rw [if_neg (fun hh => hnew hh.2.2.2)]
          rw [e]
          refine ⟨fun hw => (by rw [hold] at hw; cases hw), fun w' hw => Or.inr ?_⟩
          rw [hold] at hw; cases hw
          refine ⟨I, made_set h1 hi (by simp), Or.inl ?_⟩
          rintro rfl
          apply hnew
          intro k _ hk
          obtain ⟨c, hc, _⟩ := (h1.keys k).1 hk
          exact (nomatch hc)
    · exact h

/-- The keys of all calls are those given. -/
theorem calls_ks (global : Bool) (n : WNet) (l : WLabel) (c : WCall) (hc : c ∈ (n.step global l).calls) :
    (∃ c' ∈ n.calls, c'.ks = c.ks) ∨ l = .call c.ks := by
  cases l with
  | call ks =>
    rcases List.mem_append.1 hc with hc | hc
    · exact Or.inl ⟨c, hc, rfl⟩
    · cases List.mem_singleton.1 hc; exact Or.inr rfl
  | other l =>
    simp only [WNet.step] at hc
    split at hc <;> exact Or.inl ⟨c, hc, rfl⟩
  | stmt i =>
    left
    simp only [WNet.step] at hc
    have key : ∀ (d d' : WCall), n.calls[i]? = some d → d'.ks = d.ks → c ∈ n.calls.set i d' →
        ∃ c' ∈ n.calls, c'.ks = c.ks := by
      intro d d' hd he hc
      rcases List.mem_or_eq_of_mem_set hc with hc | rfl
      · exact ⟨c, hc, rfl⟩
      · exact ⟨d, List.mem_iff_getElem?.2 ⟨i, hd⟩, he.symm⟩
    split at hc
    · rename_i ks hi; exact key _ ⟨ks, .create⟩ hi rfl hc
    · rename_i ks hi; exact key _ ⟨ks, .insert⟩ hi rfl hc
    · rename_i ks hi; exact key _ ⟨ks, .returned _⟩ hi rfl hc
    · exact ⟨c, hc, rfl⟩

theorem inv_run (global : Bool) (ls : List WLabel) (n : WNet) (h : Inv n) (hs : ∀ c ∈ n.calls, Sane c.ks)
    (hl : ∀ ks, WLabel.call ks ∈ ls → Sane ks) :
    Inv (n.run global ls) ∧ ∀ c ∈ (n.run global ls).calls, (∃ c' ∈ n.calls, c'.ks = c.ks) ∨ .call c.ks ∈ ls := by
  induction ls generalizing n with
  | nil => exact ⟨h, fun c hc => Or.inl ⟨c, hc, rfl⟩⟩
  | cons l ls ih =>
    obtain ⟨h1, h2⟩ := ih (n.step global l) (inv_step global h l hs) (fun c hc => by
        rcases calls_ks global n l c hc with ⟨c', h1, h2⟩ | h1
        · exact h2 ▸ hs c' h1
        · exact hl _ (by rw [← h1]; exact List.mem_cons_self))
      (fun ks hk => hl ks (List.mem_cons_of_mem _ hk))
    refine ⟨h1, fun c hc => ?_⟩
    rcases h2 c hc with ⟨c', h3, h4⟩ | h3
    · rcases calls_ks global n l c' h3 with ⟨c'', h5, h6⟩ | h5
      · exact Or.inl ⟨c'', h5, h6.trans h4⟩
      · exact Or.inr (by rw [← h4, ← h5]; exact List.mem_cons_self)
    · exact Or.inr (List.mem_cons_of_mem _ h3)

/-! ## C113 -/

/-- **C113 on SQLite, what holds.** A store in any state; any number of processes call `set_whitelist` at any
moments, with lists that are not empty, have no repeated key and are not too long for a statement; the
statements of the calls interleave in any way, with anything else done with the store in between.
When all calls have returned, the whitelist is the union of the lists of one or more of the calls, each of which
was told that it had succeeded, and no two of which had a key in common. -/
theorem C113_union_partial (global : Bool) (s : Emb) (ls : List WLabel)
    (hl : ∀ ks, WLabel.call ks ∈ ls → ks ≠ [] ∧ ks.Nodup ∧ ks.length ≤ 32766)
    (n : WNet) (hn : n = WNet.run global ⟨s, []⟩ ls)
    (hcalled : n.calls ≠ []) (hret : ∀ c ∈ n.calls, ∃ ok, c.phase = .returned ok) :
    ∃ I : List WCall, I ≠ [] ∧ (∀ c ∈ I, c ∈ n.calls ∧ c.phase = .returned true) ∧
      I.Pairwise (fun c c' => ∀ k ∈ c.ks, k ∉ c'.ks) ∧
      ∀ k, n.s.checkWhitelist k = true ↔ ∃ c ∈ I, k ∈ c.ks := by
  obtain ⟨h, _⟩ := inv_run global ls ⟨s, []⟩ ⟨fun _ => Or.inl (by simp), fun _ _ => Or.inl (by simp)⟩ (by simp) hl
  rw [← hn] at h
  have hnot : ∀ c ∈ n.calls, c.phase ≠ .drop ∧ c.phase ≠ .create ∧ c.phase ≠ .insert := by
    intro c hc
    obtain ⟨ok, e⟩ := hret c hc
    rw [e]; simp
  obtain ⟨c0, hc0⟩ := List.exists_mem_of_ne_nil _ hcalled
  cases hw : n.s.whitelist with
  | none =>
    exfalso
    rcases h.gone hw with h1 | ⟨c, h1, h2⟩
    · exact (hnot c0 hc0).1 (h1 c0 hc0)
    · exact (hnot c h1).2.1 h2
  | some w =>
    rcases h.there w hw with h1 | ⟨I, h1, h2⟩
    · exact absurd (h1 c0 hc0) (hnot c0 hc0).1
    · refine ⟨I, ?_, h1.mem, h1.apart, fun k => ?_⟩
      · rcases h2 with h2 | ⟨c, h3, h4 | h4⟩
        · exact h2
        · exact absurd h4 (hnot c h3).2.1
        · exact absurd h4 (hnot c h3).2.2
      · simp only [Emb.checkWhitelist, hw, decide_eq_true_eq]
        exact h1.keys k

/-- **C113 on SQLite, what holds**: if moreover any two of the lists have a key in common (for instance, that of the
operators), then when all calls have returned, the whitelist is exactly the list of one of them, and that one was told
that it had succeeded. -/
theorem C113_one_list_partial (global : Bool) (s : Emb) (ls : List WLabel)
    (hl : ∀ ks, WLabel.call ks ∈ ls → ks ≠ [] ∧ ks.Nodup ∧ ks.length ≤ 32766)
    (hcommon : ∀ ks ks', WLabel.call ks ∈ ls → WLabel.call ks' ∈ ls → ∃ k ∈ ks, k ∈ ks')
    (n : WNet) (hn : n = WNet.run global ⟨s, []⟩ ls)
    (hcalled : n.calls ≠ []) (hret : ∀ c ∈ n.calls, ∃ ok, c.phase = .returned ok) :
    ∃ c ∈ n.calls, c.phase = .returned true ∧ ∀ k, n.s.checkWhitelist k = true ↔ k ∈ c.ks := by
  obtain ⟨I, h1, h2, h3, h4⟩ := C113_union_partial global s ls hl n hn hcalled hret
  have hks : ∀ c ∈ n.calls, WLabel.call c.ks ∈ ls := by
    intro c hc
    obtain ⟨_, h⟩ := inv_run global ls ⟨s, []⟩ ⟨fun _ => Or.inl (by simp), fun _ _ => Or.inl (by simp)⟩ (by simp) hl
    rcases h c (hn ▸ hc) with ⟨c', h5, _⟩ | h5
    · exact (nomatch h5)
    · exact h5
  cases I with
  | nil => exact absurd rfl h1
  | cons c I =>
    refine ⟨c, (h2 c List.mem_cons_self).1, (h2 c List.mem_cons_self).2, fun k => ?_⟩
    cases I with
    | nil => rw [h4 k]; simp
    | cons c' I =>
      exfalso
      have hc' : c' ∈ c :: c' :: I := List.mem_cons_of_mem _ List.mem_cons_self
      obtain ⟨k', h5, h6⟩ := hcommon c.ks c'.ks (hks c (h2 c List.mem_cons_self).1) (hks c' (h2 c' hc').1)
      exact (List.pairwise_cons.1 h3).1 c' List.mem_cons_self k' h5 h6

/-- **C113 on SQLite, reports.** At the moment a call returns, whatever the state: if it is told that it has succeeded,
all keys of its list are allowed; if it is told that it has failed, it returns without having added any key to what is
in force. -/
theorem C113_report_partial (global : Bool) (n : WNet) (l : WLabel) (i : Nat) (ks : List Bytes) (ok : Bool)
    (hbefore : n.calls[i]? ≠ some ⟨ks, .returned ok⟩) (hafter : (n.step global l).calls[i]? = some ⟨ks, .returned ok⟩) :
    (ok = true → ∀ k ∈ ks, (n.step global l).s.checkWhitelist k = true) ∧
    (ok = false → ∀ k, (n.step global l).s.checkWhitelist k = n.s.checkWhitelist k) := by
  cases l with
  | call ks' =>
    simp only [WNet.step] at hafter
    rw [List.getElem?_append] at hafter
    split at hafter
    · exact absurd hafter hbefore
    · have := List.mem_of_getElem? hafter
      simp at this
  | other l' =>
    simp only [WNet.step] at hafter
    split at hafter <;> exact absurd hafter hbefore
  | stmt j =>
    have key : ∀ c' s', (∃ c, n.calls[j]? = some c) → (WNet.mk s' (n.calls.set j c')).calls[i]? = some ⟨ks, .returned ok⟩ →
        c' = ⟨ks, .returned ok⟩ := by
      intro c' s' ⟨c, hc⟩ h
      simp only [List.getElem?_set] at h
      split at h
      · split at h
        · exact Option.some.inj h
        · cases h
      · exact absurd h hbefore
    simp only [WNet.step] at hafter ⊢
    split at hafter
    · rename_i ks' hc; exact absurd (key _ _ ⟨_, hc⟩ hafter) (by simp)
    · rename_i ks' hc; exact absurd (key _ _ ⟨_, hc⟩ hafter) (by simp)
    · rename_i ks' hc
      have := key _ _ ⟨_, hc⟩ hafter
      simp only [WCall.mk.injEq, WPhase.returned.injEq] at this
      obtain ⟨rfl, hok⟩ := this
      cases hw : n.s.whitelist with
      | none =>
        have e : n.s.wstep (.insert ks') = (n.s, false) := by simp [Emb.wstep, hw]
        rw [e] at hok ⊢
        exact ⟨fun h => (nomatch hok.trans h), fun _ _ => rfl⟩
      | some w =>
        by_cases hcond : ks' ≠ [] ∧ ks'.length ≤ Emb.maxVars ∧ ks'.Nodup ∧ ∀ k ∈ ks', k ∉ w
        · have e : n.s.wstep (.insert ks') = ({ n.s with whitelist := some (w.insertMany ks') }, true) := by
            simp only [Emb.wstep, hw]; rw [if_pos hcond]
          rw [e] at hok ⊢
          refine ⟨fun _ k hk => ?_, fun h => (nomatch hok.trans h)⟩
          simp [Emb.checkWhitelist, FSet.mem_insertMany, hk]
        · have e : n.s.wstep (.insert ks') = (n.s, false) := by
            simp only [Emb.wstep, hw]; rw [if_neg hcond]
          rw [e] at hok ⊢
          exact ⟨fun h => (nomatch hok.trans h), fun _ _ => rfl⟩
    · exact absurd hafter hbefore

/-- **C113 on Redis.** After any steps of any processes of which the last that sets the whitelist sets it to `ks`, not
empty, exactly the keys in `ks` are allowed. -/
theorem C113_redis_partial (global : Bool) (s : Redis) (pre post : List RLabel) (ks : List Bytes) (hne : ks ≠ [])
    (hpost : ∀ ks', RLabel.setWhitelist ks' ∉ post) (k : Bytes) :
    (s.run global (pre ++ .setWhitelist ks :: post)).1.checkWhitelist k = true ↔ k ∈ ks := by
  have happ : ∀ (s : Redis) (a c : List RLabel), (s.run global (a ++ c)).1 = ((s.run global a).1.run global c).1 := by
    intro s a c
    induction a generalizing s with
    | nil => rfl
    | cons x a ih => simp only [List.cons_append, Redis.run, ih]
  rw [happ]
  simp only [Redis.run, Redis.step]
  refine Discovery.C41_redis_partial global _ ks hne post (fun l hl => ?_) k
  cases l with
  | setWhitelist ks' => exact absurd hl (hpost ks')
  | _ => trivial

/-! ## The case excluded, and a case included -/

/-- Two calls, statement by statement in turns. -/
def turns (ks ks' : List Bytes) : List WLabel :=
  [.call ks, .call ks', .stmt 0, .stmt 1, .stmt 0, .stmt 1, .stmt 0, .stmt 1]

/-- **C113 is false on SQLite**: the lists `[1], [2]` and `[3]` set at once; both calls succeed, and all three keys are
allowed afterwards, which is neither list. -/
theorem C113_false : ((WNet.run false ⟨Emb.new, []⟩ (turns [[1], [2]] [[3]])).calls =
      [⟨[[1], [2]], .returned true⟩, ⟨[[3]], .returned true⟩]) ∧
    ∀ k ∈ [[1], [2], [3]], (WNet.run false ⟨Emb.new, []⟩ (turns [[1], [2]] [[3]])).s.checkWhitelist k = true := by
  decide +kernel

/-- With a common key the second call is told that it has failed, and the list of the first is in force. -/
example : ((WNet.run false ⟨Emb.new, []⟩ (turns [[1], [2]] [[3], [1]])).calls =
      [⟨[[1], [2]], .returned true⟩, ⟨[[3], [1]], .returned false⟩]) ∧
    ([[1], [2], [3]].map (WNet.run false ⟨Emb.new, []⟩ (turns [[1], [2]] [[3], [1]])).s.checkWhitelist =
      [true, true, false]) := by
  decide +kernel

/-- The first call finds that its table has been dropped. -/
example : (WNet.run false ⟨Emb.new, []⟩ [.call [[1], [2]], .call [[3], [1]], .stmt 0, .stmt 0, .stmt 1, .stmt 0,
    .other (.pruneBrokers 5), .stmt 1, .stmt 1]).calls =
      [⟨[[1], [2]], .returned false⟩, ⟨[[3], [1]], .returned true⟩] := by
  decide +kernel

end Verif.Props.Updating

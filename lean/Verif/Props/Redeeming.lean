import Verif.Props.Listing
import Verif.Props.Discovery

/-!
# C32 for a call of `validate_permit` that is disturbed

The SQLite backend removes expired permits with one statement and takes the permit with the next
(embedded.rs:284-319); other processes use the store in between.
-/

namespace Verif.Props.Redeeming
open Verif Verif.Disc Verif.Props.Ident Verif.Props.Discovery

theorem run_trace_append (global : Bool) (a b : List ELabel) (s : Emb) :
    (s.run global (a ++ b)).2 = (s.run global a).2 ++ ((s.run global a).1.run global b).2 := by
  induction a generalizing s with
  | nil => rfl
  | cons l a ih => simp only [List.cons_append, Emb.run, ih, List.append_assoc]

/-- Whatever is issued, is issued by a step that says so. -/
theorem issued_from (global : Bool) (ls : List ELabel) (s : Emb) (b : BrokerId) (p : Nat) (k : Bytes) (exp : Nat)
    (h : PEv.issued b p k exp ∈ (s.run global ls).2) :
    ∃ dur t r, ELabel.issue b k dur t r ∈ ls ∧ exp = t + dur := by
  induction ls generalizing s with
  | nil => cases h
  | cons l ls ih =>
    simp only [Emb.run] at h
    rcases List.mem_append.1 h with h | h
    · cases l with
      | putBroker => simp [Emb.step] at h
      | pruneBrokers => simp [Emb.step] at h
      | prunePermits => simp [Emb.step] at h
      | issue b' k' dur t r =>
        simp only [Emb.step, Emb.issue] at h
        split at h
        · cases h
        · simp only [List.mem_singleton, PEv.issued.injEq] at h
          obtain ⟨rfl, rfl, rfl, rfl⟩ := h
          exact ⟨dur, t, r, List.mem_cons_self, rfl⟩
      | take b' p' =>
        simp only [Emb.step, Emb.take] at h
        split at h
        · split at h
          · split at h <;> simp at h
          · simp at h
        · simp at h
      | whitelist => simp [Emb.step] at h
    · obtain ⟨dur, t, r, h1, h2⟩ := ih _ h
      exact ⟨dur, t, r, List.mem_cons_of_mem _ h1, h2⟩

/-- **C32 (SQLite), disturbed.** A call that began when the clock showed `now`, with anything done by others
between its two statements (they issue permits at `now` or later), accepts the key `k` only if the permit
was issued for `k` and this broker, was not redeemed, and had not expired at `now`. -/
theorem C32_embedded_disturbed (global : Bool) (ls mid : List ELabel) (now : Nat)
    (hok : ∀ l ∈ ls ++ .prunePermits now :: mid, l.Ok)
    (hlater : ∀ b k dur t r, ELabel.issue b k dur t r ∈ mid → now ≤ t)
    (b : BrokerId) (hb : Good b) (p : Nat) (k : Bytes)
    (h : ((Emb.new.run global (ls ++ .prunePermits now :: mid)).1.take global b p).2 = [.asked b p (some k)]) :
    ∃ exp, now ≤ exp ∧
      Valid EId (MayRedeem global) (Emb.new.run global (ls ++ .prunePermits now :: mid)).2 b p k exp := by
  obtain ⟨exp, hv⟩ := (C32_embedded global _ hok b hb p k).1 h
  refine ⟨exp, ?_, hv⟩
  obtain ⟨b0, pre, rest, _, htr, hkeep⟩ := hv
  rw [run_trace_append] at htr
  simp only [Emb.run, Emb.step, List.singleton_append] at htr
  by_cases hin : PEv.swept now ∈ rest
  · exact hkeep _ hin
  · -- the permit was issued after the expired ones were removed
    have hm : PEv.issued b0 p k exp ∈
        (((Emb.new.run global ls).1.prunePermits now).run global mid).2 := by
      rcases List.append_eq_append_iff.1 htr with ⟨a, h1, h2⟩ | ⟨a, h1, h2⟩
      · cases a with
        | nil => simp at h2
        | cons e a =>
          simp only [List.cons_append, List.cons.injEq] at h2
          rw [h2.2]
          exact List.mem_append_right _ List.mem_cons_self
      · cases a with
        | nil => simp at h2
        | cons e a =>
          simp only [List.cons_append, List.cons.injEq] at h2
          exact absurd (by rw [h2.2]; exact List.mem_append_right _ List.mem_cons_self) hin
    obtain ⟨dur, t, r, h1, h2⟩ := issued_from global mid _ b0 p k exp hm
    have := hlater _ _ _ _ _ h1
    omega

/-- Others take another permit and issue one in between. -/
example : ((Emb.new.run false ([.issue bA [7] 30 100 5, .issue bA [8] 30 100 6] ++
      .prunePermits 130 :: [.take bA 6, .issue bB [9] 30 131 6])).1.take false bA 5).2 = [.asked bA 5 (some [7])] ∧
    ((Emb.new.run false ([.issue bA [7] 30 100 5] ++ .prunePermits 131 :: [])).1.take false bA 5).2 =
      [.asked bA 5 none] := by decide +kernel

end Verif.Props.Redeeming

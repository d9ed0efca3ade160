import Verif.Props.Discovery

/-!
# C33: a permit is redeemed at most as often as it was issued
-/

namespace Verif.Props.PermitCount
open Verif Verif.Disc Verif.Props.Ident Verif.Props.Discovery

/-- The brokers that redeemed permit number `p`, one entry for each time. -/
def redeemedAt (p : Nat) (tr : List PEv) : List BrokerId :=
  tr.filterMap fun e => match e with | .asked b q (some _) => if q = p then some b else none | _ => none

/-- The brokers for which permit number `p` was issued, one entry for each time. -/
def issuedFor (p : Nat) (tr : List PEv) : List BrokerId :=
  tr.filterMap fun e => match e with | .issued b q _ _ => if q = p then some b else none | _ => none

/-- If there is an issuance between any two successes and before the first, then there are as many. -/
theorem count_le (s i : PEv → Bool) (hsi : ∀ e, i e = true → s e = false) (tr : List PEv)
    (h : ∀ pre e post, tr = pre ++ e :: post → s e = true → ∃ a x b, pre = a ++ x :: b ∧ i x = true ∧ ∀ y ∈ b, s y = false) :
    tr.countP s ≤ tr.countP i := by
  generalize hn : tr.length = n
  induction n using Nat.strongRecOn generalizing tr with
  | _ n ih =>
    rcases List.eq_nil_or_concat tr with rfl | ⟨l, e, rfl⟩
    · simp
    · rw [List.concat_eq_append] at *
      have hl : ∀ a b, l = a ++ b → a.countP s ≤ a.countP i := by
        intro a b e'
        refine ih a.length (by rw [← hn, e']; simp only [List.length_append, List.length_singleton]; omega) a (fun pre x post hp hx => ?_) rfl
        exact h pre x (post ++ b ++ [e]) (by rw [e', hp]; simp) hx
      rw [List.countP_append, List.countP_append]
      cases he : s e with
      | false =>
        have := hl l [] (by simp)
        have : [e].countP s = 0 := by simp [he]
        omega
      | true =>
        obtain ⟨a, x, b, e', hx, hb⟩ := h l e [] rfl he
        have h1 := hl a (x :: b) e'
        have h2 : l.countP s = a.countP s := by
          rw [e', List.countP_append, List.countP_cons_of_neg (by simp [hsi x hx]),
            List.countP_eq_zero (l := b) |>.2 (fun y hy => by simp [hb y hy]), Nat.add_zero]
        have h3 : a.countP i + 1 ≤ l.countP i := by
          rw [e', List.countP_append, List.countP_cons_of_pos hx]; omega
        have h4 : [e].countP s ≤ 1 := List.countP_le_length
        omega

theorem emb_good {global : Bool} {ls : List ELabel} (hok : ∀ l ∈ ls, l.Ok) (s : Emb) :
    ∀ b p r, PEv.asked b p r ∈ (s.run global ls).2 → Good b := by
  induction ls generalizing s with
  | nil => intro b p r h; simp [Emb.run] at h
  | cons l ls ih =>
    intro b p r h
    rcases List.mem_append.1 h with h | h
    · have hl := hok l (by simp)
      cases l with
      | take b' p' =>
        simp only [Emb.step, Emb.take] at h
        have : b = b' := by
          repeat' split at h
          all_goals (rw [List.mem_singleton] at h; cases h; rfl)
        subst this; exact hl
      | issue b' k d n r =>
        simp only [Emb.step, Emb.issue] at h
        repeat' split at h
        all_goals simp at h
      | _ => simp [Emb.step] at h
    · exact ih (fun l hl => hok l (List.mem_cons_of_mem _ hl)) _ b p r h

theorem redis_good {global : Bool} {ls : List RLabel} (hok : ∀ l ∈ ls, l.Ok) (s : Redis) :
    ∀ b p r, PEv.asked b p r ∈ (s.run global ls).2 → Good b := by
  induction ls generalizing s with
  | nil => intro b p r h; simp [Redis.run] at h
  | cons l ls ih =>
    intro b p r h
    rcases List.mem_append.1 h with h | h
    · have hl := hok l (by simp)
      cases l with
      | validate b' p' n =>
        simp only [Redis.step, Redis.validate] at h
        have : b = b' := by
          repeat' split at h
          all_goals (simp only [List.mem_cons, List.not_mem_nil, reduceCtorEq, or_false, false_or] at h; cases h; rfl)
        subst this; exact hl
      | issue b' k d n r =>
        simp [Redis.step, Redis.issue] at h
      | _ => simp [Redis.step] at h
    · exact ih (fun l hl => hok l (List.mem_cons_of_mem _ hl)) _ b p r h

/-- Redemptions by, and issuances for, brokers in `w`. -/
def redeems (p : Nat) (w : BrokerId → Bool) : PEv → Bool
  | .asked b q (some _) => q = p && w b
  | _ => false
def issues (p : Nat) (w : BrokerId → Bool) : PEv → Bool
  | .issued b q _ _ => q = p && w b
  | _ => false

theorem count_sound {Id Who : BrokerId → BrokerId → Prop} {tr : List PEv} (hs : Sound Id Who tr)
    (hg : ∀ b p r, PEv.asked b p r ∈ tr → Good b) (p : Nat) (w : BrokerId → Bool)
    (hId : ∀ b b', w b = true → w b' = true → Id b b') (hWho : ∀ b0 b, Who b0 b → w b = true → w b0 = true) :
    tr.countP (redeems p w) ≤ tr.countP (issues p w) := by
  refine count_le _ _ (fun e he => by cases e <;> simp_all [redeems, issues]) tr fun pre e post htr he => ?_
  cases e with
  | asked b q r =>
    cases r with
    | none => simp [redeems] at he
    | some k =>
      simp only [redeems, Bool.and_eq_true, decide_eq_true_eq] at he
      obtain ⟨rfl, hw⟩ := he
      obtain ⟨x, b0, a, m, hwho, hpre, hk⟩ := hs pre b q k post (hg b q (some k) (by rw [htr]; simp)) htr
      refine ⟨a, .issued b0 q k x, m, hpre, by simp [issues, hWho b0 b hwho hw], fun y hy => ?_⟩
      have := hk y hy
      cases y with
      | asked b' q' r' =>
        cases r' with
        | none => rfl
        | some k' =>
          simp only [redeems, Bool.and_eq_false_iff, decide_eq_false_iff_not]
          refine Classical.or_iff_not_imp_left.2 fun e => ?_
          cases hb' : w b' with
          | false => rfl
          | true => exact absurd ⟨Classical.not_not.1 e, hId b' b hb' hw⟩ this
      | _ => rfl
  | _ => simp [redeems] at he

theorem redeemed_count (p : Nat) (tr : List PEv) (b : BrokerId) :
    (redeemedAt p tr).count b = tr.countP (redeems p (fun x => x == b)) := by
  induction tr with
  | nil => rfl
  | cons e tr ih =>
    unfold redeemedAt at *
    rw [List.filterMap_cons, List.countP_cons, ← ih]
    cases e with
    | asked b' q r =>
      cases r with
      | none => simp [redeems]
      | some k =>
        by_cases hq : q = p <;> simp [redeems, hq, List.count_cons]
    | _ => simp [redeems]

theorem issued_count (p : Nat) (tr : List PEv) (b : BrokerId) :
    (issuedFor p tr).count b = tr.countP (issues p (fun x => x == b)) := by
  induction tr with
  | nil => rfl
  | cons e tr ih =>
    unfold issuedFor at *
    rw [List.filterMap_cons, List.countP_cons, ← ih]
    cases e with
    | issued b' q k x => by_cases hq : q = p <;> simp [issues, hq, List.count_cons]
    | _ => simp [issues]

theorem redeemed_length (p : Nat) (tr : List PEv) :
    (redeemedAt p tr).length = tr.countP (redeems p (fun _ => true)) := by
  induction tr with
  | nil => rfl
  | cons e tr ih =>
    unfold redeemedAt at *
    rw [List.filterMap_cons, List.countP_cons, ← ih]
    cases e with
    | asked b' q r =>
      cases r with
      | none => simp [redeems]
      | some k => by_cases hq : q = p <;> simp [redeems, hq]
    | _ => simp [redeems]

theorem issued_length (p : Nat) (tr : List PEv) :
    (issuedFor p tr).length = tr.countP (issues p (fun _ => true)) := by
  induction tr with
  | nil => rfl
  | cons e tr ih =>
    unfold issuedFor at *
    rw [List.filterMap_cons, List.countP_cons, ← ih]
    cases e with
    | issued b' q k x => by_cases hq : q = p <;> simp [issues, hq]
    | _ => simp [issues]

theorem length_of_counts {A : Type} [DecidableEq A] (l l' : List A) (h : ∀ a, l.count a ≤ l'.count a) :
    l.length ≤ l'.length := by
  induction l generalizing l' with
  | nil => simp
  | cons a l ih =>
    have ha : a ∈ l' := by
      have := h a
      rw [List.count_cons_self] at this
      exact List.count_pos_iff.1 (by omega)
    have := ih (l'.erase a) fun x => by
      have := h x
      rw [List.count_cons] at this
      rw [List.count_erase]
      split at this <;> split <;> simp_all; omega
    rw [List.length_erase_of_mem ha] at this
    have : 0 < l'.length := List.length_pos_of_mem ha
    rw [List.length_cons]; omega

/-- **C33 (SQLite).** In every history, a permit number was redeemed, by all brokers together, at most as often as it was
issued. -/
theorem C33_embedded_count (global : Bool) (ls : List ELabel) (hok : ∀ l ∈ ls, l.Ok) (p : Nat) :
    (redeemedAt p (Emb.new.run global ls).2).length ≤ (issuedFor p (Emb.new.run global ls).2).length := by
  have ha := eagree_run global ls hok _ _ (eagree_new global)
  rw [List.nil_append] at ha
  rw [redeemed_length, issued_length]
  exact count_sound ha.sound (emb_good hok Emb.new) p _ (fun _ _ _ _ => trivial) fun _ _ _ _ => rfl

/-- **C33 (Redis).** The same; and, without global permits, each broker redeemed it at most as often as it was issued for that
broker. -/
theorem C33_redis_count (global : Bool) (ls : List RLabel) (hok : ∀ l ∈ ls, l.Ok) (p : Nat) :
    (redeemedAt p (Redis.new.run global ls).2).length ≤ (issuedFor p (Redis.new.run global ls).2).length ∧
    (global = false → ∀ b, (redeemedAt p (Redis.new.run global ls).2).count b ≤
      (issuedFor p (Redis.new.run global ls).2).count b) := by
  have ha := ragree_run global ls hok _ _ (ragree_new global)
  rw [List.nil_append] at ha
  have hb : global = false → ∀ b, (redeemedAt p (Redis.new.run global ls).2).count b ≤
      (issuedFor p (Redis.new.run global ls).2).count b := by
    intro hf b
    rw [redeemed_count, issued_count]
    refine count_sound ha.sound (redis_good hok Redis.new) p _ (fun b1 b2 h1 h2 => .inr ?_) fun b0 b1 hw h1 => ?_
    · rw [eq_of_beq h1, eq_of_beq h2]
    · rcases hw with h | h
      · rw [hf] at h; cases h
      · rw [h]; exact h1
  refine ⟨?_, hb⟩
  cases global with
  | false => exact length_of_counts _ _ (hb rfl)
  | true =>
    rw [redeemed_length, issued_length]
    exact count_sound ha.sound (redis_good hok Redis.new) p _ (fun _ _ _ _ => .inl rfl) fun _ _ _ _ => rfl

/-- A case: number 5 is issued, redeemed, asked for again in vain, issued once more and redeemed. -/
example :
    let ls : List RLabel := [.issue bA [1] 30 100 5, .validate bA 5 101, .validate bA 5 102, .issue bA [2] 30 103 5,
      .validate bA 5 104]
    (∀ l ∈ ls, l.Ok) ∧ redeemedAt 5 (Redis.new.run false ls).2 = [bA, bA] ∧
      issuedFor 5 (Redis.new.run false ls).2 = [bA, bA] := by
  refine ⟨?_, by decide +kernel, by decide +kernel⟩
  intro l hl
  simp only [List.mem_cons, List.not_mem_nil, or_false] at hl
  rcases hl with rfl | rfl | rfl | rfl | rfl <;> exact good_bA

end Verif.Props.PermitCount

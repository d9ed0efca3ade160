import Verif.Model.Memory
import Mathlib.Data.List.Perm.Subperm

/-!
# Properties C76 and C77: connections over the in-memory transport
-/

set_option linter.unusedSectionVars false

namespace Verif.Props.Memory
open Verif Verif.Mem

variable {E : Type} [DecidableEq E]

/-! ## Specification -/

/-- Whoever has a connection talks to one peer: what call `i` writes is read by the accepted connection `a`
(`i` has received the stream of `a`), and what `a` writes is read by `i` (`a` took the stream of `i`). -/
def Paired (n : Mem E) : Prop := ∀ i a, n.call i = .connected a → n.accepted[a]? = some i

/-- The call has neither returned nor been given up. -/
def Pending (n : Mem E) (i : Nat) : Prop :=
  (∃ e, n.call i = .reading e ∨ n.call i = .writing e) ∨ n.holds i

/-! ## Invariant -/

structure Inv (n : Mem E) : Prop where
  queueNodup : n.queue.Nodup
  queued : ∀ i, i ∈ n.queue ↔ ∃ e, n.call i = .reading e ∨ n.call i = .writing e
  sentNodup : ∀ l, (n.sentTo l).Nodup
  sent : ∀ l i, i ∈ n.sentTo l →
    n.call i = .waiting l ∨ (∃ a, n.call i = .connected a) ∨ n.call i = .failed ∨ n.call i = .cancelled
  waits : ∀ l i, n.call i = .waiting l → i ∈ n.sentTo l
  gotNodup : ∀ l, (n.gotFrom l).Nodup
  got : ∀ l i, i ∈ n.gotFrom l → i ∈ n.sentTo l ∧ ∃ a, n.call i = .connected a
  has : ∀ i a, n.call i = .connected a → ∃ l, i ∈ n.gotFrom l
  /-- the `k`-th to receive has the stream made for the `k`-th to send -/
  order : ∀ l (k i : Nat), (n.gotFrom l)[k]? = some i →
    ∃ a j, n.call i = .connected a ∧ n.accepted[a]? = some j ∧ (n.sentTo l)[k]? = some j
  out : ∀ l (k a : Nat), (n.outq l)[k]? = some a →
    ∃ j, n.accepted[a]? = some j ∧ (n.sentTo l)[(n.gotFrom l).length + k]? = some j
  inn : ∀ l, n.closed l = false → n.inq l = (n.sentTo l).drop ((n.gotFrom l).length + (n.outq l).length)
  finite : ∃ L : List Nat, ∀ i, n.call i ≠ .fresh → i ∈ L

theorem upd_self {A : Type} (f : Nat → A) (i : Nat) (a : A) : upd f i a i = a := by simp [upd]
theorem upd_ne {A : Type} (f : Nat → A) {i j : Nat} (a : A) (h : j ≠ i) : upd f i a j = f j := by simp [upd, h]

omit [DecidableEq E] in
theorem inv_start : Inv (start : Mem E) := by
  constructor <;> simp [start]

/-- A call that is not connected changes its state. -/
theorem inv_call {n : Mem E} (h : Inv n) (i : Nat) (c : MCall E) (q : List Nat) (tab : E → Option Nat) (nl : Nat)
    (hold : ∀ a, n.call i ≠ .connected a) (hnew : ∀ a, c ≠ .connected a)
    (hsent : ∀ l, i ∈ n.sentTo l → c = .failed ∨ c = .cancelled)
    (hwait : ∀ l, c ≠ .waiting l)
    (hq : q.Nodup) (hqi : i ∈ q ↔ ∃ e, c = .reading e ∨ c = .writing e) (hqo : ∀ j, j ≠ i → (j ∈ q ↔ j ∈ n.queue)) :
    Inv { n with call := upd n.call i c, queue := q, table := tab, nl := nl } := by
  have hc : ∀ j a, upd n.call i c j = .connected a ↔ n.call j = .connected a := by
    intro j a
    by_cases e : j = i
    · subst e; rw [upd_self]
      exact ⟨fun h => absurd h (hnew a), fun h => absurd h (hold a)⟩
    · rw [upd_ne _ _ e]
  refine ⟨hq, ?_, h.sentNodup, ?_, ?_, h.gotNodup, ?_, ?_, ?_, h.out, h.inn, ?_⟩
  · intro j
    by_cases e : j = i
    · subst e; simp only [upd_self]; exact hqi
    · simp only [upd_ne _ _ e]; rw [hqo j e]; exact h.queued j
  · intro l j hj
    by_cases e : j = i
    · subst e
      simp only [upd_self]
      rcases hsent l hj with h | h
      · exact Or.inr (Or.inr (Or.inl h))
      · exact Or.inr (Or.inr (Or.inr h))
    · simp only [upd_ne _ _ e]; exact h.sent l j hj
  · intro l j hj
    by_cases e : j = i
    · subst e; simp only [upd_self] at hj; exact absurd hj (hwait l)
    · simp only [upd_ne _ _ e] at hj; exact h.waits l j hj
  · intro l j hj
    obtain ⟨h1, a, h2⟩ := h.got l j hj
    exact ⟨h1, a, (hc j a).2 h2⟩
  · intro j a hj; exact h.has j a ((hc j a).1 hj)
  · intro l k j hj
    obtain ⟨a, j', h1, h2⟩ := h.order l k j hj
    exact ⟨a, j', (hc j a).2 h1, h2⟩
  · obtain ⟨L, hL⟩ := h.finite
    refine ⟨i :: L, fun j hj => ?_⟩
    by_cases e : j = i
    · subst e; simp
    · simp only [upd_ne _ _ e] at hj; exact List.mem_cons_of_mem _ (hL j hj)

theorem inv_step {n n' : Mem E} {l : MemLabel E} (h : Inv n) (hs : Step n l n') : Inv n' := by
  cases hs with
  | connect i e hf =>
    have hnq : i ∉ n.queue := by rw [h.queued]; simp [hf]
    refine inv_call h i (.reading e) _ n.table n.nl (by simp [hf]) (by simp) ?_ (by simp) ?_ (by simp) ?_
    · intro l hi; rcases h.sent l i hi with h | ⟨_, h⟩ | h | h <;> rw [hf] at h <;> cases h
    · exact List.nodup_append.2 ⟨h.queueNodup, by simp, fun j hj k hk => by
        rw [List.mem_singleton.1 hk]; rintro rfl; exact hnq hj⟩
    · intro j hj; simp [hj]
  | bind i e hf =>
    have hnq : i ∉ n.queue := by rw [h.queued]; simp [hf]
    refine inv_call h i (.writing e) _ n.table n.nl (by simp [hf]) (by simp) ?_ (by simp) ?_ (by simp) ?_
    · intro l hi; rcases h.sent l i hi with h | ⟨_, h⟩ | h | h <;> rw [hf] at h <;> cases h
    · exact List.nodup_append.2 ⟨h.queueNodup, by simp, fun j hj k hk => by
        rw [List.mem_singleton.1 hk]; rintro rfl; exact hnq hj⟩
    · intro j hj; simp [hj]
  | refused i q e hq hc _ =>
    have hn := h.queueNodup; rw [hq, List.nodup_cons] at hn
    exact inv_call h i .failed q n.table n.nl (by simp [hc]) (by simp) (by simp) (by simp) hn.2 (by simp [hn.1])
      (fun j hj => by simp [hq, hj])
  | dead i q e l hq hc _ _ =>
    have hn := h.queueNodup; rw [hq, List.nodup_cons] at hn
    exact inv_call h i .failed q n.table n.nl (by simp [hc]) (by simp) (by simp) (by simp) hn.2 (by simp [hn.1])
      (fun j hj => by simp [hq, hj])
  | bound i q e hq hc _ =>
    have hn := h.queueNodup; rw [hq, List.nodup_cons] at hn
    refine inv_call h i (.bound n.nl) q _ _ (by simp [hc]) (by simp) ?_ (by simp) hn.2 (by simp [hn.1])
      (fun j hj => by simp [hq, hj])
    intro l hi; rcases h.sent l i hi with h | ⟨_, h⟩ | h | h <;> rw [hc] at h <;> cases h
  | noReply i l hc _ _ =>
    have hnq : i ∉ n.queue := by rw [h.queued]; simp [hc]
    exact inv_call h i .failed n.queue n.table n.nl (by simp [hc]) (by simp) (by simp) (by simp) h.queueNodup
      (by simp [hnq]) (fun j hj => Iff.rfl)
  | cancel i hp =>
    refine inv_call h i .cancelled _ n.table n.nl ?_ (by simp) (by simp) (by simp) (h.queueNodup.filter _)
      (by simp) (fun j hj => by simp [hj])
    intro a ha
    rcases hp with ⟨e, h | h⟩ | ⟨l, h⟩ <;> rw [ha] at h <;> cases h
  | close l _ =>
    refine ⟨h.queueNodup, h.queued, h.sentNodup, h.sent, h.waits, h.gotNodup, h.got, h.has, h.order, h.out, ?_,
      h.finite⟩
    intro l' hc
    by_cases e : l' = l
    · subst e; simp [upd_self] at hc
    · simp only [upd_ne _ _ e] at hc ⊢; exact h.inn l' hc
  | enter i q e l hq hc _ hopen =>
    have hn := h.queueNodup; rw [hq, List.nodup_cons] at hn
    have hns : ∀ l, i ∉ n.sentTo l := by
      intro l hi; rcases h.sent l i hi with h | ⟨_, h⟩ | h | h <;> rw [hc] at h <;> cases h
    have hng : ∀ l, i ∉ n.gotFrom l := fun l hi => hns l (h.got l i hi).1
    have hcc : ∀ j a, upd n.call i (.waiting l) j = .connected a ↔ n.call j = .connected a := by
      intro j a
      by_cases e : j = i
      · subst e; rw [upd_self, hc]; simp
      · rw [upd_ne _ _ e]
    have hlen : ∀ l (k j : Nat), (n.sentTo l)[k]? = some j →
        (upd n.sentTo l (n.sentTo l ++ [i]) l)[k]? = some j := by
      intro l k j hk
      rw [upd_self, List.getElem?_append_left (List.getElem?_eq_some_iff.1 hk).1]; exact hk
    have hk' : ∀ l' (k j : Nat), (n.sentTo l')[k]? = some j →
        (upd n.sentTo l (n.sentTo l ++ [i]) l')[k]? = some j := by
      intro l' k j hk
      by_cases e : l' = l
      · subst e; exact hlen _ k j hk
      · rw [upd_ne _ _ e]; exact hk
    have hle : (n.gotFrom l).length + (n.outq l).length ≤ (n.sentTo l).length := by
      rcases Nat.eq_zero_or_pos (n.outq l).length with h0 | h0
      · rw [h0, Nat.add_zero]
        rcases Nat.eq_zero_or_pos (n.gotFrom l).length with h1 | h1
        · omega
        · obtain ⟨a, j, _, _, h3⟩ := h.order l ((n.gotFrom l).length - 1) _
            (List.getElem?_eq_getElem (by omega))
          have := (List.getElem?_eq_some_iff.1 h3).1; omega
      · obtain ⟨j, _, h3⟩ := h.out l ((n.outq l).length - 1) _ (List.getElem?_eq_getElem (by omega))
        have := (List.getElem?_eq_some_iff.1 h3).1; omega
    refine ⟨hn.2, ?_, ?_, ?_, ?_, h.gotNodup, ?_, ?_, ?_, ?_, ?_, ?_⟩
    · intro j
      by_cases e : j = i
      · subst e; simp [upd_self, hn.1]
      · simp only [upd_ne _ _ e]
        have := h.queued j; rw [hq] at this; simpa [e] using this
    · intro l'
      by_cases e : l' = l
      · subst e; simp only [upd_self]
        exact List.nodup_append.2 ⟨h.sentNodup _, by simp, by simpa using fun j hj e => hns _ (e ▸ hj)⟩
      · simp only [upd_ne _ _ e]; exact h.sentNodup _
    · intro l' j hj
      by_cases e : j = i
      · subst e
        by_cases e' : l' = l
        · subst e'; left; simp [upd_self]
        · simp only [upd_ne _ _ e'] at hj; exact absurd hj (hns _)
      · simp only [upd_ne _ _ e]
        apply h.sent l' j
        by_cases e' : l' = l
        · subst e'; simpa [upd_self, e] using hj
        · simpa only [upd_ne _ _ e'] using hj
    · intro l' j hj
      by_cases e : j = i
      · subst e
        simp only [upd_self, MCall.waiting.injEq] at hj
        subst hj; simp [upd_self]
      · simp only [upd_ne _ _ e] at hj
        have := h.waits l' j hj
        by_cases e' : l' = l
        · subst e'; simp [upd_self, this]
        · simpa only [upd_ne _ _ e'] using this
    · intro l' j hj
      obtain ⟨h1, a, h2⟩ := h.got l' j hj
      refine ⟨?_, a, (hcc j a).2 h2⟩
      by_cases e' : l' = l
      · subst e'; simp [upd_self, h1]
      · simpa only [upd_ne _ _ e'] using h1
    · intro j a hj; exact h.has j a ((hcc j a).1 hj)
    · intro l' k j hj
      obtain ⟨a, j', h1, h2, h3⟩ := h.order l' k j hj
      exact ⟨a, j', (hcc j a).2 h1, h2, hk' _ _ _ h3⟩
    · intro l' k a hj
      obtain ⟨j', h1, h2⟩ := h.out l' k a hj
      exact ⟨j', h1, hk' _ _ _ h2⟩
    · intro l' hl'
      by_cases e' : l' = l
      · subst e'; simp only [upd_self]
        rw [h.inn _ hl', List.drop_append_of_le_length hle]
      · simp only [upd_ne _ _ e']; exact h.inn l' hl'
    · obtain ⟨L, hL⟩ := h.finite
      refine ⟨i :: L, fun j hj => ?_⟩
      by_cases e : j = i
      · subst e; simp
      · simp only [upd_ne _ _ e] at hj; exact List.mem_cons_of_mem _ (hL j hj)
  | accept l i q hopen hin =>
    have hacc : ∀ (a j : Nat), n.accepted[a]? = some j → (n.accepted ++ [i])[a]? = some j := by
      intro a j ha
      rw [List.getElem?_append_left (List.getElem?_eq_some_iff.1 ha).1]; exact ha
    have hi := h.inn l hopen
    rw [hin] at hi
    refine ⟨h.queueNodup, h.queued, h.sentNodup, h.sent, h.waits, h.gotNodup, h.got, h.has, ?_, ?_, ?_, h.finite⟩
    · intro l' k j hj
      obtain ⟨a, j', h1, h2, h3⟩ := h.order l' k j hj
      exact ⟨a, j', h1, hacc _ _ h2, h3⟩
    · intro l' k a hj
      by_cases e' : l' = l
      · subst e'
        simp only [upd_self] at hj
        by_cases hk : k < (n.outq l').length
        · rw [List.getElem?_append_left hk] at hj
          obtain ⟨j', h1, h2⟩ := h.out l' k a hj
          exact ⟨j', hacc _ _ h1, h2⟩
        · rw [List.getElem?_append_right (by omega)] at hj
          have hk0 : k = (n.outq l').length := by
            have := (List.getElem?_eq_some_iff.1 hj).1
            simp at this; omega
          subst hk0
          simp at hj; subst hj
          refine ⟨i, by simp, ?_⟩
          have : ((n.sentTo l').drop ((n.gotFrom l').length + (n.outq l').length))[0]? = some i := by
            rw [← hi]; rfl
          simpa using this
      · simp only [upd_ne _ _ e'] at hj
        obtain ⟨j', h1, h2⟩ := h.out l' k a hj
        exact ⟨j', hacc _ _ h1, h2⟩
    · intro l' hl'
      by_cases e' : l' = l
      · subst e'; simp only [upd_self, List.length_append, List.length_singleton]
        rw [← Nat.add_assoc, ← List.drop_drop, ← hi]; rfl
      · simp only [upd_ne _ _ e']; exact h.inn l' hl'
  | receive i l a q hc hout =>
    have hnq : i ∉ n.queue := by rw [h.queued]; simp [hc]
    have hng : ∀ l, i ∉ n.gotFrom l := by
      intro l hi
      obtain ⟨_, a, h2⟩ := h.got l i hi
      rw [hc] at h2; cases h2
    have hcc : ∀ j c, j ≠ i → (upd n.call i (.connected a) j = c ↔ n.call j = c) := by
      intro j c e; rw [upd_ne _ _ e]
    obtain ⟨j0, hj1, hj2⟩ := h.out l 0 a (by rw [hout]; rfl)
    refine ⟨h.queueNodup, ?_, h.sentNodup, ?_, ?_, ?_, ?_, ?_, ?_, ?_, ?_, ?_⟩
    · intro j
      by_cases e : j = i
      · subst e; simp [upd_self, hnq]
      · simp only [upd_ne _ _ e]; exact h.queued j
    · intro l' j hj
      by_cases e : j = i
      · subst e; right; left; exact ⟨a, upd_self _ _ _⟩
      · simp only [upd_ne _ _ e]; exact h.sent l' j hj
    · intro l' j hj
      by_cases e : j = i
      · subst e; simp [upd_self] at hj
      · simp only [upd_ne _ _ e] at hj; exact h.waits l' j hj
    · intro l'
      by_cases e' : l' = l
      · subst e'; simp only [upd_self]
        exact List.nodup_append.2 ⟨h.gotNodup _, by simp, by simpa using fun j hj e => hng _ (e ▸ hj)⟩
      · simp only [upd_ne _ _ e']; exact h.gotNodup _
    · intro l' j hj
      by_cases e : j = i
      · subst e
        by_cases e' : l' = l
        · subst e'; exact ⟨h.waits _ _ hc, a, upd_self _ _ _⟩
        · simp only [upd_ne _ _ e'] at hj; exact absurd hj (hng _)
      · simp only [upd_ne _ _ e]
        apply h.got l' j
        by_cases e' : l' = l
        · subst e'; simpa [upd_self, e] using hj
        · simpa only [upd_ne _ _ e'] using hj
    · intro j b hj
      by_cases e : j = i
      · subst e; exact ⟨l, by simp [upd_self]⟩
      · simp only [upd_ne _ _ e] at hj
        obtain ⟨l', hl'⟩ := h.has j b hj
        refine ⟨l', ?_⟩
        by_cases e' : l' = l
        · subst e'; simp [upd_self, hl']
        · simpa only [upd_ne _ _ e'] using hl'
    · intro l' k j hj
      have old : (n.gotFrom l')[k]? = some j → ∃ a' j', upd n.call i (.connected a) j = .connected a' ∧
          n.accepted[a']? = some j' ∧ (n.sentTo l')[k]? = some j' := by
        intro hg
        obtain ⟨a', j', h1, h2⟩ := h.order l' k j hg
        have e : j ≠ i := by rintro rfl; exact hng l' (List.mem_of_getElem? hg)
        exact ⟨a', j', (hcc j _ e).2 h1, h2⟩
      by_cases e' : l' = l
      · subst e'
        simp only [upd_self] at hj
        by_cases hk : k < (n.gotFrom l').length
        · rw [List.getElem?_append_left hk] at hj; exact old hj
        · rw [List.getElem?_append_right (by omega)] at hj
          have hk0 : k = (n.gotFrom l').length := by
            have := (List.getElem?_eq_some_iff.1 hj).1
            simp at this; omega
          subst hk0
          simp at hj; subst hj
          exact ⟨a, j0, upd_self _ _ _, hj1, hj2⟩
      · simp only [upd_ne _ _ e'] at hj; exact old hj
    · intro l' k b hj
      by_cases e' : l' = l
      · subst e'
        simp only [upd_self, List.length_append, List.length_singleton] at hj ⊢
        obtain ⟨j', h1, h2⟩ := h.out l' (k + 1) b (by rw [hout]; exact hj)
        exact ⟨j', h1, by rw [← h2]; congr 1; omega⟩
      · simp only [upd_ne _ _ e'] at hj ⊢; exact h.out l' k b hj
    · intro l' hl'
      by_cases e' : l' = l
      · subst e'; simp only [upd_self, List.length_append, List.length_singleton]
        rw [h.inn _ hl', hout]
        simp only [List.length_cons]; congr 1; omega
      · simp only [upd_ne _ _ e']; exact h.inn l' hl'
    · obtain ⟨L, hL⟩ := h.finite
      refine ⟨i :: L, fun j hj => ?_⟩
      by_cases e : j = i
      · subst e; simp
      · simp only [upd_ne _ _ e] at hj; exact List.mem_cons_of_mem _ (hL j hj)

theorem inv_run {n n' : Mem E} {ls : List (MemLabel E)} (h : Inv n) (hr : Run n ls n') : Inv n' := by
  induction hr with
  | nil => exact h
  | cons hs _ ih => exact ih (inv_step h hs)

/-! ## C76 -/

/-- **C76, exactly**: the connections over the in-memory transport are paired if and only if at every
listener the calls received their streams in the order in which they had sent theirs. -/
theorem C76_paired_iff {n : Mem E} {ls : List (MemLabel E)} (hr : Run start ls n) :
    Paired n ↔ ∀ l, n.gotFrom l <+: n.sentTo l := by
  have h := inv_run inv_start hr
  constructor
  · intro hp l
    rw [List.prefix_iff_getElem?]
    intro k hk
    obtain ⟨a, j, h1, h2, h3⟩ := h.order l k _ (List.getElem?_eq_getElem hk)
    rw [hp _ _ h1] at h2; cases h2; exact h3
  · intro hp i a hc
    obtain ⟨l, hl⟩ := h.has i a hc
    obtain ⟨k, hk⟩ := List.getElem?_of_mem hl
    obtain ⟨a', j, h1, h2, h3⟩ := h.order l k i hk
    rw [hc] at h1; cases h1
    have hlt := (List.getElem?_eq_some_iff.1 hk).1
    have := List.prefix_iff_getElem?.1 (hp l) k hlt
    rw [h3] at this
    rw [h2, this, ← (List.getElem?_eq_some_iff.1 hk).2]

/-- The claim: all connections are paired, in whatever order things happen. -/
def AlwaysPaired (E : Type) [DecidableEq E] : Prop :=
  ∀ (ls : List (MemLabel E)) (n : Mem E), Run start ls n → Paired n

/-- **C76 does not hold**: two calls of `connect` at the same time may swap their streams. -/
theorem C76_false : ¬ AlwaysPaired Nat := by
  intro h
  have hr : ∃ n, Run (start : Mem Nat) [.bind 0 7, .enter, .connect 1 7, .connect 2 7, .enter, .enter,
      .accept 0, .receive 2] n ∧ n.call 2 = .connected 0 ∧ n.accepted = [1] := by
    refine ⟨_, .cons (.bind _ 0 7 rfl) (.cons (.bound _ 0 [] 7 rfl rfl ?_) (.cons (.connect _ 1 7 rfl)
      (.cons (.connect _ 2 7 rfl) (.cons (.enter _ 1 [2] 7 0 rfl rfl rfl rfl) (.cons (.enter _ 2 [] 7 0 rfl rfl rfl rfl)
      (.cons (.accept _ 0 1 [2] rfl rfl) (.cons (.receive _ 2 0 0 [] rfl rfl) (.nil _)))))))), rfl, rfl⟩
    rintro j ⟨l, hl⟩
    by_cases e : j = 0
    · subst e; cases hl
    · simp [upd, start, e] at hl
  obtain ⟨n, hr, h1, h2⟩ := hr
  have := h _ n hr 2 0 h1
  rw [h2] at this
  simp at this

/-- No step by which two calls are waiting for the same listener, or one that waits is given up. -/
def OneByOne (n : Mem E) : MemLabel E → Prop
  | .enter => ∀ i q e l, n.queue = i :: q → n.call i = .reading e → n.table e = some l → ∀ j, n.call j ≠ .waiting l
  | .cancel i => ¬ n.holds i
  | _ => True

inductive RunOne : Mem E → List (MemLabel E) → Mem E → Prop
  | nil (n) : RunOne n [] n
  | cons {n l n' ls n''} : OneByOne n l → Step n l n' → RunOne n' ls n'' → RunOne n (l :: ls) n''

theorem RunOne.run {n n' : Mem E} {ls} (h : RunOne n ls n') : Run n ls n' := by
  induction h with
  | nil => exact .nil _
  | cons _ hs _ ih => exact .cons hs ih

/-- At every listener: nobody waits, or exactly the one who sent last. -/
structure Single (n : Mem E) : Prop where
  pre : ∀ l, n.gotFrom l <+: n.sentTo l
  wait : ∀ l i, n.call i = .waiting l → n.sentTo l = n.gotFrom l ++ [i]
  idle : ∀ l, n.closed l = false → (∀ i, n.call i ≠ .waiting l) → n.sentTo l = n.gotFrom l

theorem single_step {n n' : Mem E} {l : MemLabel E} (h : Single n) (ho : OneByOne n l)
    (hs : Step n l n') : Single n' := by
  -- a call that does not wait changes its state
  have calls : ∀ (i : Nat) (c : MCall E) (q : List Nat) (tab : E → Option Nat) (nl : Nat), (∀ l, n.call i ≠ .waiting l) →
      (∀ l, c ≠ .waiting l) → Single { n with call := upd n.call i c, queue := q, table := tab, nl := nl } := by
    intro i c q tab nl h1 h2
    have hc : ∀ j l, upd n.call i c j = .waiting l ↔ n.call j = .waiting l := by
      intro j l
      by_cases e : j = i
      · subst e; rw [upd_self]; exact ⟨fun h => absurd h (h2 l), fun h => absurd h (h1 l)⟩
      · rw [upd_ne _ _ e]
    exact ⟨h.pre, fun l j hj => h.wait l j ((hc j l).1 hj),
      fun l hl hn => h.idle l hl (fun j hj => hn j ((hc j l).2 hj))⟩
  cases hs with
  | connect i e hf => exact calls _ _ _ n.table n.nl (by simp [hf]) (by simp)
  | bind i e hf => exact calls _ _ _ n.table n.nl (by simp [hf]) (by simp)
  | refused i q e hq hc _ => exact calls _ _ _ n.table n.nl (by simp [hc]) (by simp)
  | dead i q e l hq hc _ _ => exact calls _ _ _ n.table n.nl (by simp [hc]) (by simp)
  | bound i q e hq hc _ => exact calls _ _ _ _ _ (by simp [hc]) (by simp)
  | cancel i hp => exact calls _ _ _ n.table n.nl (fun l hl => ho ⟨l, hl⟩) (by simp)
  | close l _ =>
    refine ⟨h.pre, h.wait, fun l' hl' => h.idle l' ?_⟩
    by_cases e : l' = l
    · subst e; simp [upd_self] at hl'
    · simpa only [upd_ne _ _ e] using hl'
  | accept l i q hopen hin => exact ⟨h.pre, h.wait, h.idle⟩
  | noReply i l hc hout hcl =>
    refine ⟨h.pre, ?_, ?_⟩
    · intro l' j hj
      by_cases e : j = i
      · subst e; simp [upd_self] at hj
      · simp only [upd_ne _ _ e] at hj; exact h.wait l' j hj
    · intro l' hl' hn
      by_cases e' : l' = l
      · subst e'; exact absurd hl' (by rw [hcl]; simp)
      · refine h.idle l' hl' (fun j hj => ?_)
        by_cases e : j = i
        · subst e; rw [hc] at hj; cases hj; exact e' rfl
        · exact hn j (by simp only [upd_ne _ _ e]; exact hj)
  | enter i q e l hq hc ht hopen =>
    have hno := ho i q e l hq hc ht
    have hid := h.idle l hopen hno
    refine ⟨?_, ?_, ?_⟩
    · intro l'
      by_cases e' : l' = l
      · subst e'; simp only [upd_self]; exact (h.pre l').trans (List.prefix_append _ _)
      · simp only [upd_ne _ _ e']; exact h.pre l'
    · intro l' j hj
      by_cases e : j = i
      · subst e
        simp only [upd_self, MCall.waiting.injEq] at hj
        subst hj; simp only [upd_self]; rw [hid]
      · simp only [upd_ne _ _ e] at hj
        have e' : l' ≠ l := by rintro rfl; exact hno j hj
        simp only [upd_ne _ _ e']; exact h.wait l' j hj
    · intro l' hl' hn
      have e' : l' ≠ l := by rintro rfl; exact hn i (by simp [upd_self])
      simp only [upd_ne _ _ e']
      refine h.idle l' hl' (fun j hj => ?_)
      have e : j ≠ i := by rintro rfl; rw [hc] at hj; cases hj
      exact hn j (by simp only [upd_ne _ _ e]; exact hj)
  | receive i l a q hc hout =>
    have hw := h.wait l i hc
    refine ⟨?_, ?_, ?_⟩
    · intro l'
      by_cases e' : l' = l
      · subst e'; simp only [upd_self]; rw [hw]; exact List.prefix_rfl
      · simp only [upd_ne _ _ e']; exact h.pre l'
    · intro l' j hj
      by_cases e : j = i
      · subst e; simp [upd_self] at hj
      · simp only [upd_ne _ _ e] at hj
        have hj' := h.wait l' j hj
        have e' : l' ≠ l := by
          rintro rfl
          rw [hw] at hj'
          have := List.append_cancel_left hj'
          simp at this; exact e this.symm
        simp only [upd_ne _ _ e']; exact hj'
    · intro l' hl' hn
      by_cases e' : l' = l
      · subst e'; simp only [upd_self]; exact hw
      · simp only [upd_ne _ _ e']
        refine h.idle l' hl' (fun j hj => ?_)
        have e : j ≠ i := by rintro rfl; rw [hc] at hj; cases hj; exact e' rfl
        exact hn j (by simp only [upd_ne _ _ e]; exact hj)

/-- **C76, partial.** If no two calls of `connect` wait for the same listener at the same time, and none that
waits is given up, all connections are paired. Missing, since false: concurrent calls (`C76_false`) and calls
given up (`C76_false_given_up`). -/
theorem C76_one_by_one_partial {n : Mem E} {ls : List (MemLabel E)} (hr : RunOne start ls n) : Paired n := by
  rw [C76_paired_iff hr.run]
  have : ∀ {m m' : Mem E} {ls}, RunOne m ls m' → Inv m → Single m → Single m' := by
    intro m m' ls hr
    induction hr with
    | nil => intro _ h; exact h
    | cons ho hs _ ih => intro hi h; exact ih (inv_step hi hs) (single_step h ho hs)
  exact (this hr inv_start ⟨by simp [start], by simp [start], by simp [start]⟩).pre

/-- A call given up while it waits spoils the listener for good: its stream is still answered, and as soon as as
many calls have got connections as had sent streams up to it, not all of them are paired. -/
theorem C76_given_up_spoils {n : Mem E} {ls : List (MemLabel E)} (hr : Run start ls n) (l p c : Nat)
    (hsent : (n.sentTo l)[p]? = some c) (hc : n.call c = .cancelled) (hlen : p < (n.gotFrom l).length) :
    ¬ Paired n := by
  rw [C76_paired_iff hr]
  intro h
  have := List.prefix_iff_getElem?.1 (h l) p hlen
  rw [hsent] at this
  obtain ⟨_, a, ha⟩ := (inv_run inv_start hr).got l c (by cases this; exact List.getElem_mem _)
  rw [hc] at ha; cases ha

theorem no_holder {n : Mem Nat} (h : ∀ j, n.call j = .fresh ∨ ∀ l, n.call j ≠ .waiting l) : ∀ j, ¬ n.holds j := by
  rintro j ⟨l, hl⟩
  rcases h j with h | h
  · rw [hl] at h; cases h
  · exact h l hl

/-- **C76 does not hold** for calls made one after the other either, once one has been given up: the next call gets
the stream meant for it. -/
theorem C76_false_given_up : ∃ (ls : List (MemLabel Nat)) (n : Mem Nat), Run start ls n ∧
    ls = [.bind 0 7, .enter, .connect 1 7, .enter, .cancel 1, .accept 0, .connect 2 7, .enter, .accept 0,
      .receive 2] ∧ ¬ Paired n := by
  have hr : ∃ n, Run (start : Mem Nat) [.bind 0 7, .enter, .connect 1 7, .enter, .cancel 1, .accept 0,
      .connect 2 7, .enter, .accept 0, .receive 2] n ∧ n.call 2 = .connected 0 ∧ n.accepted = [1, 2] := by
    refine ⟨_, .cons (.bind _ 0 7 rfl) (.cons (.bound _ 0 [] 7 rfl rfl (no_holder ?_)) (.cons (.connect _ 1 7 rfl)
      (.cons (.enter _ 1 [] 7 0 rfl rfl rfl rfl) (.cons (.cancel _ 1 (Or.inr ⟨0, rfl⟩))
      (.cons (.accept _ 0 1 [] rfl rfl) (.cons (.connect _ 2 7 rfl) (.cons (.enter _ 2 [] 7 0 rfl rfl rfl rfl)
      (.cons (.accept _ 0 2 [] rfl rfl) (.cons (.receive _ 2 0 0 [1] rfl rfl) (.nil _)))))))))), rfl, rfl⟩
    intro j
    by_cases e : j = 0
    · subst e; right; intro l hl; cases hl
    · left; simp [upd, start, e]
  obtain ⟨n, hr, h1, h2⟩ := hr
  refine ⟨_, n, hr, rfl, fun h => ?_⟩
  have := h 2 0 h1
  rw [h2] at this
  simp at this

/-- Two connections made one by one are paired. -/
example : ∃ n : Mem Nat, RunOne start [.bind 0 7, .enter, .connect 1 7, .enter, .accept 0, .receive 1,
    .connect 2 7, .enter, .accept 0, .receive 2] n ∧ n.call 1 = .connected 0 ∧ n.call 2 = .connected 1 ∧
    n.accepted = [1, 2] := by
  have w : ∀ (n : Mem Nat) (i e' l' : Nat), n.queue = [i] → n.call i = .reading e' → n.table e' = some l' →
      (∀ j l, n.call j ≠ .waiting l) → OneByOne n .enter :=
    fun n i e' l' _ _ _ h _ _ _ _ _ _ _ j => h j _
  refine ⟨_, .cons trivial (.bind _ 0 7 rfl) (.cons ?_ (.bound _ 0 [] 7 rfl rfl (no_holder ?_))
    (.cons trivial (.connect _ 1 7 rfl) (.cons ?_ (.enter _ 1 [] 7 0 rfl rfl rfl rfl)
    (.cons trivial (.accept _ 0 1 [] rfl rfl) (.cons trivial (.receive _ 1 0 0 [] rfl rfl)
    (.cons trivial (.connect _ 2 7 rfl) (.cons ?_ (.enter _ 2 [] 7 0 rfl rfl rfl rfl)
    (.cons trivial (.accept _ 0 2 [] rfl rfl) (.cons trivial (.receive _ 2 0 1 [] rfl rfl) (.nil _)))))))))),
    rfl, rfl, rfl⟩
  · rintro i q e l h1 h2 h3; simp [start] at h3
  · intro j
    by_cases e : j = 0
    · subst e; right; intro l hl; cases hl
    · left; simp [upd, start, e]
  · refine w _ 1 7 0 rfl rfl rfl (fun j l => ?_)
    by_cases e : j = 0
    · subst e; intro h; cases h
    · by_cases e' : j = 1
      · subst e'; intro h; cases h
      · simp [upd, start, e, e']
  · refine w _ 2 7 0 rfl rfl rfl (fun j l => ?_)
    by_cases e : j = 0
    · subst e; intro h; cases h
    · by_cases e' : j = 1
      · subst e'; intro h; cases h
      · by_cases e'' : j = 2
        · subst e''; intro h; cases h
        · simp [upd, start, e, e', e'']

/-! ### Which listener -/

/-- What the calls made so far say about the state. -/
structure Known (H : List (MemLabel E)) (n : Mem E) : Prop where
  rd : ∀ i e, n.call i = .reading e → .connect i e ∈ H
  wr : ∀ i e, n.call i = .writing e → .bind i e ∈ H
  tab : ∀ e l, n.table e = some l → ∃ j, .bind j e ∈ H ∧ n.call j = .bound l
  lst : ∀ l i, i ∈ n.sentTo l → ∃ e j, .connect i e ∈ H ∧ .bind j e ∈ H ∧ n.call j = .bound l

theorem known_step {H : List (MemLabel E)} {n n' : Mem E} {l : MemLabel E} (h : Known H n) (hs : Step n l n') :
    Known (H ++ [l]) n' := by
  have ext : Known (H ++ [l]) n :=
    ⟨fun i e hi => by simp [h.rd i e hi], fun i e hi => by simp [h.wr i e hi],
     fun e l hl => by obtain ⟨j, h1, h2⟩ := h.tab e l hl; exact ⟨j, by simp [h1], h2⟩,
     fun l i hi => by obtain ⟨e, j, h1, h2, h3⟩ := h.lst l i hi; exact ⟨e, j, by simp [h1], by simp [h2], h3⟩⟩
  -- a call that is not bound changes its state
  have chg : ∀ (i : Nat) (c : MCall E), (∀ l, n.call i ≠ .bound l) → (∀ e, c = .reading e → .connect i e ∈ H ++ [l]) →
      (∀ e, c = .writing e → .bind i e ∈ H ++ [l]) → Known (H ++ [l]) { n with call := upd n.call i c } := by
    intro i c hb hr hw
    have keep : ∀ j l, n.call j = .bound l → upd n.call i c j = .bound l := by
      intro j l hj
      rw [upd_ne _ _ (by rintro rfl; exact hb l hj)]; exact hj
    refine ⟨fun j e hj => ?_, fun j e hj => ?_, fun e l hl => ?_, fun l j hj => ?_⟩
    · by_cases e' : j = i
      · subst e'; simp only [upd_self] at hj; exact hr e hj
      · simp only [upd_ne _ _ e'] at hj; exact ext.rd j e hj
    · by_cases e' : j = i
      · subst e'; simp only [upd_self] at hj; exact hw e hj
      · simp only [upd_ne _ _ e'] at hj; exact ext.wr j e hj
    · obtain ⟨j, h1, h2⟩ := ext.tab e l hl; exact ⟨j, h1, keep j l h2⟩
    · obtain ⟨e, j', h1, h2, h3⟩ := ext.lst l j hj; exact ⟨e, j', h1, h2, keep j' l h3⟩
  cases hs with
  | connect i e hf =>
    have := chg i (.reading e) (by simp [hf]) (fun e' he => by cases he; simp) (by simp)
    exact ⟨this.rd, this.wr, this.tab, this.lst⟩
  | bind i e hf =>
    have := chg i (.writing e) (by simp [hf]) (by simp) (fun e' he => by cases he; simp)
    exact ⟨this.rd, this.wr, this.tab, this.lst⟩
  | refused i q e hq hc _ =>
    have := chg i .failed (by simp [hc]) (by simp) (by simp)
    exact ⟨this.rd, this.wr, this.tab, this.lst⟩
  | dead i q e l hq hc _ _ =>
    have := chg i .failed (by simp [hc]) (by simp) (by simp)
    exact ⟨this.rd, this.wr, this.tab, this.lst⟩
  | enter i q e l hq hc ht _ =>
    have := chg i (.waiting l) (by simp [hc]) (by simp) (by simp)
    refine ⟨this.rd, this.wr, this.tab, fun l' j hj => ?_⟩
    by_cases e' : l' = l
    · subst e'
      simp only [upd_self, List.mem_append, List.mem_singleton] at hj
      rcases hj with hj | rfl
      · exact this.lst l' j hj
      · obtain ⟨j', h1, h2⟩ := this.tab e l' ht
        exact ⟨e, j', ext.rd j e hc, h1, h2⟩
    · simp only [upd_ne _ _ e'] at hj; exact this.lst l' j hj
  | bound i q e hq hc _ =>
    have := chg i (.bound n.nl) (by simp [hc]) (by simp) (by simp)
    refine ⟨this.rd, this.wr, fun e' l' hl => ?_, this.lst⟩
    by_cases e'' : e' = e
    · subst e''
      simp only [if_true, Option.some.injEq] at hl
      subst hl
      exact ⟨i, ext.wr i e' hc, upd_self _ _ _⟩
    · simp only [if_neg e''] at hl; exact this.tab e' l' hl
  | accept l i q _ _ => exact ⟨ext.rd, ext.wr, ext.tab, ext.lst⟩
  | receive i l a q hc _ =>
    have := chg i (.connected a) (by simp [hc]) (by simp) (by simp)
    exact ⟨this.rd, this.wr, this.tab, this.lst⟩
  | noReply i l hc _ _ =>
    have := chg i .failed (by simp [hc]) (by simp) (by simp)
    exact ⟨this.rd, this.wr, this.tab, this.lst⟩
  | cancel i hc =>
    have := chg i .cancelled (by
      rcases hc with ⟨e, hc | hc⟩ | ⟨l, hc⟩ <;> simp [hc]) (by simp) (by simp)
    exact ⟨this.rd, this.wr, this.tab, this.lst⟩
  | close l _ => exact ⟨ext.rd, ext.wr, ext.tab, ext.lst⟩

theorem known_run {n n' : Mem E} {ls : List (MemLabel E)} (hr : Run n ls n') :
    ∀ H, Known H n → Known (H ++ ls) n' := by
  induction hr with
  | nil => intro H h; simpa using h
  | cons hs _ ih => intro H h; have := ih _ (known_step h hs); simpa using this

/-- Crossed or not, a connection is to a listener bound to the endpoint that was asked for: the stream it received and
the stream it was made for were both sent to the listener that some `bind` of this endpoint returned. -/
theorem C76_right_endpoint {n : Mem E} {ls : List (MemLabel E)} (hr : Run start ls n) (i a : Nat)
    (hc : n.call i = .connected a) :
    ∃ e l j c, .connect i e ∈ ls ∧ .bind j e ∈ ls ∧ n.call j = .bound l ∧ i ∈ n.sentTo l ∧
      n.accepted[a]? = some c ∧ c ∈ n.sentTo l := by
  have hi := inv_run inv_start hr
  have hk : Known ls n := by
    have := known_run hr [] ⟨by simp [start], by simp [start], by simp [start], by simp [start]⟩
    simpa using this
  obtain ⟨l, hl⟩ := hi.has i a hc
  have hs := (hi.got l i hl).1
  obtain ⟨e, j, h1, h2, h3⟩ := hk.lst l i hs
  obtain ⟨k, hk', hk2⟩ := List.mem_iff_getElem.1 hl
  obtain ⟨a', c, g1, g2, g3⟩ := hi.order l k i (by rw [List.getElem?_eq_getElem hk', hk2])
  rw [hc] at g1; cases g1
  exact ⟨e, l, j, c, h1, h2, h3, hs, g2, List.mem_of_getElem? g3⟩

/-! ## C77 -/

/-- A process binds endpoint 7, then endpoint 8, and accepts connections when both are bound, as `Broker::new` and
`Broker::start` do; somebody connects to endpoint 7 in between. -/
def between : List (MemLabel Nat) := [.bind 0 7, .enter, .connect 1 7, .enter, .bind 2 8]

/-- Neither accepting at, nor dropping, the first listener, nor giving up the call that waits for it. -/
def Before : MemLabel Nat → Prop
  | .accept l => l ≠ 0
  | .close l => l ≠ 0
  | .cancel i => i ≠ 1 ∧ i ≠ 2
  | _ => True

/-- **C77 does not hold**: after `between`, the second `bind` does not return, whatever else happens, before the
first listener accepts; but that comes after the second `bind` in `Broker::new`. Nor does any other call of
`connect` or `bind` made later return. -/
theorem C77_false : ∃ n : Mem Nat, Run start between n ∧
    ∀ ls n', (∀ l ∈ ls, Before l) → Run n ls n' → n'.call 2 = .writing 8 ∧ n'.call 1 = .waiting 0 ∧
      ∀ i, n.call i = .fresh → n'.call i ≠ .fresh → (∃ e, n'.call i = .reading e ∨ n'.call i = .writing e) ∨
        n'.call i = .cancelled := by
  have hr : ∃ n, Run (start : Mem Nat) between n ∧ n.call 2 = .writing 8 ∧ n.call 1 = .waiting 0 ∧ n.queue = [2] ∧
      n.outq 0 = [] ∧ n.closed 0 = false := by
    refine ⟨_, .cons (.bind _ 0 7 rfl) (.cons (.bound _ 0 [] 7 rfl rfl (no_holder ?_)) (.cons (.connect _ 1 7 rfl)
      (.cons (.enter _ 1 [] 7 0 rfl rfl rfl rfl) (.cons (.bind _ 2 8 rfl) (.nil _))))), rfl, rfl, rfl, rfl, rfl⟩
    intro j
    by_cases e : j = 0
    · subst e; right; intro l hl; cases hl
    · left; simp [upd, start, e]
  obtain ⟨n, hr, h1, h2, h3, h4, h5⟩ := hr
  refine ⟨n, hr, ?_⟩
  -- what stays true
  have key : ∀ ls (m m' : Mem Nat), (∀ l ∈ ls, Before l) → Run m ls m' →
      m.call 2 = .writing 8 → m.call 1 = .waiting 0 → (∃ q, m.queue = 2 :: q) → m.outq 0 = [] → m.closed 0 = false →
      m'.call 2 = .writing 8 ∧ m'.call 1 = .waiting 0 ∧
      ∀ i, (m.call i = .fresh ∨ (∃ e, m.call i = .reading e ∨ m.call i = .writing e) ∨ m.call i = .cancelled) →
        (m'.call i = .fresh ∨ (∃ e, m'.call i = .reading e ∨ m'.call i = .writing e) ∨ m'.call i = .cancelled) := by
    intro ls
    induction ls with
    | nil => intro m m' _ hr h1 h2 _ _ _; cases hr; exact ⟨h1, h2, fun i h => h⟩
    | cons l ls ih =>
      intro m m' hl hr h1 h2 ⟨q, h3⟩ h4 h5
      cases hr with
      | cons hs hr =>
        have hl' := hl l (by simp)
        have go := fun {x : Mem Nat} (hr : Run x ls m') => ih x m' (fun l h => hl l (by simp [h])) hr
        cases hs with
        | connect i e hf =>
          have n1 : (1 : Nat) ≠ i := by rintro rfl; rw [h2] at hf; cases hf
          have n2 : (2 : Nat) ≠ i := by rintro rfl; rw [h1] at hf; cases hf
          obtain ⟨g1, g2, g3⟩ := go hr (by simp only [upd_ne _ _ n2]; exact h1) (by simp only [upd_ne _ _ n1]; exact h2)
            ⟨q ++ [i], by simp [h3]⟩ h4 h5
          refine ⟨g1, g2, fun j hj => g3 j ?_⟩
          by_cases e' : j = i
          · subst e'; simp [upd_self]
          · simp only [upd_ne _ _ e']; exact hj
        | bind i e hf =>
          have n1 : (1 : Nat) ≠ i := by rintro rfl; rw [h2] at hf; cases hf
          have n2 : (2 : Nat) ≠ i := by rintro rfl; rw [h1] at hf; cases hf
          obtain ⟨g1, g2, g3⟩ := go hr (by simp only [upd_ne _ _ n2]; exact h1) (by simp only [upd_ne _ _ n1]; exact h2)
            ⟨q ++ [i], by simp [h3]⟩ h4 h5
          refine ⟨g1, g2, fun j hj => g3 j ?_⟩
          by_cases e' : j = i
          · subst e'; simp [upd_self]
          · simp only [upd_ne _ _ e']; exact hj
        | refused i q' e hq hc _ => rw [h3] at hq; cases hq; rw [h1] at hc; cases hc
        | dead i q' e l hq hc _ _ => rw [h3] at hq; cases hq; rw [h1] at hc; cases hc
        | enter i q' e l hq hc _ _ => rw [h3] at hq; cases hq; rw [h1] at hc; cases hc
        | bound i q' e hq hc hh => exact absurd ⟨0, h2⟩ (hh 1)
        | accept l i q' _ _ =>
          have : (0 : Nat) ≠ l := fun e => hl' e.symm
          obtain ⟨g1, g2, g3⟩ := go hr h1 h2 ⟨q, h3⟩ (by simp only [upd_ne _ _ this]; exact h4) h5
          exact ⟨g1, g2, g3⟩
        | receive i l a q' hc hout =>
          have n1 : (1 : Nat) ≠ i := by
            rintro rfl; rw [h2] at hc; cases hc; rw [h4] at hout; cases hout
          have n2 : (2 : Nat) ≠ i := by rintro rfl; rw [h1] at hc; cases hc
          have n0 : (0 : Nat) ≠ l := by rintro rfl; rw [h4] at hout; cases hout
          obtain ⟨g1, g2, g3⟩ := go hr (by simp only [upd_ne _ _ n2]; exact h1) (by simp only [upd_ne _ _ n1]; exact h2)
            ⟨q, h3⟩ (by simp only [upd_ne _ _ n0]; exact h4) h5
          refine ⟨g1, g2, fun j hj => g3 j ?_⟩
          have e' : j ≠ i := by
            rintro rfl
            rw [hc] at hj; simp at hj
          simp only [upd_ne _ _ e']; exact hj
        | noReply i l hc _ hcl =>
          have n1 : (1 : Nat) ≠ i := by
            rintro rfl; rw [h2] at hc; cases hc; rw [h5] at hcl; cases hcl
          have n2 : (2 : Nat) ≠ i := by rintro rfl; rw [h1] at hc; cases hc
          obtain ⟨g1, g2, g3⟩ := go hr (by simp only [upd_ne _ _ n2]; exact h1) (by simp only [upd_ne _ _ n1]; exact h2)
            ⟨q, h3⟩ h4 h5
          refine ⟨g1, g2, fun j hj => g3 j ?_⟩
          have e' : j ≠ i := by
            rintro rfl
            rw [hc] at hj; simp at hj
          simp only [upd_ne _ _ e']; exact hj
        | cancel i _ =>
          have n1 : (1 : Nat) ≠ i := fun e => hl'.1 e.symm
          have n2 : (2 : Nat) ≠ i := fun e => hl'.2 e.symm
          obtain ⟨g1, g2, g3⟩ := go hr (by simp only [upd_ne _ _ n2]; exact h1) (by simp only [upd_ne _ _ n1]; exact h2)
            ⟨q.filter (· ≠ i), by simp [h3, n2]⟩ h4 h5
          refine ⟨g1, g2, fun j hj => g3 j ?_⟩
          by_cases e' : j = i
          · subst e'; simp [upd_self]
          · simp only [upd_ne _ _ e']; exact hj
        | close l _ =>
          have : (0 : Nat) ≠ l := fun e => hl' e.symm
          obtain ⟨g1, g2, g3⟩ := go hr h1 h2 ⟨q, h3⟩ h4 (by simp only [upd_ne _ _ this]; exact h5)
          exact ⟨g1, g2, g3⟩
  intro ls n' hl hr'
  obtain ⟨g1, g2, g3⟩ := key ls n n' hl hr' h1 h2 ⟨[], h3⟩ h4 h5
  refine ⟨g1, g2, fun i hi hf => ?_⟩
  rcases g3 i (Or.inl hi) with h | h | h
  · exact absurd h hf
  · exact Or.inl h
  · exact Or.inr h

/-- Only the lock, the listeners and the waiting calls proceed: no new call, nothing given up or dropped. -/
def Served : MemLabel E → Prop
  | .enter | .accept _ | .receive _ => True
  | _ => False

theorem Run.append {n n' n'' : Mem E} {ls ls'} (h : Run n ls n') (h' : Run n' ls' n'') : Run n (ls ++ ls') n'' := by
  induction h with
  | nil => exact h'
  | cons hs _ ih => exact .cons hs (ih h')

/-- What calls still have to do: 2 for the lock, 1 for the stream. -/
def left (n : Mem E) (i : Nat) : Nat :=
  match n.call i with
  | .reading _ | .writing _ => 2
  | .waiting _ => 1
  | _ => 0

theorem sum_upd_lt (L : List Nat) (f g : Nat → Nat) (i : Nat) (hi : i ∈ L) (hg : g i < f i)
    (ho : ∀ j, j ≠ i → g j = f j) : (L.map g).sum < (L.map f).sum := by
  induction L with
  | nil => simp at hi
  | cons a L ih =>
    simp only [List.map_cons, List.sum_cons]
    by_cases e : a = i
    · subst e
      have : (L.map g).sum ≤ (L.map f).sum := by
        clear ih hi
        induction L with
        | nil => simp
        | cons b L ih' =>
          simp only [List.map_cons, List.sum_cons]
          have : g b ≤ f b := by
            by_cases e : b = a
            · subst e; omega
            · rw [ho b e]; exact Nat.le_refl _
          omega
      omega
    · have := ih (by simpa [Ne.symm e] using hi)
      rw [ho a e]; omega

/-- Whoever waits for an open listener is owed a stream. -/
theorem owed {n : Mem E} (h : Inv n) (l i : Nat) (hw : n.call i = .waiting l) (hopen : n.closed l = false) :
    n.outq l ≠ [] ∨ n.inq l ≠ [] := by
  apply Classical.byContradiction
  intro hc
  have h1 : n.outq l = [] := Classical.byContradiction fun h => hc (Or.inl h)
  have h2 : n.inq l = [] := Classical.byContradiction fun h => hc (Or.inr h)
  have h3 := h.inn l hopen
  rw [h2, h1] at h3
  have h4 : (n.sentTo l).length ≤ (n.gotFrom l).length := by simpa using h3.symm
  have h5 : i ∉ n.gotFrom l := by
    intro hi; obtain ⟨_, a, ha⟩ := h.got l i hi; rw [hw] at ha; cases ha
  have h6 : ∀ j ∈ n.gotFrom l, j ∈ (n.sentTo l).erase i := by
    intro j hj
    rw [(h.sentNodup l).mem_erase_iff]
    exact ⟨fun e => h5 (e ▸ hj), (h.got l j hj).1⟩
  have h7 : (n.gotFrom l).length ≤ ((n.sentTo l).erase i).length :=
    (List.subperm_of_subset (h.gotNodup l) h6).length_le
  rw [List.length_erase_of_mem (h.waits l i hw)] at h7
  have := List.length_pos_of_mem (h.waits l i hw)
  omega

/-- **C77, partial.** As long as the listeners accept, every call can return: from every reachable state a
series of steps of the lock, the listeners and the calls themselves leads to a state in which no call is pending.
Missing, since false: a listener that accepts only after another call has returned (`C77_false`). -/
theorem C77_served_partial {n : Mem E} {ls : List (MemLabel E)} (hr : Run start ls n) :
    ∃ ls' n', (∀ l ∈ ls', Served l) ∧ Run n ls' n' ∧ ∀ i, ¬ Pending n' i := by
  have h := inv_run inv_start hr
  clear hr
  obtain ⟨L, hL⟩ := h.finite
  generalize hk : (L.map (left n)).sum = k
  induction k using Nat.strongRecOn generalizing n with
  | ind k ih =>
    -- a step that brings a call forward
    have fwd : ∀ (n1 n2 : Mem E) (l : MemLabel E) (pre : List (MemLabel E)) (i : Nat) (c : MCall E), Run n pre n1 →
        (∀ l ∈ pre, Served l) → Served l → Step n1 l n2 → n1.call = n.call → n2.call = upd n.call i c →
        n.call i ≠ .fresh → left n2 i < left n i →
        ∃ ls' n', (∀ l ∈ ls', Served l) ∧ Run n ls' n' ∧ ∀ i, ¬ Pending n' i := by
      intro n1 n2 l pre i c hp hs1 hs2 hst e1 e2 hi hlt
      have hi2 := inv_step (inv_run h hp) hst
      obtain ⟨ls', n', g1, g2, g3⟩ := ih ((L.map (left n2)).sum) (by
        rw [← hk]
        refine sum_upd_lt L _ _ i (hL i hi) hlt (fun j hj => ?_)
        simp only [left, e2, upd_ne _ _ hj]) (n := n2) hi2 (by
        intro j hj
        by_cases e : j = i
        · subst e; exact hL j hi
        · rw [e2, upd_ne _ _ e] at hj; exact hL j hj) rfl
      refine ⟨pre ++ l :: ls', n', ?_, Run.append hp (.cons hst g2), g3⟩
      intro x hx
      simp only [List.mem_append, List.mem_cons] at hx
      rcases hx with hx | rfl | hx
      · exact hs1 x hx
      · exact hs2
      · exact g1 x hx
    by_cases hwait : ∃ i, n.holds i
    · obtain ⟨i, l, hw⟩ := hwait
      have hnf : n.call i ≠ .fresh := by simp [hw]
      have hl1 : left n i = 1 := by simp [left, hw]
      cases hout : n.outq l with
      | cons a q =>
        exact fwd n _ (.receive i) [] i (.connected a) (.nil _) (by simp) trivial (.receive n i l a q hw hout) rfl rfl hnf
          (by rw [hl1]; simp [left, upd_self])
      | nil =>
        cases hcl : n.closed l with
        | true =>
          exact fwd n _ (.receive i) [] i .failed (.nil _) (by simp) trivial (.noReply n i l hw hout hcl) rfl rfl hnf
            (by rw [hl1]; simp [left, upd_self])
        | false =>
          rcases owed h l i hw hcl with h1 | h1
          · exact absurd hout h1
          · obtain ⟨c, q, hin⟩ := List.exists_cons_of_ne_nil h1
            refine fwd _ _ (.receive i) [.accept l] i (.connected n.accepted.length)
              (.cons (.accept n l c q hcl hin) (.nil _)) (by simp [Served]) trivial
              (.receive _ i l n.accepted.length [] hw (by simp [upd_self, hout])) rfl rfl hnf
              (by rw [hl1]; simp [left, upd_self])
    · have hno : ∀ j, ¬ n.holds j := fun j hj => hwait ⟨j, hj⟩
      cases hq : n.queue with
      | nil =>
        refine ⟨[], n, by simp, .nil _, ?_⟩
        rintro i (h' | h')
        · have := (h.queued i).2 h'; rw [hq] at this; simp at this
        · exact hno i h'
      | cons i q =>
        obtain ⟨e, hc | hc⟩ := (h.queued i).1 (by rw [hq]; simp)
        · have hnf : n.call i ≠ .fresh := by simp [hc]
          have hl2 : left n i = 2 := by simp [left, hc]
          cases ht : n.table e with
          | none =>
            exact fwd n _ .enter [] i .failed (.nil _) (by simp) trivial (.refused n i q e hq hc ht) rfl rfl hnf
              (by rw [hl2]; simp [left, upd_self])
          | some l =>
            cases hcl : n.closed l with
            | true =>
              exact fwd n _ .enter [] i .failed (.nil _) (by simp) trivial (.dead n i q e l hq hc ht hcl) rfl rfl hnf
                (by rw [hl2]; simp [left, upd_self])
            | false =>
              exact fwd n _ .enter [] i (.waiting l) (.nil _) (by simp) trivial (.enter n i q e l hq hc ht hcl) rfl rfl hnf
                (by rw [hl2]; simp [left, upd_self])
        · have hnf : n.call i ≠ .fresh := by simp [hc]
          have hl2 : left n i = 2 := by simp [left, hc]
          exact fwd n _ .enter [] i (.bound n.nl) (.nil _) (by simp) trivial (.bound n i q e hq hc hno) rfl rfl hnf
            (by rw [hl2]; simp [left, upd_self])

end Verif.Props.Memory

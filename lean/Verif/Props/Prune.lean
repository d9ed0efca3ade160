import Verif.Model.Topic

/-!
# Property C16: topic pruning
-/

namespace Verif.Props.Prune
open Verif

theorem dedup_sublist (l : List Topic) : (dedup l).Sublist l := by
  fun_induction dedup l with
  | case1 => exact List.Sublist.refl _
  | case2 a => exact List.Sublist.refl _
  | case3 b l ih => exact List.Sublist.cons _ ih
  | case4 a b l hab ih => exact List.Sublist.cons_cons a ih

theorem mem_dedup (l : List Topic) (t : Topic) : t ∈ dedup l ↔ t ∈ l := by
  fun_induction dedup l with
  | case1 => exact Iff.rfl
  | case2 a => exact Iff.rfl
  | case3 b l ih => rw [ih]; simp
  | case4 a b l hab ih => rw [List.mem_cons, ih, List.mem_cons (a := t) (b := a)]

/-- The sentence "no two neighbours are equal". -/
def NoEqualNeighbours (l : List Topic) : Prop :=
  ∀ a b xs ys, l = xs ++ a :: b :: ys → a ≠ b

theorem head_dedup (b : Topic) (l : List Topic) : ∃ l', dedup (b :: l) = b :: l' := by
  induction l generalizing b with
  | nil => exact ⟨[], rfl⟩
  | cons c l ih =>
    simp only [dedup]
    split
    · rename_i h; subst h; exact ih b
    · exact ⟨_, rfl⟩

theorem dedup_noEqualNeighbours (l : List Topic) : NoEqualNeighbours (dedup l) := by
  fun_induction dedup l with
  | case1 => intro a b xs ys h; cases xs <;> simp at h
  | case2 a =>
    intro x y xs ys h
    cases xs with
    | nil => simp at h
    | cons z xs => cases xs <;> simp at h
  | case3 b l ih => exact ih
  | case4 a b l hab ih =>
    intro x y xs ys h
    obtain ⟨l', hl'⟩ := head_dedup b l
    cases xs with
    | nil =>
      rw [hl'] at h
      simp only [List.nil_append, List.cons.injEq] at h
      rw [← h.1, ← h.2.1]; exact hab
    | cons z xs =>
      simp only [List.cons_append, List.cons.injEq] at h
      exact ih x y xs ys h.2

/-- A list obtained by shrinking every run of equal neighbours to a single element: the same list up
to the number of repetitions inside a run. -/
inductive Squeezed : List Topic → List Topic → Prop
  | nil : Squeezed [] []
  /-- a run of `n + 1` copies of `a`, followed by something that does not begin with `a` -/
  | run (a : Topic) (n : Nat) (rest out : List Topic) (h : rest.head? ≠ some a)
      (ih : Squeezed rest out) : Squeezed (List.replicate (n + 1) a ++ rest) (a :: out)

theorem squeezed_cons_same {b : Topic} {l out : List Topic} (h : Squeezed (b :: l) out) :
    Squeezed (b :: b :: l) out := by
  generalize hx : b :: l = x at h
  cases h with
  | nil => simp at hx
  | run a n rest out hh ih =>
    rw [List.replicate_succ, List.cons_append, List.cons.injEq] at hx
    obtain ⟨rfl, rfl⟩ := hx
    exact Squeezed.run b (n + 1) rest out hh ih

theorem dedup_squeezed (l : List Topic) : Squeezed l (dedup l) := by
  fun_induction dedup l with
  | case1 => exact .nil
  | case2 a => exact .run a 0 [] [] (by simp) .nil
  | case3 b l ih => exact squeezed_cons_same ih
  | case4 a b l hab ih =>
    refine .run a 0 (b :: l) _ ?_ ih
    simp only [List.head?_cons, ne_eq, Option.some.injEq]
    exact fun h => hab h.symm

/-- **C16.** `prune` fails exactly when no supplied topic is valid; the vector it leaves is obtained by
first shrinking runs of equal neighbours to one and then keeping the valid topics, hence is a
subsequence of the input holding exactly its valid topics. -/
theorem C16_prune (valid : Topic → Bool) (topics : List Topic) :
    ((prune valid topics).2 = false ↔ ∀ t ∈ topics, valid t = false) ∧
    (prune valid topics).1.Sublist topics ∧
    (∀ t, t ∈ (prune valid topics).1 ↔ t ∈ topics ∧ valid t = true) ∧
    (∃ once, Squeezed topics once ∧ (prune valid topics).1 = once.filter valid) := by
  have hmem : ∀ t, t ∈ (prune valid topics).1 ↔ t ∈ topics ∧ valid t = true := by
    intro t; simp only [prune, List.mem_filter, mem_dedup]
  refine ⟨?_, ?_, hmem, dedup topics, dedup_squeezed topics, rfl⟩
  · have h : (prune valid topics).2 = !(prune valid topics).1.isEmpty := rfl
    rw [h]
    cases hp : (prune valid topics).1 with
    | nil =>
      rw [hp] at hmem
      simp only [List.isEmpty_nil, Bool.not_true, true_iff]
      intro t ht
      have := hmem t
      simp only [List.not_mem_nil, false_iff, not_and] at this
      simpa using this ht
    | cons a l =>
      rw [hp] at hmem
      have ha := (hmem a).1 (by simp)
      simp only [List.isEmpty_cons, Bool.not_false, Bool.true_eq_false, false_iff]
      intro h
      have := h a ha.1
      rw [ha.2] at this; simp at this
  · exact List.Sublist.trans List.filter_sublist (dedup_sublist topics)

/-- **C16**, adjacent repetitions: if all supplied topics are valid, no two neighbours of the result
are equal. -/
theorem C16_no_adjacent_repetition (valid : Topic → Bool) (topics : List Topic)
    (h : ∀ t ∈ topics, valid t = true) : NoEqualNeighbours (prune valid topics).1 := by
  have : (prune valid topics).1 = dedup topics := by
    simp only [prune]
    rw [List.filter_eq_self]
    intro t ht; exact h t ((mem_dedup topics t).1 ht)
  rw [this]; exact dedup_noEqualNeighbours topics

/-- The squeezed form of a list is unique, so `Squeezed` pins `prune` down completely. -/
theorem squeezed_unique {l a b : List Topic} (ha : Squeezed l a) (hb : Squeezed l b) : a = b := by
  induction ha generalizing b with
  | nil =>
    generalize hx : ([] : List Topic) = x at hb
    cases hb with
    | nil => rfl
    | run c n rest out h ih => simp [List.replicate_succ] at hx
  | run c n rest out h ih IH =>
    generalize hx : List.replicate (n + 1) c ++ rest = x at hb
    cases hb with
    | nil => simp [List.replicate_succ] at hx
    | run d m rest' out' h' ih' =>
      have hcd : c = d := by
        simp only [List.replicate_succ, List.cons_append, List.cons.injEq] at hx; exact hx.1
      subst hcd
      have key : ∀ (n m : Nat), List.replicate n c ++ rest = List.replicate m c ++ rest' →
          rest = rest' := by
        intro n
        induction n with
        | zero =>
          intro m e
          cases m with
          | zero => simpa using e
          | succ m =>
            simp only [List.replicate_zero, List.nil_append, List.replicate_succ,
              List.cons_append] at e
            rw [e] at h; simp at h
        | succ n ihn =>
          intro m e
          cases m with
          | zero =>
            simp only [List.replicate_zero, List.nil_append, List.replicate_succ,
              List.cons_append] at e
            rw [← e] at h'; simp at h'
          | succ m =>
            simp only [List.replicate_succ, List.cons_append, List.cons.injEq, true_and] at e
            exact ihn m e
      have := key _ _ hx
      subst this
      rw [IH ih']

/-- Non-trivial instance of C16: repetitions, an invalid topic between equal valid ones. -/
example : prune testTopic [1, 1, 7, 7, 1, 0, 0, 200] = ([1, 1, 0], true) ∧
    prune testTopic [7, 7, 9] = ([], false) := by decide

end Verif.Props.Prune

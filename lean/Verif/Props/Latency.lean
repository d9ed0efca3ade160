import Verif.Model.Latency

/-!
# C96: running_latency is the average latency since the previous round
-/

namespace Verif.Props.Latency
open Verif.Latency

/-- The latencies of the messages released. -/
def released : List Label → List Nat
  | [] => []
  | .release v :: ls => v :: released ls
  | _ :: ls => released ls

/-- The average. -/
def mean (vs : List Nat) : Rat := (vs.sum : Rat) / (vs.length : Rat)

/-- **C96**, the full claim: in every run, when a round is completed, the gauge shows the average latency of the messages released
since the previous round was completed (`mid`: no round in it). -/
def Averages : Prop := ∀ pre mid s, Run St.init (pre ++ .readCount :: mid ++ [.readCount]) s → .readCount ∉ mid →
  s.gauge = mean (released mid)

theorem released_append (a b : List Label) : released (a ++ b) = released a ++ released b := by
  induction a with
  | nil => rfl
  | cons l a ih => cases l <;> simp [released, ih]

/-- Sum and count have what was released, except for what is under way. -/
structure Books (ls : List Label) (s : St) : Prop where
  sum : s.sum + s.noSum.sum = (released ls).sum
  count : s.count + s.noCount = (released ls).length
  prevSum : s.prevSum ≤ s.sum
  prevCount : s.prevCount ≤ s.count
  cur : ∀ c, s.cur = some c → s.prevSum ≤ c ∧ c ≤ s.sum

theorem books_run {ls : List Label} {s : St} (h : Run St.init ls s) : Books ls s := by
  induction h with
  | nil => exact ⟨rfl, rfl, Nat.le_refl _, Nat.le_refl _, fun c h => by cases h⟩
  | @snoc ls s1 l s2 _ hs ih =>
    obtain ⟨h1, h2, h3, h4, h5⟩ := ih
    cases hs with
    | release v =>
      refine ⟨?_, ?_, h3, h4, h5⟩
      · simp only [released_append, released, List.sum_append, List.sum_cons, List.sum_nil]; omega
      · simp only [released_append, released, List.length_append, List.length_singleton]; omega
    | addSum v p q e =>
      refine ⟨?_, by simpa [released_append, released] using h2, by dsimp only; omega, h4, fun c hc => ?_⟩
      · rw [e] at h1
        simp only [released_append, released, List.append_nil, List.sum_append, List.sum_cons] at h1 ⊢; omega
      · have := h5 c hc; dsimp only; omega
    | addCount n e =>
      refine ⟨by simpa [released_append, released] using h1, ?_, h3, by dsimp only; omega, h5⟩
      rw [e] at h2
      simp only [released_append, released, List.append_nil] at h2 ⊢; omega
    | readSum e =>
      exact ⟨by simpa [released_append, released] using h1, by simpa [released_append, released] using h2, h3, h4,
        fun c hc => by cases hc; exact ⟨h3, Nat.le_refl _⟩⟩
    | readCount c e =>
      exact ⟨by simpa [released_append, released] using h1, by simpa [released_append, released] using h2, (h5 c e).2,
        Nat.le_refl _, fun c hc => by cases hc⟩

theorem run_split {s0 s : St} {l : Label} {b : List Label} : ∀ {a : List Label}, Run s0 (a ++ l :: b) s →
    ∃ s1 s2, Run s0 a s1 ∧ Step s1 l s2 ∧ Run s2 b s := by
  intro a h
  generalize e : a ++ l :: b = ls at h
  induction h generalizing b with
  | nil => simp at e
  | @snoc ls s1 l' s2 h hs ih =>
    rcases List.eq_nil_or_concat b with rfl | ⟨b', x, rfl⟩
    · obtain ⟨e1, e2⟩ := List.append_inj' e rfl
      cases e2; subst e1
      exact ⟨s1, s2, h, hs, .nil⟩
    · have e' : (a ++ l :: b') ++ [x] = ls ++ [l'] := by rw [← e]; simp
      obtain ⟨e1, e2⟩ := List.append_inj' e' rfl
      cases e2
      obtain ⟨t1, t2, h1, h2, h3⟩ := ih e1
      exact ⟨t1, t2, h1, h2, by rw [List.concat_eq_append]; exact .snoc h3 hs⟩

/-- The values of the previous round stay until the next one is completed. -/
theorem prev_stays {s s' : St} {ls : List Label} (h : Run s ls s') (hn : .readCount ∉ ls) :
    s'.prevSum = s.prevSum ∧ s'.prevCount = s.prevCount ∧ s'.gauge = s.gauge := by
  induction h with
  | nil => exact ⟨rfl, rfl, rfl⟩
  | snoc _ hs ih =>
    obtain ⟨h1, h2, h3⟩ := ih fun hm => hn (List.mem_append_left _ hm)
    cases hs with
    | readCount c e => exact absurd (List.mem_append_right _ List.mem_cons_self) hn
    | _ => exact ⟨h1, h2, h3⟩

/-- Nothing is being observed. -/
def Idle (s : St) : Prop := s.noSum = [] ∧ s.noCount = 0

/-- A round during which nothing is observed. -/
theorem round_reads {pre : List Label} {s0 s : St} (h0 : Run St.init pre s0) (hq : Idle s0)
    (h : Run s0 [.readSum, .readCount] s) : s.prevSum = (released pre).sum ∧ s.prevCount = (released pre).length ∧
    s.gauge = (if (released pre).length - s0.prevCount ≠ 0 then
      (((released pre).sum - s0.prevSum : Nat) : Rat) / (((released pre).length - s0.prevCount : Nat) : Rat) else s0.gauge) ∧
    s0.prevCount ≤ (released pre).length := by
  obtain ⟨s1, s2, r1, t, r2⟩ := run_split (a := []) h
  obtain ⟨s3, s4, r3, t2, r4⟩ := run_split (a := []) r2
  have nil : ∀ {s s' : St}, Run s [] s' → s' = s := by
    intro s s' r
    generalize hl : ([] : List Label) = l at r
    cases r with
    | nil => rfl
    | snoc _ _ => simp at hl
  cases nil r1
  cases nil r3
  cases nil r4
  have hb := books_run h0
  have h1 : s0.sum = (released pre).sum := by have := hb.sum; rw [hq.1] at this; simpa using this
  have h2 : s0.count = (released pre).length := by have := hb.count; rw [hq.2] at this; simpa using this
  cases t with
  | readSum e =>
    cases t2 with
    | readCount c e' =>
      cases e'
      exact ⟨h1, h2, by rw [← h1, ← h2], h2 ▸ hb.prevCount⟩

/-- **C96, what holds.** Two rounds during which nothing is being observed, and anything but a round in between: the gauge shows
the average latency of the messages released in between, or what it showed before if there were none. -/
theorem C96_partial {pre mid : List Label} {s0 s1 s2 s3 : St} (h0 : Run St.init pre s0) (q0 : Idle s0)
    (h1 : Run s0 [.readSum, .readCount] s1) (h2 : Run s1 mid s2) (hm : .readSum ∉ mid ∧ .readCount ∉ mid) (q2 : Idle s2)
    (h3 : Run s2 [.readSum, .readCount] s3) :
    s3.gauge = if released mid = [] then s1.gauge else mean (released mid) := by
  obtain ⟨a1, a2, _, _⟩ := round_reads h0 q0 h1
  have tr : ∀ {s s' s'' : St} {ls ls' : List Label}, Run s ls s' → Run s' ls' s'' → Run s (ls ++ ls') s'' := by
    intro s s' s'' ls ls' h h'
    induction h' with
    | nil => simpa using h
    | snoc _ hs ih => rw [← List.append_assoc]; exact .snoc ih hs
  obtain ⟨b1, b2, b3⟩ := prev_stays h2 hm.2
  obtain ⟨_, _, c3, c4⟩ := round_reads (tr h0 (tr h1 h2)) q2 h3
  have e : released (pre ++ ([.readSum, .readCount] ++ mid)) = released pre ++ released mid := by
    rw [released_append, released_append]; simp [released]
  rw [c3, e, b1, b2, a1, a2, b3]
  simp only [List.length_append, List.sum_append, Nat.add_sub_cancel_left]
  by_cases hn : released mid = []
  · rw [hn]; simp
  · rw [if_neg hn, if_pos (fun h => hn (List.length_eq_zero_iff.1 h))]
    rfl

/-- The first round after the start, with nothing being observed: the average over all messages. -/
theorem C96_first_partial {pre : List Label} {s0 s1 : St} (h0 : Run St.init pre s0) (hp : .readSum ∉ pre ∧ .readCount ∉ pre)
    (q0 : Idle s0) (h1 : Run s0 [.readSum, .readCount] s1) :
    s1.gauge = if released pre = [] then 0 else mean (released pre) := by
  obtain ⟨_, _, c3, _⟩ := round_reads h0 q0 h1
  obtain ⟨b1, b2, b3⟩ := prev_stays h0 hp.2
  rw [c3, b1, b2, b3]
  by_cases hn : released pre = []
  · rw [hn]; simp [St.init]
  · rw [if_neg hn, if_pos (fun h => hn (List.length_eq_zero_iff.1 (by simpa [St.init] using h)))]
    rfl

/-! ## The full claim is false -/

theorem run_cons {s s' s'' : St} {l : Label} {ls : List Label} (h : Step s l s') (h' : Run s' ls s'') : Run s (l :: ls) s'' := by
  induction h' with
  | nil => exact .snoc .nil h
  | snoc _ hs ih => exact .snoc ih hs

theorem run_append {s s' s'' : St} {ls ls' : List Label} (h : Run s ls s') (h' : Run s' ls' s'') : Run s (ls ++ ls') s'' := by
  induction h' with
  | nil => simpa using h
  | snoc _ hs ih => rw [← List.append_assoc]; exact .snoc ih hs

theorem one_inv : (1 : Rat)⁻¹ = 1 := by decide +kernel

/-- A message with latency `v` is released while the calculator is between its two reads, and one with latency `w` before the
next round. The gauge shows 0 and then `v + w`. -/
theorem C96_mixed (v w : Nat) : ∃ s1 s2,
    Run St.init [.readSum, .release v, .addSum v, .addCount, .readCount] s1 ∧ s1.gauge = 0 ∧
    Run s1 [.release w, .addSum w, .addCount, .readSum, .readCount] s2 ∧ s2.gauge = ((v + w : Nat) : Rat) := by
  refine ⟨⟨v, 1, [], 0, 0, 1, none, 0⟩, ⟨v + w, 2, [], 0, v + w, 2, none, ((v + w : Nat) : Rat)⟩, ?_, rfl, ?_, rfl⟩
  · refine run_cons (.readSum _ rfl) (run_cons (.release _ v) (run_cons (.addSum _ v [] [] rfl)
      (run_cons (.addCount _ 0 rfl) (run_cons (s' := _) (.readCount _ 0 rfl) ?_))))
    simp [St.init, Rat.div_def, Rat.zero_mul]
    exact .nil
  · refine run_cons (.release _ w) (run_cons (.addSum _ w [] [] rfl) (run_cons (.addCount _ 0 rfl)
      (run_cons (.readSum _ rfl) (run_cons (.readCount _ (v + w) rfl) ?_))))
    simp [Rat.div_def, one_inv, Rat.mul_one]
    exact .nil

/-- When a round is completed and nothing is observed after it, the gauge stays as it is, however many rounds follow: it shows the
average of a time long ago. -/
theorem C96_stale {pre ls : List Label} {s1 s2 : St} (h1 : Run St.init (pre ++ [.readCount]) s1) (h2 : Run s1 ls s2)
    (hc : ∀ l ∈ ls, l = .readSum ∨ l = .readCount) : s2.gauge = s1.gauge := by
  obtain ⟨t1, t2, _, t, r⟩ := run_split h1
  have e1 : s1.count = s1.prevCount := by
    generalize hl : ([] : List Label) = l at r
    cases r with
    | nil => cases t; rfl
    | snoc _ _ => simp at hl
  have : s2.gauge = s1.gauge ∧ s2.count = s2.prevCount := by
    induction h2 with
    | nil => exact ⟨rfl, e1⟩
    | snoc _ hs ih =>
      obtain ⟨i1, i2⟩ := ih fun l hl => hc l (List.mem_append_left _ hl)
      rcases hc _ (List.mem_append_right _ List.mem_cons_self) with rfl | rfl
      · cases hs; exact ⟨i1, i2⟩
      · cases hs; exact ⟨by simp [i2, i1], rfl⟩
  exact this.1

/-- **C96 is false** in general. -/
theorem C96_false : ¬ Averages := by
  intro h
  obtain ⟨s1, s2, r1, _, r2, e⟩ := C96_mixed 3 5
  have r : Run St.init ([.readSum, .release 3, .addSum 3, .addCount] ++ .readCount ::
      [.release 5, .addSum 5, .addCount, .readSum] ++ [.readCount]) s2 := by
    simpa using run_append r1 r2
  have := h _ _ _ r (by decide)
  rw [e] at this
  revert this
  decide +kernel

/-! ## A case -/

/-- Two messages with latencies 3 and 8 between two rounds, then two rounds without messages. -/
example : ∃ s0 s1 s2 s3 s4, Run St.init [.release 4, .addCount, .addSum 4] s0 ∧ Idle s0 ∧ Run s0 [.readSum, .readCount] s1 ∧
    Run s1 [.release 3, .release 8, .addSum 3, .addCount, .addCount, .addSum 8] s2 ∧ Idle s2 ∧
    Run s2 [.readSum, .readCount] s3 ∧ s3.gauge = 11 / 2 ∧ Run s3 [.readSum, .readCount, .readSum, .readCount] s4 ∧
    s4.gauge = 11 / 2 := by
  have h0 : Run St.init [.release 4, .addCount, .addSum 4] _ :=
    run_cons (.release _ 4) (run_cons (.addCount _ 0 rfl) (run_cons (.addSum _ 4 [] [] rfl) .nil))
  exact ⟨_, _, _, _, _, h0, ⟨rfl, rfl⟩, run_cons (.readSum _ rfl) (run_cons (.readCount _ 4 rfl) .nil),
    run_cons (.release _ 3) (run_cons (.release _ 8) (run_cons (.addSum _ 3 [8] [] rfl)
    (run_cons (.addCount _ 1 rfl) (run_cons (.addCount _ 0 rfl) (run_cons (.addSum _ 8 [] [] rfl) .nil))))), ⟨rfl, rfl⟩,
    run_cons (.readSum _ rfl) (run_cons (.readCount _ 15 rfl) .nil), by decide +kernel,
    run_cons (.readSum _ rfl) (run_cons (.readCount _ 15 rfl) (run_cons (.readSum _ rfl) (run_cons (.readCount _ 15 rfl) .nil))),
    by decide +kernel⟩

end Verif.Props.Latency

import Verif.Props.Pool

/-!
# C107: how long a reader waits for memory

Timed schedules: step `t` of an endless schedule happens at time `τ t`.
-/

namespace Verif.Props.Wait
open Verif.Pool Verif.Props.Pool

/-- Who is served asked for what it gets. -/
theorem assign_served (k : Nat) (q : List Waiter) : ∀ w ∈ (assign k q).2.2, w ∈ q := by
  induction q generalizing k with
  | nil => simp [assign]
  | cons x q ih =>
    intro w hw
    simp only [assign] at hw
    split at hw
    · rcases List.mem_cons.1 hw with rfl | hw
      · exact List.mem_cons_self
      · exact List.mem_cons_of_mem _ (ih _ w hw)
    · cases hw

theorem granted_asked (s : Pool) (l : Label) (j m : Nat) (h : Obs.granted j m ∈ (s.step l).2) :
    (∃ w ∈ s.queue, w.id = j ∧ w.need = m) ∨ (j = s.next ∧ l = .request m) := by
  have hrel : ∀ (s : Pool) (k : Nat), Obs.granted j m ∈ (s.release k).2 → ∃ w ∈ s.queue, w.id = j ∧ w.need = m := by
    intro s k hk
    unfold Pool.release at hk
    obtain ⟨w, hw, he⟩ := List.mem_map.1 hk
    simp only [Obs.granted.injEq] at he
    exact ⟨w, assign_served k s.queue w hw, he⟩
  cases l with
  | request n =>
    simp only [Pool.step] at h
    split at h
    · simp at h
      exact .inr ⟨h.1, by rw [h.2]⟩
    · simp at h
  | cancel i =>
    simp only [Pool.step] at h
    split at h
    · simp at h
    · rename_i q1 w q2 hp
      simp only [List.mem_cons, reduceCtorEq, false_or] at h
      obtain ⟨x, hx, he⟩ := hrel _ _ h
      refine .inl ⟨x, ?_, he⟩
      obtain ⟨e, -⟩ := pick_some hp
      rw [e]
      simp only [List.mem_append, List.mem_cons] at hx ⊢
      rcases hx with hx | hx
      · exact .inl hx
      · exact .inr (.inr hx)
  | clone i =>
    simp only [Pool.step] at h
    repeat' split at h
    all_goals simp at h
  | dropPtr i =>
    simp only [Pool.step] at h
    repeat' split at h
    all_goals simp at h
  | dropPermit i =>
    simp only [Pool.step] at h
    split at h
    · simp at h
    · split at h
      · split at h
        · simp only [List.mem_cons, reduceCtorEq, false_or] at h
          exact .inl (hrel _ _ h)
        · simp at h
      · simp at h

theorem requested_next (s : Pool) (l : Label) (j m : Nat) (h : Obs.requested j m ∈ (s.step l).2) :
    j = s.next ∧ l = .request m ∧ (s.step l).1.next = j + 1 := by
  have hrel : ∀ (s : Pool) (k : Nat), Obs.requested j m ∉ (s.release k).2 := by
    intro s k hk
    unfold Pool.release at hk
    obtain ⟨w, -, he⟩ := List.mem_map.1 hk
    cases he
  cases l with
  | request n =>
    simp only [Pool.step] at h ⊢
    split at h
    · rename_i hn
      simp at h
      rw [if_pos hn]
      exact ⟨h.1, by rw [h.2], by rw [h.1]⟩
    · rename_i hn
      simp at h
      rw [if_neg hn]
      exact ⟨h.1, by rw [h.2], by rw [h.1]⟩
  | cancel i =>
    simp only [Pool.step] at h
    split at h
    · simp at h
    · simp only [List.mem_cons, reduceCtorEq, false_or] at h
      exact absurd h (hrel _ _)
  | clone i =>
    simp only [Pool.step] at h
    repeat' split at h
    all_goals simp at h
  | dropPtr i =>
    simp only [Pool.step] at h
    repeat' split at h
    all_goals simp at h
  | dropPermit i =>
    simp only [Pool.step] at h
    split at h
    · simp at h
    · split at h
      · split at h
        · simp only [List.mem_cons, reduceCtorEq, false_or] at h
          exact absurd h (hrel _ _)
        · simp at h
      · simp at h

theorem request_requested (s : Pool) (m : Nat) : Obs.requested s.next m ∈ (s.step (.request m)).2 := by
  simp only [Pool.step]
  split <;> simp

/-- Everything waiting or handed out was asked for. -/
theorem asked (n : Nat) (σ : Nat → Label) (t : Nat) :
    (∀ w ∈ (stateAt n σ t).queue, Obs.requested w.id w.need ∈ before n σ t) ∧
    ∀ j m, Obs.granted j m ∈ before n σ t → Obs.requested j m ∈ before n σ t := by
  induction t with
  | zero => simp [stateAt, new, before]
  | succ t ih =>
    have hnew : ∀ m, σ t = .request m → Obs.requested (stateAt n σ t).next m ∈ before n σ (t + 1) := by
      intro m hm
      refine List.mem_append_right _ ?_
      unfold obsAt
      rw [hm]
      exact request_requested _ m
    refine ⟨fun w hw => ?_, fun j m h => ?_⟩
    · rcases (step_facts (stateAt n σ t) (σ t)).2.1 w hw with ⟨w0, h1, h2, h3⟩ | ⟨h1, h2⟩
      · rw [← h2, ← h3]; exact List.mem_append_left _ (ih.1 w0 h1)
      · rw [h1]; exact hnew _ h2
    · rcases List.mem_append.1 h with h | h
      · exact List.mem_append_left _ (ih.2 j m h)
      · rcases granted_asked _ _ j m h with ⟨w, h1, h2, h3⟩ | ⟨h1, h2⟩
        · rw [← h2, ← h3]; exact List.mem_append_left _ (ih.1 w h1)
        · rw [h1]; exact hnew _ h2

/-- Requests are numbered in order. -/
theorem requested_before (n : Nat) (σ : Nat → Label) {t0 t j m id k : Nat} (h0 : Obs.requested j m ∈ obsAt n σ t0)
    (h : Obs.requested id k ∈ obsAt n σ t) (hlt : j < id) : t0 < t := by
  obtain ⟨e0, -, -⟩ := requested_next _ _ _ _ h0
  obtain ⟨e, -, -⟩ := requested_next _ _ _ _ h
  refine Classical.byContradiction fun hn => ?_
  have := next_mono n σ (show t ≤ t0 by omega)
  omega

theorem mem_returnedEv {id n : Nat} {obs : List Obs} : (id, n) ∈ returnedEv obs ↔ Obs.returned id n ∈ obs := by
  unfold returnedEv
  rw [List.mem_filterMap]
  constructor
  · rintro ⟨o, ho, he⟩
    cases o <;> simp at he
    obtain ⟨rfl, rfl⟩ := he
    exact ho
  · intro h
    exact ⟨_, h, rfl⟩

/-- Giving up. -/
theorem cancel_pick (n : Nat) (σ : Nat → Label) {j t : Nat} (h : Obs.cancelled j ∈ obsAt n σ t) :
    ∃ q1 w q2, σ t = .cancel j ∧ pick (fun w => decide (w.id = j)) (stateAt n σ t).queue = some (q1, w, q2) ∧
      (stateAt n σ t).queue = q1 ++ w :: q2 ∧ w.id = j ∧ ∀ y ∈ q1 ++ q2, y.id ≠ j := by
  have hI := inv_at n σ t
  have hstep : ∃ q1 w q2, σ t = .cancel j ∧ pick (fun w => decide (w.id = j)) (stateAt n σ t).queue = some (q1, w, q2) := by
    unfold obsAt at h
    cases hl : σ t with
    | request m => rw [hl] at h; simp only [Pool.step] at h; split at h <;> simp at h
    | clone i =>
      rw [hl] at h; simp only [Pool.step] at h
      repeat' split at h
      all_goals simp at h
    | dropPtr i =>
      rw [hl] at h; simp only [Pool.step] at h
      repeat' split at h
      all_goals simp at h
    | dropPermit i =>
      rw [hl] at h; simp only [Pool.step] at h
      repeat' split at h
      all_goals simp [Pool.release] at h
    | cancel i =>
      rw [hl] at h; simp only [Pool.step] at h
      split at h
      · simp at h
      · rename_i q1 w q2 hp
        simp [Pool.release] at h
        subst h
        exact ⟨q1, w, q2, rfl, hp⟩
  obtain ⟨q1, w, q2, hl, hp⟩ := hstep
  obtain ⟨hq, hw⟩ := pick_some hp
  have hwj : w.id = j := by simpa using hw
  refine ⟨q1, w, q2, hl, hp, hq, hwj, fun y hy he => ?_⟩
  have hnd : ((stateAt n σ t).queue.map Waiter.id).Nodup := hI.qSorted.imp (fun h => Nat.ne_of_lt h)
  rw [hq, List.map_append, List.map_cons, List.nodup_append] at hnd
  obtain ⟨-, n2, n3⟩ := hnd
  rw [List.nodup_cons] at n2
  rcases List.mem_append.1 hy with hy | hy
  · exact n3 y.id (List.mem_map.2 ⟨y, hy, rfl⟩) w.id (by simp) (by rw [he, hwj])
  · exact n2.1 (List.mem_map.2 ⟨y, hy, by rw [he, hwj]⟩)

/-- Whoever gave up does not wait any more. -/
theorem cancelled_gone (n : Nat) (σ : Nat → Label) {j t t' : Nat} (h : Obs.cancelled j ∈ obsAt n σ t) (ht : t < t') :
    ¬ Waits n σ j t' := by
  obtain ⟨q1, w, q2, hl, hp, hq, hwj, hne⟩ := cancel_pick n σ h
  have hfresh : j < (stateAt n σ (t + 1)).next := by
    have h1 := (inv_at n σ t).qFresh w (by rw [hq]; simp)
    have h2 := next_mono n σ (show t ≤ t + 1 by omega)
    omega
  refine not_again n σ (show t + 1 ≤ t' by omega) hfresh ?_
  rintro ⟨x, hx, he⟩
  have hx : x ∈ ((stateAt n σ t).step (σ t)).1.queue := hx
  rw [hl] at hx
  simp only [Pool.step, hp] at hx
  obtain ⟨y, hy, hye, -⟩ := (release_facts _ _).2.1 x hx
  exact hne y hy (by rw [hye, he])

/-- Whoever gave up is never served. -/
theorem cancelled_not_granted (n : Nat) (σ : Nat → Label) {j m t tg : Nat} (h : Obs.cancelled j ∈ obsAt n σ t) :
    Obs.granted j m ∉ obsAt n σ tg := by
  intro hg
  obtain ⟨q1, w, q2, hl, hp, hq, hwj, hne⟩ := cancel_pick n σ h
  have hwm : w ∈ (stateAt n σ t).queue := by rw [hq]; simp
  rcases Nat.lt_trichotomy tg t with h1 | h1 | h1
  · exact (inv_at n σ t).qNotG w hwm (j, m) (mem_grantedEv.2 (mem_before.2 ⟨tg, h1, hg⟩)) hwj.symm
  · subst h1
    unfold obsAt at hg
    rw [hl] at hg
    simp only [Pool.step, hp, List.mem_cons, reduceCtorEq, false_or] at hg
    obtain ⟨y, hy, hye⟩ := (release_facts _ _).1 j m hg
    exact hne y hy hye
  · rcases granted_asked _ _ j m hg with ⟨y, h2, h3, -⟩ | ⟨h2, -⟩
    · exact cancelled_gone n σ h h1 ⟨y, h2, h3⟩
    · have h3 := (inv_at n σ t).qFresh w hwm
      have h4 := next_mono n σ (show t ≤ tg by omega)
      omega

/-- It waits until it is served. -/
theorem waits_until (n : Nat) (σ : Nat → Label) {t id k : Nat} (hreq : Obs.requested id k ∈ obsAt n σ t)
    (t1 : Nat) (hnc : ∀ t' < t1, Obs.cancelled id ∉ obsAt n σ t') (ht : t < t1)
    (hno : ∀ t' < t1, Obs.granted id k ∉ obsAt n σ t') :
    ∃ w ∈ (stateAt n σ t1).queue, w.id = id ∧ w.need = k := by
  induction t1 with
  | zero => omega
  | succ t1 ih =>
    by_cases h : t = t1
    · subst h
      rcases (step_facts (stateAt n σ t) (σ t)).2.2.2.2 id k hreq with h | h
      · exact absurd h (hno t (by omega))
      · exact h
    · obtain ⟨w, h1, h2, h3⟩ := ih (fun t' h => hnc t' (by omega)) (by omega) (fun t' h => hno t' (by omega))
      have hl : σ t1 ≠ .cancel w.id := by
        intro hl
        refine hnc t1 (by omega) ?_
        rw [← h2]
        unfold obsAt
        rw [hl]
        simp only [Pool.step]
        split
        · rename_i hp
          have := pick_none hp w h1
          simp at this
        · simp
      rcases (step_facts (stateAt n σ t1) (σ t1)).2.2.1 w h1 hl with h4 | ⟨w', h4, h5, h6⟩
      · rw [h2, h3] at h4; exact absurd h4 (hno t1 (by omega))
      · exact ⟨w', h4, by rw [h5, h2], by rw [h6, h3]⟩

/-- Message `j` is done with by step `t1`: given back, or its reader gave up. -/
def Over (n : Nat) (σ : Nat → Label) (j m t1 : Nat) : Prop :=
  ∃ t' < t1, Obs.returned j m ∈ obsAt n σ t' ∨ Obs.cancelled j ∈ obsAt n σ t'

/-- Once everything asked for earlier is over, a request that fits the pool has been served. -/
theorem deadline (n : Nat) (σ : Nat → Label) (t id k : Nat) (hreq : Obs.requested id k ∈ obsAt n σ t) (hk : k ≤ n)
    (t1 : Nat) (hnc : ∀ t' < t1, Obs.cancelled id ∉ obsAt n σ t') (ht : t < t1)
    (hover : ∀ j m, Obs.requested j m ∈ before n σ t → 0 < m → Over n σ j m t1) :
    ∃ t' < t1, Obs.granted id k ∈ obsAt n σ t' := by
  refine Classical.byContradiction fun hno => ?_
  obtain ⟨w, hw, hwi, hwk⟩ := waits_until n σ hreq t1 hnc ht (fun t' h1 h2 => hno ⟨t', h1, h2⟩)
  have hI := inv_at n σ t1
  -- who asked earlier neither waits nor holds anything
  have hearlier : ∀ j m, Obs.requested j m ∈ before n σ t1 → j < id → 0 < m → Over n σ j m t1 := by
    intro j m h1 h2 h3
    obtain ⟨t0, -, h4⟩ := mem_before.1 h1
    exact hover j m (mem_before.2 ⟨t0, requested_before n σ h4 hreq h2, h4⟩) h3
  have hnd := (hI.gRet.map Prod.fst).nodup_iff.1 hI.gNodup
  rw [List.map_append, List.nodup_append] at hnd
  have hret : ∀ j m t', t' < t1 → Obs.returned j m ∈ obsAt n σ t' → (j, m) ∈ returnedEv (before n σ t1) :=
    fun j m t' h1 h2 => mem_returnedEv.2 (mem_before.2 ⟨t', h1, h2⟩)
  have hzero : ∀ a ∈ (stateAt n σ t1).live, a.size = 0 := by
    intro a ha
    refine Classical.byContradiction fun hs => ?_
    have hg := hI.live_granted ha
    have hlt : a.id < id := by rw [← hwi]; exact hI.orderQ _ hg (by simp only; omega) w hw
    rcases hearlier a.id a.size ((asked n σ t1).2 _ _ (mem_grantedEv.1 hg)) hlt (by omega) with ⟨t', h1, h2 | h2⟩
    · exact hnd.2.2 a.id (List.mem_map.2 ⟨_, hret _ _ t' h1 h2, rfl⟩) a.id
        (by rw [List.map_map]; exact List.mem_map.2 ⟨a, ha, rfl⟩) rfl
    · obtain ⟨tg, -, h4⟩ := mem_before.1 (mem_grantedEv.1 hg)
      exact cancelled_not_granted n σ h2 h4
  have hsz : sumSize (stateAt n σ t1).live = 0 := by
    unfold sumSize
    exact sum_zero _ (fun x hx => by obtain ⟨a, ha, rfl⟩ := List.mem_map.1 hx; exact hzero a ha)
  have hcon := hI.conserve
  rw [cap_at, hsz] at hcon
  cases hq : (stateAt n σ t1).queue with
  | nil => rw [hq] at hw; simp at hw
  | cons x q =>
    have hxm : x ∈ (stateAt n σ t1).queue := by rw [hq]; simp
    have h0 := hI.wait0 (by rw [hq]; simp)
    have h1 := hI.need x hxm
    have hxw : x = w := by
      have hs := hI.qSorted
      rw [hq] at hs hw
      rcases List.mem_cons.1 hw with e | hw
      · exact e.symm
      · have hlt := (List.pairwise_cons.1 hs).1 w.id (List.mem_map.2 ⟨w, hw, rfl⟩)
        rcases hearlier x.id x.need ((asked n σ t1).1 x hxm) (by omega) (by omega) with ⟨t', h2, h3 | h3⟩
        · have h4 : (x.id, x.need) ∈ grantedEv (before n σ t1) :=
            hI.gRet.mem_iff.2 (List.mem_append_left _ (hret _ _ t' h2 h3))
          exact absurd rfl (hI.qNotG x hxm _ h4)
        · exact absurd ⟨x, hxm, rfl⟩ (cancelled_gone n σ h3 h2)
    have h3 : sumGot q = 0 := by
      unfold sumGot
      refine sum_zero _ (fun y hy => ?_)
      obtain ⟨z, hz, rfl⟩ := List.mem_map.1 hy
      exact hI.tail0 z (by rw [hq]; exact hz)
    have h4 : sumGot (x :: q) = x.got + sumGot q := by simp [sumGot]
    rw [hq, h4, h3, h0] at hcon
    subst hxw
    omega

/-! ## Time -/

/-- Step `t` happens at time `τ t`. -/
def Clock (τ : Nat → Nat) : Prop := ∀ i j, i ≤ j → τ i ≤ τ j

/-- Message `j` is done with at time `D`: given back, or its reader gave up. -/
def OverBy (n : Nat) (σ : Nat → Label) (τ : Nat → Nat) (j m D : Nat) : Prop :=
  ∃ t', τ t' ≤ D ∧ (Obs.returned j m ∈ obsAt n σ t' ∨ Obs.cancelled j ∈ obsAt n σ t')

theorem by_time (n : Nat) (σ : Nat → Label) (τ : Nat → Nat) (hτ : Clock τ) (t D : Nat) (htD : τ t ≤ D)
    (h : ∀ j m, Obs.requested j m ∈ before n σ t → 0 < m → OverBy n σ τ j m D) :
    ∃ t1, t < t1 ∧ (∀ x < t1, τ x ≤ D) ∧ ∀ j m, Obs.requested j m ∈ before n σ t → 0 < m → Over n σ j m t1 := by
  have key : ∀ L : List Obs, (∀ j m, Obs.requested j m ∈ L → 0 < m → OverBy n σ τ j m D) →
      ∃ t1, t < t1 ∧ (∀ x < t1, τ x ≤ D) ∧ ∀ j m, Obs.requested j m ∈ L → 0 < m → Over n σ j m t1 := by
    intro L
    induction L with
    | nil => intro _; exact ⟨t + 1, by omega, fun x hx => Nat.le_trans (hτ x t (by omega)) htD, by simp⟩
    | cons o L ih =>
      intro hL
      obtain ⟨t1, h1, h2, h3⟩ := ih (fun j m hm => hL j m (List.mem_cons_of_mem _ hm))
      by_cases ho : ∃ j m, o = Obs.requested j m ∧ 0 < m
      · obtain ⟨j, m, rfl, hm⟩ := ho
        obtain ⟨t', h4, h5⟩ := hL j m List.mem_cons_self hm
        refine ⟨max t1 (t' + 1), by omega, ?_, ?_⟩
        · intro x hx
          by_cases hx1 : x < t1
          · exact h2 x hx1
          · exact Nat.le_trans (hτ x t' (by omega)) h4
        · intro i l hi hl
          rcases List.mem_cons.1 hi with e | hi
          · simp only [Obs.requested.injEq] at e
            obtain ⟨rfl, rfl⟩ := e
            exact ⟨t', by omega, h5⟩
          · obtain ⟨x, h6, h7⟩ := h3 i l hi hl
            exact ⟨x, by omega, h7⟩
      · refine ⟨t1, h1, h2, fun i l hi hl => ?_⟩
        rcases List.mem_cons.1 hi with e | hi
        · exact absurd ⟨i, l, e.symm, hl⟩ ho
        · exact h3 i l hi hl
  exact key _ h

/-- Once everything asked for earlier is over, a request has been served or given up. -/
theorem deadline_time (n : Nat) (σ : Nat → Label) (τ : Nat → Nat) (hτ : Clock τ) (t id k : Nat)
    (hreq : Obs.requested id k ∈ obsAt n σ t) (hk : k ≤ n) (D : Nat) (htD : τ t ≤ D)
    (h : ∀ j m, Obs.requested j m ∈ before n σ t → 0 < m → OverBy n σ τ j m D) :
    ∃ t', τ t' ≤ D ∧ (Obs.granted id k ∈ obsAt n σ t' ∨ Obs.cancelled id ∈ obsAt n σ t') := by
  obtain ⟨t1, h1, h2, h3⟩ := by_time n σ τ hτ t D htD h
  by_cases hc : ∃ t' < t1, Obs.cancelled id ∈ obsAt n σ t'
  · obtain ⟨t', h4, h5⟩ := hc
    exact ⟨t', h2 t' h4, .inr h5⟩
  · obtain ⟨t', h4, h5⟩ := deadline n σ t id k hreq hk t1 (fun t' h4 h5 => hc ⟨t', h4, h5⟩) h1 h3
    exact ⟨t', h2 t' h4, .inl h5⟩

/-- **C107 (partial): memory that is held for a limited time after it was asked for.** However many asked before, and for however
much: if each of them has given its memory back, or has given up, within `T` of asking, then a request that fits the pool
is served within `T`. -/
theorem C107_all_brief_partial (n : Nat) (σ : Nat → Label) (τ : Nat → Nat) (hτ : Clock τ) (T t id k : Nat)
    (hreq : Obs.requested id k ∈ obsAt n σ t) (hk : k ≤ n) (hnc : ∀ t', σ t' ≠ .cancel id)
    (hbrief : ∀ t0 j m, t0 < t → Obs.requested j m ∈ obsAt n σ t0 → OverBy n σ τ j m (τ t0 + T)) :
    ∃ t', τ t' ≤ τ t + T ∧ Obs.granted id k ∈ obsAt n σ t' := by
  obtain ⟨t', h1, h2 | h2⟩ := deadline_time n σ τ hτ t id k hreq hk (τ t + T) (by omega) (fun j m hr _ => by
    obtain ⟨t0, h1, h2⟩ := mem_before.1 hr
    obtain ⟨t', h3, h4⟩ := hbrief t0 j m h1 h2
    have := hτ t0 t (by omega)
    exact ⟨t', by omega, h4⟩)
  · exact ⟨t', h1, h2⟩
  · obtain ⟨-, -, -, h3, -⟩ := cancel_pick n σ h2
    exact absurd h3 (hnc t')

/-- The requests for at least one byte that have been neither served nor given up. -/
def waiting (obs : List Obs) : List Nat :=
  obs.filterMap fun o => match o with
    | .requested j m => if 0 < m ∧ Obs.granted j m ∉ obs ∧ Obs.cancelled j ∉ obs then some j else none
    | _ => none

theorem mem_waiting {obs : List Obs} {j m : Nat} (h : Obs.requested j m ∈ obs) (hm : 0 < m) (hg : Obs.granted j m ∉ obs)
    (hc : Obs.cancelled j ∉ obs) : j ∈ waiting obs := by
  unfold waiting
  rw [List.mem_filterMap]
  exact ⟨_, h, by simp [hm, hg, hc]⟩

theorem countP_lt (l : List Nat) (i j : Nat) (hij : i < j) (hj : j ∈ l) :
    l.countP (fun x => decide (x ≤ i)) + 1 ≤ l.countP (fun x => decide (x ≤ j)) := by
  induction l with
  | nil => cases hj
  | cons a l ih =>
    rw [List.countP_cons, List.countP_cons]
    rcases List.mem_cons.1 hj with rfl | hj
    · have : l.countP (fun x => decide (x ≤ i)) ≤ l.countP (fun x => decide (x ≤ j)) :=
        List.countP_mono_left (fun x _ hx => by simp at hx ⊢; omega)
      simp [show ¬ j ≤ i by omega]
      omega
    · have := ih hj
      by_cases h1 : a ≤ i
      · simp [h1, show a ≤ j by omega]; omega
      · simp [h1]; omega

theorem countP_le' (l : List Nat) (i j : Nat) (hij : i ≤ j) :
    l.countP (fun x => decide (x ≤ i)) ≤ l.countP (fun x => decide (x ≤ j)) :=
  List.countP_mono_left (fun x _ hx => by simp at hx ⊢; omega)

/-- **C107 (partial): memory that is held for a limited time after it was obtained.** If every message is given back within `T` of
being handed out, a request made while `w` others wait is served within `(w + 1) * T`. -/
theorem C107_in_turn_partial (n : Nat) (σ : Nat → Label) (τ : Nat → Nat) (hτ : Clock τ) (T t id k : Nat)
    (hfit : ∀ t k, σ t = .request k → k ≤ n)
    (hheld : ∀ t0 j m, Obs.granted j m ∈ obsAt n σ t0 → ∃ t', τ t' ≤ τ t0 + T ∧ Obs.returned j m ∈ obsAt n σ t')
    (hreq : Obs.requested id k ∈ obsAt n σ t) (hnc : ∀ t', σ t' ≠ .cancel id) :
    ∃ t', τ t' ≤ τ t + ((waiting (before n σ t)).length + 1) * T ∧ Obs.granted id k ∈ obsAt n σ t' := by
  let W := waiting (before n σ t)
  have key : ∀ j m, Obs.requested j m ∈ before n σ t → 0 < m →
      OverBy n σ τ j m (τ t + (W.countP (fun x => decide (x ≤ j)) + 1) * T) := by
    intro j
    induction j using Nat.strongRecOn with
    | _ j ih =>
      intro m hr hm
      by_cases hg : Obs.granted j m ∈ before n σ t
      · obtain ⟨t0, h1, h2⟩ := mem_before.1 hg
        obtain ⟨t', h3, h4⟩ := hheld t0 j m h2
        have h5 := hτ t0 t (by omega)
        refine ⟨t', ?_, .inl h4⟩
        rw [Nat.add_mul, Nat.one_mul]
        omega
      · by_cases hc : Obs.cancelled j ∈ before n σ t
        · obtain ⟨t0, h1, h2⟩ := mem_before.1 hc
          have h5 := hτ t0 t (by omega)
          exact ⟨t0, by omega, .inr h2⟩
        · have hj : j ∈ W := mem_waiting hr hm hg hc
          obtain ⟨t0, h1, h2⟩ := mem_before.1 hr
          have h5 := hτ t0 t (by omega)
          have hfj : m ≤ n := hfit t0 m (requested_next _ _ _ _ h2).2.1
          obtain ⟨t', h6, h7⟩ := deadline_time n σ τ hτ t0 j m h2 hfj
            (τ t + W.countP (fun x => decide (x ≤ j)) * T) (by omega) (fun i l hi hl => by
              obtain ⟨t2, h8, h9⟩ := mem_before.1 hi
              have hij : i < j := by
                obtain ⟨e1, -, e3⟩ := requested_next _ _ _ _ h9
                obtain ⟨e2, -, -⟩ := requested_next _ _ _ _ h2
                have e4 := next_mono n σ (show t2 + 1 ≤ t0 by omega)
                have e5 : (stateAt n σ (t2 + 1)).next = i + 1 := e3
                omega
              obtain ⟨t3, h10, h11⟩ := ih i hij l (mem_before.2 ⟨t2, by omega, h9⟩) hl
              refine ⟨t3, Nat.le_trans h10 ?_, h11⟩
              have := Nat.mul_le_mul_right T (countP_lt W i j hij hj)
              omega)
          rcases h7 with h7 | h7
          · obtain ⟨t3, h8, h9⟩ := hheld t' j m h7
            refine ⟨t3, ?_, .inl h9⟩
            rw [Nat.add_mul, Nat.one_mul]
            omega
          · refine ⟨t', ?_, .inr h7⟩
            rw [Nat.add_mul, Nat.one_mul]
            omega
  obtain ⟨t', h1, h2 | h2⟩ := deadline_time n σ τ hτ t id k hreq (hfit t k (requested_next _ _ _ _ hreq).2.1)
    (τ t + (W.length + 1) * T) (by omega) (fun j m hr hm => by
      obtain ⟨t', h1, h2⟩ := key j m hr hm
      refine ⟨t', Nat.le_trans h1 ?_, h2⟩
      have : W.countP (fun x => decide (x ≤ j)) ≤ W.length := List.countP_le_length
      have := Nat.mul_le_mul_right T (Nat.add_le_add_right this 1)
      omega)
  · exact ⟨t', h1, h2⟩
  · obtain ⟨-, -, -, h3, -⟩ := cancel_pick n σ h2
    exact absurd h3 (hnc t')

/-! ## Strangers

The reader of a connection runs from the moment the connection is accepted, before anybody has authenticated (`from_streams`,
protocols/mod.rs:139-217), and takes the memory for a message when its four bytes of length have arrived (lines 316-331). The largest
message is `u32::MAX / 8` bytes (cdn-proto/src/lib.rs:25), the pool has 1 GiB unless configured (marshal.rs:48, broker.rs:71). -/

/-- `MAX_MESSAGE_SIZE`, cdn-proto/src/lib.rs:25. -/
def maxMessage : Nat := 536870911

/-- The default pool, cdn-broker/src/binaries/broker.rs:71, cdn-marshal/src/binaries/marshal.rs:48. -/
def defaultPool : Nat := 1073741824

/-- Two strangers announce a message each (and send no more); a user sends a message of 100 bytes one millisecond later; the strangers
are disconnected after five seconds. -/
def strangers : Nat → Label
  | 0 => .request maxMessage
  | 1 => .request maxMessage
  | 2 => .request 100
  | 3 => .dropPtr 0
  | 4 => .dropPermit 0
  | 5 => .dropPtr 1
  | 6 => .dropPermit 1
  | _ => .clone 0

/-- Milliseconds. -/
def strangersTime : Nat → Nat
  | 0 | 1 => 0
  | 2 => 1
  | _ => 5000

theorem strangers_clock : Clock strangersTime := by
  intro i j h
  match i, j with
  | 0, _ => simp [strangersTime]
  | 1, _ => simp [strangersTime]
  | 2, 0 | 2, 1 => omega
  | 2, 2 => simp
  | 2, _ + 3 => simp [strangersTime]
  | _ + 3, 0 | _ + 3, 1 | _ + 3, 2 => omega
  | _ + 3, _ + 3 => simp [strangersTime]

/-- **C107 is false.** A default pool, two strangers whose connections are closed five seconds after they were made: a message that a user
sends a millisecond after the strangers announced theirs is read only when the strangers are gone. The case meets the conditions of
`C107_all_brief_partial` (nobody else asked for memory). -/
theorem C107_false : Clock strangersTime ∧ Obs.requested 2 100 ∈ obsAt defaultPool strangers 2 ∧ strangersTime 2 = 1 ∧
    (∀ t0 j m, t0 < 2 → Obs.requested j m ∈ obsAt defaultPool strangers t0 → m ≤ maxMessage ∧
      OverBy defaultPool strangers strangersTime j m (strangersTime t0 + 5000)) ∧
    (∀ t', strangers t' ≠ .cancel 2) ∧
    ∀ t', Obs.granted 2 100 ∈ obsAt defaultPool strangers t' → 5000 ≤ strangersTime t' := by
  refine ⟨strangers_clock, by decide +kernel, rfl, ?_, ?_, ?_⟩
  · intro t0 j m ht h
    have h0 : obsAt defaultPool strangers 0 = [.requested 0 maxMessage, .granted 0 maxMessage] := by decide +kernel
    have h1 : obsAt defaultPool strangers 1 = [.requested 1 maxMessage, .granted 1 maxMessage] := by decide +kernel
    match t0, ht, h with
    | 0, _, h =>
      rw [h0] at h
      simp at h
      obtain ⟨rfl, rfl⟩ := h
      exact ⟨Nat.le_refl _, 4, by decide, .inl (by decide +kernel)⟩
    | 1, _, h =>
      rw [h1] at h
      simp at h
      obtain ⟨rfl, rfl⟩ := h
      exact ⟨Nat.le_refl _, 6, by decide, .inl (by decide +kernel)⟩
  · intro t' h
    unfold strangers at h
    split at h <;> simp at h
  · intro t' h
    match t', h with
    | 0, h => revert h; decide +kernel
    | 1, h => revert h; decide +kernel
    | 2, h => revert h; decide +kernel
    | t' + 3, _ => exact Nat.le_refl _

/-! ## The bound is reached -/

/-- `w + 2` requests for the whole pool, of which each is given back `T` after it was served. -/
def inTurn (n w : Nat) : Nat → Label := fun t =>
  if t < w + 2 then .request n
  else if (t - (w + 2)) % 2 = 0 then .dropPtr ((t - (w + 2)) / 2) else .dropPermit ((t - (w + 2)) / 2)

def inTurnTime (w T : Nat) : Nat → Nat := fun t => if t < w + 2 then 0 else ((t - (w + 2)) / 2 + 1) * T

theorem inTurn_clock (w T : Nat) : Clock (inTurnTime w T) := by
  intro i j h
  unfold inTurnTime
  split
  · exact Nat.zero_le _
  · rw [if_neg (by omega)]
    exact Nat.mul_le_mul_right T (by omega)

/-- Requests `a`, `a + 1`, …, `b - 1` wait. -/
def waiters (n a b : Nat) : List Waiter := (List.range' a (b - a)).map fun i => ⟨i, n, 0⟩

theorem waiters_succ (n a b : Nat) (h : a < b) : waiters n a b = ⟨a, n, 0⟩ :: waiters n (a + 1) b := by
  unfold waiters
  rw [show b - a = (b - (a + 1)) + 1 by omega, List.range'_succ, List.map_cons]

theorem waiters_last (n a b : Nat) (h : a ≤ b) : waiters n a (b + 1) = waiters n a b ++ [⟨b, n, 0⟩] := by
  unfold waiters
  rw [show b + 1 - a = (b - a) + 1 by omega, List.range'_concat, List.map_append]
  simp only [List.map_cons, List.map_nil]
  rw [show a + 1 * (b - a) = b by omega]

theorem waiters_none (n a : Nat) : waiters n a a = [] := by simp [waiters]

theorem inTurn_asked (n w : Nat) (hn : 0 < n) (t : Nat) (ht : t ≤ w + 1) :
    stateAt n (inTurn n w) (t + 1) = ⟨n, 0, waiters n 1 (t + 1), [⟨0, n, 1, 1⟩], t + 1⟩ := by
  induction t with
  | zero =>
    show ((new n).step (inTurn n w 0)).1 = _
    rw [show inTurn n w 0 = .request n by simp [inTurn]]
    simp [Pool.step, new, waiters_none]
  | succ t ih =>
    show ((stateAt n (inTurn n w) (t + 1)).step (inTurn n w (t + 1))).1 = _
    rw [ih (by omega), show inTurn n w (t + 1) = .request n by simp [inTurn]; omega]
    simp only [Pool.step]
    rw [if_neg (by omega), waiters_last n 1 (t + 1) (by omega)]

theorem assign_none (q : List Waiter) (n : Nat) (hn : 0 < n) (a b : Nat) (hq : q = waiters n a b) : assign 0 q = (0, q, []) := by
  subst hq
  by_cases h : a < b
  · rw [waiters_succ n a b h]
    simp only [assign]
    rw [if_neg (by omega)]
  · rw [show waiters n a b = [] by simp [waiters, show b - a = 0 by omega]]
    rfl

/-- After `j` of them are done. -/
theorem inTurn_done (n w : Nat) (hn : 0 < n) (j : Nat) (hj : j ≤ w + 1) :
    stateAt n (inTurn n w) (w + 2 + 2 * j) = ⟨n, 0, waiters n (j + 1) (w + 2), [⟨j, n, 1, 1⟩], w + 2⟩ := by
  induction j with
  | zero => exact inTurn_asked n w hn (w + 1) (by omega)
  | succ j ih =>
    have e1 : inTurn n w (w + 2 + 2 * j) = .dropPtr j := by
      unfold inTurn
      rw [if_neg (by omega), show w + 2 + 2 * j - (w + 2) = 2 * j by omega, if_pos (by omega), show 2 * j / 2 = j by omega]
    have e2 : inTurn n w (w + 2 + 2 * j + 1) = .dropPermit j := by
      unfold inTurn
      rw [if_neg (by omega), show w + 2 + 2 * j + 1 - (w + 2) = 2 * j + 1 by omega, if_neg (by omega),
        show (2 * j + 1) / 2 = j by omega]
    show (((stateAt n (inTurn n w) (w + 2 + 2 * j)).step (inTurn n w (w + 2 + 2 * j))).1.step
      (inTurn n w (w + 2 + 2 * j + 1))).1 = _
    rw [e1, e2, ih (by omega), waiters_succ n (j + 1) (w + 2) (by omega)]
    have h0 := assign_none (waiters n (j + 1 + 1) (w + 2)) n hn _ _ rfl
    simp [Pool.step, pick, Pool.release, assign, h0, Waiter.alloc]

theorem inTurn_drop (n w j : Nat) : inTurn n w (w + 2 + 2 * j) = .dropPtr j ∧ inTurn n w (w + 2 + 2 * j + 1) = .dropPermit j := by
  constructor
  · unfold inTurn
    rw [if_neg (by omega), show w + 2 + 2 * j - (w + 2) = 2 * j by omega, if_pos (by omega), show 2 * j / 2 = j by omega]
  · unfold inTurn
    rw [if_neg (by omega), show w + 2 + 2 * j + 1 - (w + 2) = 2 * j + 1 by omega, if_neg (by omega),
      show (2 * j + 1) / 2 = j by omega]

theorem inTurn_obs (n w : Nat) (hn : 0 < n) (j : Nat) (hj : j ≤ w + 1) :
    obsAt n (inTurn n w) (w + 2 + 2 * j) = [.freed j n] ∧
    obsAt n (inTurn n w) (w + 2 + 2 * j + 1) =
      [.dropped j, .returned j n] ++ if j ≤ w then [.granted (j + 1) n] else [] := by
  obtain ⟨e1, e2⟩ := inTurn_drop n w j
  constructor
  · unfold obsAt
    rw [inTurn_done n w hn j hj, e1]
    simp [Pool.step, pick]
  · show (((stateAt n (inTurn n w) (w + 2 + 2 * j)).step (inTurn n w (w + 2 + 2 * j))).1.step
      (inTurn n w (w + 2 + 2 * j + 1))).2 = _
    rw [e1, e2, inTurn_done n w hn j hj]
    by_cases h : j ≤ w
    · rw [waiters_succ n (j + 1) (w + 2) (by omega)]
      have h0 := assign_none (waiters n (j + 1 + 1) (w + 2)) n hn _ _ rfl
      simp [Pool.step, pick, Pool.release, assign, h0, h]
    · have : j + 1 = w + 2 := by omega
      rw [this, waiters_none]
      simp [Pool.step, pick, Pool.release, assign, h]

theorem inTurn_end (n w : Nat) (hn : 0 < n) (x : Nat) :
    stateAt n (inTurn n w) (w + 2 + 2 * (w + 2) + x) = ⟨n, n, [], [], w + 2⟩ := by
  induction x with
  | zero =>
    obtain ⟨e1, e2⟩ := inTurn_drop n w (w + 1)
    show (((stateAt n (inTurn n w) (w + 2 + 2 * (w + 1))).step (inTurn n w (w + 2 + 2 * (w + 1)))).1.step
      (inTurn n w (w + 2 + 2 * (w + 1) + 1))).1 = _
    rw [e1, e2, inTurn_done n w hn (w + 1) (by omega)]
    rw [show w + 1 + 1 = w + 2 by omega, waiters_none]
    simp [Pool.step, pick, Pool.release, assign]
  | succ x ih =>
    show ((stateAt n (inTurn n w) (w + 2 + 2 * (w + 2) + x)).step (inTurn n w (w + 2 + 2 * (w + 2) + x))).1 = _
    rw [ih]
    unfold inTurn
    rw [if_neg (by omega)]
    split <;> simp [Pool.step, pick]

theorem inTurn_first (n w : Nat) (hn : 0 < n) (t : Nat) (ht : t ≤ w + 1) :
    obsAt n (inTurn n w) t = if t = 0 then [.requested 0 n, .granted 0 n] else [.requested t n] := by
  cases t with
  | zero =>
    show ((new n).step (inTurn n w 0)).2 = _
    rw [show inTurn n w 0 = .request n by simp [inTurn]]
    simp [Pool.step, new]
  | succ t =>
    unfold obsAt
    rw [inTurn_asked n w hn t (by omega), show inTurn n w (t + 1) = .request n by simp [inTurn]; omega]
    simp only [Pool.step]
    rw [if_neg (by omega)]
    simp

theorem inTurn_before (n w : Nat) (hn : 0 < n) (t : Nat) (ht : t ≤ w + 1) :
    before n (inTurn n w) (t + 1) = [.requested 0 n, .granted 0 n] ++ (List.range' 1 t).map fun j => .requested j n := by
  induction t with
  | zero => simp [before, inTurn_first n w hn 0 (by omega)]
  | succ t ih =>
    show before n (inTurn n w) (t + 1) ++ obsAt n (inTurn n w) (t + 1) = _
    rw [ih (by omega), inTurn_first n w hn (t + 1) ht, if_neg (by omega), List.range'_concat, List.map_append]
    simp [Nat.add_comm]

theorem filterMap_self {A : Type} (f : A → Option A) (l : List A) (h : ∀ x ∈ l, f x = some x) : l.filterMap f = l := by
  induction l with
  | nil => rfl
  | cons a l ih => rw [List.filterMap_cons, h a (by simp), ih (fun x hx => h x (List.mem_cons_of_mem _ hx))]

/-- Who was served when. -/
theorem inTurn_granted (n w : Nat) (hn : 0 < n) (t j m : Nat) (h : Obs.granted j m ∈ obsAt n (inTurn n w) t) :
    m = n ∧ j ≤ w + 1 ∧ (j = 0 ∧ t = 0 ∨ ∃ i, j = i + 1 ∧ t = w + 2 + 2 * i + 1) := by
  by_cases h1 : t ≤ w + 1
  · rw [inTurn_first n w hn t h1] at h
    split at h
    · rename_i h0
      simp at h
      exact ⟨h.2, by omega, .inl ⟨h.1, h0⟩⟩
    · simp at h
  · by_cases h2 : t < w + 2 + 2 * (w + 2)
    · by_cases h3 : (t - (w + 2)) % 2 = 0
      · have e : t = w + 2 + 2 * ((t - (w + 2)) / 2) := by omega
        rw [e, (inTurn_obs n w hn _ (by omega)).1] at h
        simp at h
      · have e : t = w + 2 + 2 * ((t - (w + 2)) / 2) + 1 := by omega
        rw [e, (inTurn_obs n w hn _ (by omega)).2] at h
        split at h
        · simp at h
          exact ⟨h.2, by omega, .inr ⟨_, h.1, e⟩⟩
        · simp at h
    · exfalso
      unfold obsAt at h
      rw [show t = w + 2 + 2 * (w + 2) + (t - (w + 2 + 2 * (w + 2))) by omega, inTurn_end n w hn] at h
      unfold inTurn at h
      rw [if_neg (by omega)] at h
      split at h <;> simp [Pool.step, pick] at h

/-- **C107: the bound of `C107_in_turn_partial` is reached**, for every pool, number of requests ahead, and time. -/
theorem C107_in_turn_tight (n w T : Nat) (hn : 0 < n) :
    Clock (inTurnTime w T) ∧ (∀ t k, inTurn n w t = .request k → k ≤ n) ∧
    (∀ t0 j m, Obs.granted j m ∈ obsAt n (inTurn n w) t0 →
      ∃ t', inTurnTime w T t' ≤ inTurnTime w T t0 + T ∧ Obs.returned j m ∈ obsAt n (inTurn n w) t') ∧
    Obs.requested (w + 1) n ∈ obsAt n (inTurn n w) (w + 1) ∧ (∀ t', inTurn n w t' ≠ .cancel (w + 1)) ∧
    (waiting (before n (inTurn n w) (w + 1))).length = w ∧ inTurnTime w T (w + 1) = 0 ∧
    ∀ t', Obs.granted (w + 1) n ∈ obsAt n (inTurn n w) t' → inTurnTime w T t' = (w + 1) * T := by
  refine ⟨inTurn_clock w T, ?_, ?_, ?_, ?_, ?_, ?_, ?_⟩
  · intro t k h
    unfold inTurn at h
    split at h
    · simp at h; omega
    · split at h <;> simp at h
  · intro t0 j m h
    obtain ⟨rfl, hj, h1⟩ := inTurn_granted n w hn t0 j m h
    refine ⟨w + 2 + 2 * j + 1, ?_, by rw [(inTurn_obs m w hn j hj).2]; simp⟩
    rcases h1 with ⟨rfl, rfl⟩ | ⟨i, rfl, rfl⟩
    · simp [inTurnTime]
    · unfold inTurnTime
      rw [if_neg (by omega), if_neg (by omega), show (w + 2 + 2 * (i + 1) + 1 - (w + 2)) / 2 = i + 1 by omega,
        show (w + 2 + 2 * i + 1 - (w + 2)) / 2 = i by omega, Nat.add_mul (i + 1) 1, Nat.one_mul]
      exact Nat.le_refl _
  · rw [inTurn_first n w hn (w + 1) (by omega)]
    simp
  · intro t' h
    unfold inTurn at h
    split at h
    · simp at h
    · split at h <;> simp at h
  · have e := inTurn_before n w hn w (by omega)
    have : waiting (before n (inTurn n w) (w + 1)) = List.range' 1 w := by
      unfold waiting
      rw [e, List.filterMap_append]
      have h1 : List.filterMap (fun o : Obs => match o with
          | .requested j m => if 0 < m ∧ Obs.granted j m ∉ [Obs.requested 0 n, .granted 0 n] ++ (List.range' 1 w).map (fun j => .requested j n) ∧
              Obs.cancelled j ∉ [Obs.requested 0 n, .granted 0 n] ++ (List.range' 1 w).map (fun j => .requested j n) then some j else none
          | _ => none) [Obs.requested 0 n, .granted 0 n] = [] := by simp
      rw [h1, List.nil_append, List.filterMap_map]
      refine filterMap_self _ _ ?_
      intro j hj
      have := (List.mem_range'_1.1 hj).1
      simp only [Function.comp]
      rw [if_pos]
      refine ⟨hn, ?_, ?_⟩
      · simp; omega
      · simp
    rw [this, List.length_range']
  · simp [inTurnTime]
  · intro t' h
    obtain ⟨-, -, h1⟩ := inTurn_granted n w hn t' (w + 1) n h
    rcases h1 with ⟨h1, -⟩ | ⟨i, h1, rfl⟩
    · omega
    · obtain rfl : i = w := by omega
      unfold inTurnTime
      rw [if_neg (by omega), show (i + 2 + 2 * i + 1 - (i + 2)) / 2 = i by omega]

/-- A case of `C107_in_turn_partial`, by the theorem itself: with a pool of ten bytes and three messages of ten bytes ahead of it, of which
one has been served, a message of ten bytes is served after three times the time a message is held. -/
example : ∃ t', inTurnTime 2 7 t' ≤ 0 + (2 + 1) * 7 ∧ Obs.granted 3 10 ∈ obsAt 10 (inTurn 10 2) t' := by
  obtain ⟨h1, h2, h3, h4, h5, h6, h7, -⟩ := C107_in_turn_tight 10 2 7 (by omega)
  have := C107_in_turn_partial 10 (inTurn 10 2) (inTurnTime 2 7) h1 7 3 3 10 h2 h3 h4 h5
  rw [h6, h7] at this
  exact this

end Verif.Props.Wait

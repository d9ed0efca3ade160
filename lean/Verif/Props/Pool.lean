import Verif.Lemmas.Pool

/-!
# Properties C28 and C29: the memory pool

The model is `Verif/Model/Pool.lean`. A schedule is any list of requests, cancellations, clones and
drops, by any number of connections.
-/

namespace Verif.Props.Pool
open Verif.Pool

/-! ## Specification -/

/-- The bytes handed out in a trace. -/
def bytesGranted (obs : List Obs) : Nat :=
  (obs.map fun o => match o with | .granted _ n => n | _ => 0).sum

/-- The bytes freed in a trace. -/
def bytesFreed (obs : List Obs) : Nat :=
  (obs.map fun o => match o with | .freed _ n => n | _ => 0).sum

/-- How often the space of a message was given back. -/
def timesReturned (id : Nat) (obs : List Obs) : Nat :=
  (obs.filter fun o => match o with | .returned i _ => i = id | _ => false).length

/-- How many handles of a message there were: the first one and its clones. -/
def handles (id : Nat) (obs : List Obs) : Nat := 1 + obs.count (.cloned id)

/-- The message was handed out, with this size. -/
def Handed (id n : Nat) (obs : List Obs) : Prop := Obs.granted id n ∈ obs

theorem bytesGranted_eq (obs : List Obs) : bytesGranted obs = ((grantedEv obs).map Prod.snd).sum := by
  induction obs with
  | nil => rfl
  | cons o l ih =>
    unfold bytesGranted grantedEv at *
    cases o <;> simp [ih]

theorem bytesFreed_eq (obs : List Obs) : bytesFreed obs = ((freedEv obs).map Prod.snd).sum := by
  induction obs with
  | nil => rfl
  | cons o l ih =>
    unfold bytesFreed freedEv at *
    cases o <;> simp [ih]

theorem timesReturned_eq (id : Nat) (obs : List Obs) :
    timesReturned id obs = ((returnedEv obs).map Prod.fst).count id := by
  induction obs with
  | nil => rfl
  | cons o l ih =>
    unfold timesReturned returnedEv at *
    cases o with
    | returned i n =>
      by_cases h : i = id
      · simp [h, ih]
      · simp [h, ih]
    | _ => simpa using ih

theorem mem_grantedEv {id n : Nat} {obs : List Obs} : (id, n) ∈ grantedEv obs ↔ Obs.granted id n ∈ obs := by
  unfold grantedEv
  rw [List.mem_filterMap]
  constructor
  · rintro ⟨o, h1, h2⟩
    cases o <;> simp at h2
    obtain ⟨rfl, rfl⟩ := h2
    exact h1
  · intro h
    exact ⟨_, h, rfl⟩

theorem sum_zero : ∀ (l : List Nat), (∀ x ∈ l, x = 0) → l.sum = 0
  | [], _ => rfl
  | x :: l, h => by
    rw [List.sum_cons, h x List.mem_cons_self, sum_zero l (fun y hy => h y (List.mem_cons_of_mem _ hy))]

theorem le_sum {x : Nat} : ∀ (l : List Nat), x ∈ l → x ≤ l.sum
  | y :: l, h => by
    rw [List.sum_cons]
    rcases List.mem_cons.1 h with rfl | h
    · omega
    · have := le_sum l h; omega

theorem sum_filter_le (l : List Alloc) (p : Alloc → Bool) :
    ((l.filter p).map Alloc.size).sum ≤ sumSize l := by
  induction l with
  | nil => simp [sumSize]
  | cons a l ih =>
    unfold sumSize at *
    rw [List.filter_cons]
    split
    · simp only [List.map_cons, List.sum_cons]; omega
    · simp only [List.map_cons, List.sum_cons]; omega

/-! ## C28 -/

/-- **C28, budget.** At every moment, the messages handed out and not freed yet total at most the size
of the pool. -/
theorem C28_budget (n : Nat) (ls : List Label) :
    bytesGranted ((new n).run ls).2 ≤ bytesFreed ((new n).run ls).2 + n := by
  have h := inv_run ls (new n) [] (inv_new n)
  have hcap : ((new n).run ls).1.cap = n := cap_run _ _
  rw [List.nil_append] at h
  generalize ((new n).run ls).2 = obs at *
  generalize ((new n).run ls).1 = s at *
  rw [bytesGranted_eq, bytesFreed_eq, (h.gFree.map Prod.snd).sum_nat, List.map_append, List.sum_append,
    List.map_map]
  have h1 := sum_filter_le s.live (fun a => decide (0 < a.ptrs))
  have h2 := h.conserve
  have h3 : ((List.filter (fun a => decide (0 < a.ptrs)) s.live).map
      (Prod.snd ∘ fun a => (a.id, a.size))).sum =
      ((List.filter (fun a => decide (0 < a.ptrs)) s.live).map Alloc.size).sum := rfl
  omega

/-- **C28, given back exactly once.** The space of a message is given back at most once; it is given
back if and only if the message was handed out and all its handles have been dropped. -/
theorem C28_returned_once (n : Nat) (ls : List Label) (id size : Nat)
    (hg : Handed id size ((new n).run ls).2) :
    timesReturned id ((new n).run ls).2 ≤ 1 ∧
    (timesReturned id ((new n).run ls).2 = 1 ↔
      ((new n).run ls).2.count (.dropped id) = handles id ((new n).run ls).2) := by
  have h := inv_run ls (new n) [] (inv_new n)
  rw [List.nil_append] at h
  generalize ((new n).run ls).2 = obs at *
  generalize ((new n).run ls).1 = s at *
  rw [timesReturned_eq]
  have hnd := (h.gRet.map Prod.fst).nodup_iff.1 h.gNodup
  rw [List.map_append, List.nodup_append] at hnd
  have hle : ((returnedEv obs).map Prod.fst).count id ≤ 1 := List.nodup_iff_count.1 hnd.1 id
  refine ⟨hle, ?_⟩
  constructor
  · intro h1
    have : id ∈ (returnedEv obs).map Prod.fst := List.count_pos_iff.1 (by omega)
    obtain ⟨p, hp, rfl⟩ := List.mem_map.1 this
    exact h.cRet p hp
  · intro h1
    have hm := h.gRet.mem_iff.1 (mem_grantedEv.2 hg)
    rcases List.mem_append.1 hm with hm | hm
    · have : 0 < ((returnedEv obs).map Prod.fst).count id :=
        List.count_pos_iff.2 (List.mem_map.2 ⟨_, hm, rfl⟩)
      omega
    · exfalso
      obtain ⟨a, ha, he⟩ := List.mem_map.1 hm
      have h2 := h.cLive a ha
      have h3 := (h.liveOk a ha).1
      simp only [Prod.mk.injEq] at he
      rw [he.1] at h2
      unfold drops clones at h2
      unfold handles at h1
      omega

/-- **C28, nothing is lost.** When all handles of everything handed out are dropped, the whole pool is
available again: nobody waits for anything that fits the pool, and a request of up to the whole pool is
served at once. -/
theorem C28_whole_pool_again (n : Nat) (ls : List Label)
    (hall : ∀ id size, Handed id size ((new n).run ls).2 →
      ((new n).run ls).2.count (.dropped id) = handles id ((new n).run ls).2)
    (hfit : ∀ k, Label.request k ∈ ls → k ≤ n) (k : Nat) (hk : k ≤ n) :
    ∃ id, (((new n).run ls).1.step (.request k)).2 = [.requested id k, .granted id k] := by
  have h := inv_run ls (new n) [] (inv_new n)
  have hcap : ((new n).run ls).1.cap = n := cap_run _ _
  have hneed : ∀ (ls : List Label) (s : Pool), (∀ w ∈ s.queue, w.need ≤ n) →
      (∀ k, Label.request k ∈ ls → k ≤ n) → ∀ w ∈ (s.run ls).1.queue, w.need ≤ n := by
    intro ls
    induction ls with
    | nil => intro s hs _; exact hs
    | cons l ls ih =>
      intro s hs hl
      simp only [Pool.run]
      refine ih _ ?_ (fun k hk => hl k (List.mem_cons_of_mem _ hk))
      have hassign : ∀ (k : Nat) (q : List Waiter), (∀ w ∈ q, w.need ≤ n) →
          ∀ w ∈ (assign k q).2.1, w.need ≤ n := by
        intro k q hq w hw
        obtain ⟨rest, e, hr⟩ := assign_shape k q
        rcases hr with ⟨rfl, h2⟩ | ⟨w0, t, j, rfl, h2, -, -⟩
        · rw [h2] at hw; simp at hw
        · rw [h2] at hw
          rcases List.mem_cons.1 hw with rfl | hw
          · exact hq w0 (by rw [e]; simp)
          · exact hq w (by rw [e]; simp [hw])
      intro w hw
      cases l with
      | request k =>
        simp only [Pool.step] at hw
        split at hw
        · exact hs w hw
        · rcases List.mem_append.1 hw with hw | hw
          · exact hs w hw
          · rw [List.mem_singleton.1 hw]; exact hl k List.mem_cons_self
      | cancel id =>
        simp only [Pool.step] at hw
        split at hw
        · exact hs w hw
        · rename_i q1 x q2 hp
          obtain ⟨hq, -⟩ := pick_some hp
          refine hassign _ _ ?_ w hw
          intro y hy
          apply hs
          rw [hq]
          rcases List.mem_append.1 hy with hy | hy
          · exact List.mem_append_left _ hy
          · exact List.mem_append_right _ (List.mem_cons_of_mem _ hy)
      | clone id =>
        simp only [Pool.step] at hw
        repeat' split at hw
        all_goals exact hs w hw
      | dropPtr id =>
        simp only [Pool.step] at hw
        repeat' split at hw
        all_goals exact hs w hw
      | dropPermit id =>
        simp only [Pool.step] at hw
        split at hw
        · exact hs w hw
        · split at hw
          · split at hw
            · exact hassign _ _ hs w hw
            · exact hs w hw
          · exact hs w hw
  have hneed' := hneed ls (new n) (by simp [new]) hfit
  have hret := fun id size hg => (C28_returned_once n ls id size hg).2.2 (hall id size hg)
  rw [List.nil_append] at h
  generalize ((new n).run ls).2 = obs at *
  generalize ((new n).run ls).1 = s at *
  have hlive : s.live = [] := by
    cases hl : s.live with
    | nil => rfl
    | cons a l =>
      exfalso
      have ha : a ∈ s.live := by rw [hl]; simp
      have h1 := hret a.id a.size (mem_grantedEv.1 (h.live_granted ha))
      rw [timesReturned_eq] at h1
      have hnd := (h.gRet.map Prod.fst).nodup_iff.1 h.gNodup
      rw [List.map_append, List.nodup_append] at hnd
      have hm : a.id ∈ (returnedEv obs).map Prod.fst := List.count_pos_iff.1 (by omega)
      exact hnd.2.2 a.id hm a.id (by rw [List.map_map]; exact List.mem_map.2 ⟨a, ha, rfl⟩) rfl
  have hcon := h.conserve
  have hq : s.queue = [] := by
    cases hq : s.queue with
    | nil => rfl
    | cons w q =>
      exfalso
      have h0 := h.wait0 (by rw [hq]; simp)
      have h1 := h.need w (by rw [hq]; simp)
      have h2 := hneed' w (by rw [hq]; simp)
      have h3 : sumGot q = 0 := by
        have h4 : ∀ x ∈ q, x.got = 0 := fun x hx => h.tail0 x (by rw [hq]; exact hx)
        clear hq hcon
        unfold sumGot
        induction q with
        | nil => rfl
        | cons y q ih =>
          rw [List.map_cons, List.sum_cons, h4 y List.mem_cons_self,
            ih (fun x hx => h4 x (List.mem_cons_of_mem _ hx))]
      rw [hq, hlive, h0] at hcon
      have h5 : sumGot (w :: q) = w.got + sumGot q := by simp [sumGot]
      rw [h5, h3] at hcon
      simp [sumSize] at hcon
      omega
  have havail : k ≤ s.avail := by
    rw [hq, hlive] at hcon
    simp [sumGot, sumSize] at hcon
    omega
  exact ⟨s.next, by simp only [Pool.step, if_pos havail]⟩

/-- A case: a pool of ten bytes; the second message waits for the first, which is cloned and dropped. -/
example :
    ((new 10).run [.request 6, .clone 0, .request 7, .request 0, .dropPtr 0, .dropPermit 0, .dropPtr 0,
      .dropPermit 0, .request 3]).2 =
    [.requested 0 6, .granted 0 6, .cloned 0, .requested 1 7, .requested 2 0, .granted 2 0, .dropped 0,
     .freed 0 6, .dropped 0, .returned 0 6, .granted 1 7, .requested 3 3, .granted 3 3] := by decide

/-! ## C29 -/

/-- **C29, order.** Readers of non-empty messages are served in the order of their requests (requests are
numbered in order). A request for zero bytes needs nothing and may be served earlier. -/
theorem C29_in_order (n : Nat) (ls : List Label) :
    (((new n).run ls).2.filterMap fun o => match o with
      | .granted id k => if 0 < k then some id else none
      | _ => none).Pairwise (· < ·) := by
  have h := inv_run ls (new n) [] (inv_new n)
  rw [List.nil_append] at h
  have h1 := h.order
  generalize ((new n).run ls).2 = obs at *
  have : (obs.filterMap fun o => match o with
      | .granted id k => if 0 < k then some id else none
      | _ => none) = ((grantedEv obs).filter fun p => decide (0 < p.2)).map Prod.fst := by
    clear h h1
    induction obs with
    | nil => rfl
    | cons o l ih =>
      unfold grantedEv at *
      cases o with
      | granted i k =>
        by_cases hk : 0 < k
        · simp [hk, ih]
        · simp [hk, ih]
      | _ => simpa using ih
  rw [this, List.pairwise_map]
  exact h1

/-- The requests are numbered in the order in which they are made. -/
theorem requests_numbered (n : Nat) (ls : List Label) :
    (((new n).run ls).2.filterMap fun o => match o with | .requested id _ => some id | _ => none) =
      List.range ((new n).run ls).1.next := by
  have hstep : ∀ (s : Pool) (l : Label),
      ((s.step l).2.filterMap fun o => match o with | .requested id _ => some id | _ => none) =
        List.range' s.next ((s.step l).1.next - s.next) ∧ s.next ≤ (s.step l).1.next := by
    intro s l
    cases l with
    | request k => simp only [Pool.step]; split <;> simp
    | cancel id =>
      simp only [Pool.step]
      split
      · simp
      · simp [Pool.release]
    | clone id => simp only [Pool.step]; repeat' split
                  all_goals simp
    | dropPtr id => simp only [Pool.step]; repeat' split
                    all_goals simp
    | dropPermit id => simp only [Pool.step]; repeat' split
                       all_goals simp [Pool.release]
  have hrun : ∀ (ls : List Label) (s : Pool),
      ((s.run ls).2.filterMap fun o => match o with | .requested id _ => some id | _ => none) =
        List.range' s.next ((s.run ls).1.next - s.next) ∧ s.next ≤ (s.run ls).1.next := by
    intro ls
    induction ls with
    | nil => intro s; simp [Pool.run]
    | cons l ls ih =>
      intro s
      obtain ⟨h1, h2⟩ := hstep s l
      obtain ⟨h3, h4⟩ := ih (s.step l).1
      simp only [Pool.run]
      refine ⟨?_, by omega⟩
      rw [List.filterMap_append, h1, h3]
      have := List.range'_append_1 (s := s.next) (m := (s.step l).1.next - s.next)
        (n := ((s.step l).1.run ls).1.next - (s.step l).1.next)
      rw [show s.next + ((s.step l).1.next - s.next) = (s.step l).1.next by omega] at this
      rw [this]
      congr 1
      omega
  have := (hrun ls (new n)).1
  rw [this, List.range_eq_range']
  rfl

/-! ### An endless schedule -/

/-- The state at time `t` of an endless schedule. -/
def stateAt (n : Nat) (σ : Nat → Label) : Nat → Pool
  | 0 => new n
  | t + 1 => ((stateAt n σ t).step (σ t)).1

/-- What is observed at time `t`. -/
def obsAt (n : Nat) (σ : Nat → Label) (t : Nat) : List Obs := ((stateAt n σ t).step (σ t)).2

/-- What was observed before time `t`. -/
def before (n : Nat) (σ : Nat → Label) : Nat → List Obs
  | 0 => []
  | t + 1 => before n σ t ++ obsAt n σ t

theorem inv_at (n : Nat) (σ : Nat → Label) (t : Nat) : Inv (stateAt n σ t) 0 (before n σ t) := by
  induction t with
  | zero => exact inv_new n
  | succ t ih => exact inv_step _ _ ih (σ t)

theorem cap_at (n : Nat) (σ : Nat → Label) (t : Nat) : (stateAt n σ t).cap = n := by
  induction t with
  | zero => rfl
  | succ t ih => unfold stateAt; rw [cap_step, ih]

theorem mem_before {n : Nat} {σ : Nat → Label} {t : Nat} {o : Obs} :
    o ∈ before n σ t ↔ ∃ t' < t, o ∈ obsAt n σ t' := by
  induction t with
  | zero => simp [before]
  | succ t ih =>
    simp only [before, List.mem_append, ih]
    constructor
    · rintro (⟨t', h1, h2⟩ | h)
      · exact ⟨t', by omega, h2⟩
      · exact ⟨t, by omega, h⟩
    · rintro ⟨t', h1, h2⟩
      by_cases h : t' = t
      · subst h; exact Or.inr h2
      · exact Or.inl ⟨t', by omega, h2⟩

theorem release_facts (s : Pool) (k : Nat) :
    (∀ id m, Obs.granted id m ∈ (s.release k).2 → ∃ w ∈ s.queue, w.id = id) ∧
    (∀ w ∈ (s.release k).1.queue, ∃ w0 ∈ s.queue, w0.id = w.id ∧ w0.need = w.need) ∧
    (∀ w ∈ s.queue, Obs.granted w.id w.need ∈ (s.release k).2 ∨
      ∃ w' ∈ (s.release k).1.queue, w'.id = w.id ∧ w'.need = w.need) := by
  obtain ⟨rest, hq, hrest⟩ := assign_shape k s.queue
  unfold Pool.release
  generalize hA : assign k s.queue = r at *
  obtain ⟨kr, q', g⟩ := r
  simp only at *
  refine ⟨?_, ?_, ?_⟩
  · intro id m hm
    obtain ⟨w, hw, he⟩ := List.mem_map.1 hm
    simp only [Obs.granted.injEq] at he
    exact ⟨w, by rw [hq]; exact List.mem_append_left _ hw, he.1⟩
  · intro w hw
    rcases hrest with ⟨rfl, rfl⟩ | ⟨w0, t, j, rfl, rfl, -, -⟩
    · simp at hw
    · rcases List.mem_cons.1 hw with rfl | hw
      · exact ⟨w0, by rw [hq]; simp, rfl, rfl⟩
      · exact ⟨w, by rw [hq]; simp [hw], rfl, rfl⟩
  · intro w hw
    rw [hq] at hw
    rcases List.mem_append.1 hw with hw | hw
    · exact Or.inl (List.mem_map.2 ⟨w, hw, rfl⟩)
    · right
      rcases hrest with ⟨rfl, rfl⟩ | ⟨w0, t, j, rfl, rfl, -, -⟩
      · simp at hw
      · rcases List.mem_cons.1 hw with rfl | hw
        · exact ⟨_, List.mem_cons_self, rfl, rfl⟩
        · exact ⟨w, List.mem_cons_of_mem _ hw, rfl, rfl⟩

/-- What one step does to the queue. -/
theorem step_facts (s : Pool) (l : Label) :
    (∀ id m, Obs.granted id m ∈ (s.step l).2 → (∃ w ∈ s.queue, w.id = id) ∨ id = s.next) ∧
    (∀ w ∈ (s.step l).1.queue, (∃ w0 ∈ s.queue, w0.id = w.id ∧ w0.need = w.need) ∨
      (w.id = s.next ∧ l = .request w.need)) ∧
    (∀ w ∈ s.queue, l ≠ .cancel w.id → Obs.granted w.id w.need ∈ (s.step l).2 ∨
      ∃ w' ∈ (s.step l).1.queue, w'.id = w.id ∧ w'.need = w.need) ∧
    s.next ≤ (s.step l).1.next ∧
    (∀ id m, Obs.requested id m ∈ (s.step l).2 → Obs.granted id m ∈ (s.step l).2 ∨
      ∃ w ∈ (s.step l).1.queue, w.id = id ∧ w.need = m) := by
  cases l with
  | request k =>
    simp only [Pool.step]
    split
    · refine ⟨?_, ?_, ?_, by simp, ?_⟩
      · intro id m hm
        simp at hm
        exact Or.inr hm.1
      · intro w hw; exact Or.inl ⟨w, hw, rfl, rfl⟩
      · intro w hw _; exact Or.inr ⟨w, hw, rfl, rfl⟩
      · intro id m hm
        simp at hm
        obtain ⟨rfl, rfl⟩ := hm
        simp
    · refine ⟨?_, ?_, ?_, by simp, ?_⟩
      · intro id m hm
        simp at hm
      · intro w hw
        rcases List.mem_append.1 hw with hw | hw
        · exact Or.inl ⟨w, hw, rfl, rfl⟩
        · rw [List.mem_singleton.1 hw]; exact Or.inr ⟨rfl, rfl⟩
      · intro w hw _; exact Or.inr ⟨w, List.mem_append_left _ hw, rfl, rfl⟩
      · intro id m hm
        simp at hm
        obtain ⟨rfl, rfl⟩ := hm
        exact Or.inr ⟨_, List.mem_append_right _ (List.mem_singleton.2 rfl), rfl, rfl⟩
  | cancel id =>
    simp only [Pool.step]
    split
    · exact ⟨by simp, fun w hw => Or.inl ⟨w, hw, rfl, rfl⟩, fun w hw _ => Or.inr ⟨w, hw, rfl, rfl⟩,
        Nat.le_refl _, by simp⟩
    · rename_i q1 x q2 hp
      obtain ⟨hq, hx⟩ := pick_some hp
      simp only [decide_eq_true_eq] at hx
      obtain ⟨f1, f2, f3⟩ := release_facts { s with queue := q1 ++ q2 } x.got
      have hsub : ∀ y ∈ q1 ++ q2, y ∈ s.queue := by
        intro y hy
        rw [hq]
        rcases List.mem_append.1 hy with hy | hy
        · exact List.mem_append_left _ hy
        · exact List.mem_append_right _ (List.mem_cons_of_mem _ hy)
      refine ⟨?_, ?_, ?_, Nat.le_refl _, ?_⟩
      · intro i m hm
        simp only [List.mem_cons, reduceCtorEq, false_or] at hm
        obtain ⟨w, h1, h2⟩ := f1 i m hm
        exact Or.inl ⟨w, hsub w h1, h2⟩
      · intro w hw
        obtain ⟨w0, h1, h2⟩ := f2 w hw
        exact Or.inl ⟨w0, hsub w0 h1, h2⟩
      · intro w hw hne
        have hw' : w ∈ q1 ++ q2 := by
          rw [hq] at hw
          rcases List.mem_append.1 hw with hw | hw
          · exact List.mem_append_left _ hw
          · rcases List.mem_cons.1 hw with rfl | hw
            · exact absurd (by rw [hx]) hne
            · exact List.mem_append_right _ hw
        rcases f3 w hw' with h | h
        · exact Or.inl (List.mem_cons_of_mem _ h)
        · exact Or.inr h
      · intro i m hm
        simp [Pool.release] at hm
  | clone id =>
    simp only [Pool.step]
    repeat' split
    all_goals exact ⟨by simp, fun w hw => Or.inl ⟨w, hw, rfl, rfl⟩, fun w hw _ => Or.inr ⟨w, hw, rfl, rfl⟩,
        Nat.le_refl _, by simp⟩
  | dropPtr id =>
    simp only [Pool.step]
    repeat' split
    all_goals exact ⟨by simp, fun w hw => Or.inl ⟨w, hw, rfl, rfl⟩, fun w hw _ => Or.inr ⟨w, hw, rfl, rfl⟩,
        Nat.le_refl _, by simp⟩
  | dropPermit id =>
    simp only [Pool.step]
    split
    · exact ⟨by simp, fun w hw => Or.inl ⟨w, hw, rfl, rfl⟩, fun w hw _ => Or.inr ⟨w, hw, rfl, rfl⟩,
        Nat.le_refl _, by simp⟩
    · rename_i l1 a l2 hp
      split
      · split
        · obtain ⟨f1, f2, f3⟩ := release_facts { s with live := l1 ++ l2 } a.size
          refine ⟨?_, ?_, ?_, Nat.le_refl _, ?_⟩
          · intro i m hm
            simp only [List.mem_cons, reduceCtorEq, false_or] at hm
            exact Or.inl (f1 i m hm)
          · intro w hw; exact Or.inl (f2 w hw)
          · intro w hw _
            rcases f3 w hw with h | h
            · exact Or.inl (List.mem_cons_of_mem _ (List.mem_cons_of_mem _ h))
            · exact Or.inr h
          · intro i m hm
            simp [Pool.release] at hm
        · exact ⟨by simp, fun w hw => Or.inl ⟨w, hw, rfl, rfl⟩, fun w hw _ => Or.inr ⟨w, hw, rfl, rfl⟩,
            Nat.le_refl _, by simp⟩
      · exact ⟨by simp, fun w hw => Or.inl ⟨w, hw, rfl, rfl⟩, fun w hw _ => Or.inr ⟨w, hw, rfl, rfl⟩,
          Nat.le_refl _, by simp⟩

/-- `i` waits at time `t`. -/
def Waits (n : Nat) (σ : Nat → Label) (i t : Nat) : Prop := ∃ w ∈ (stateAt n σ t).queue, w.id = i

theorem next_mono (n : Nat) (σ : Nat → Label) {t t' : Nat} (h : t ≤ t') :
    (stateAt n σ t).next ≤ (stateAt n σ t').next := by
  induction t' with
  | zero => rw [Nat.le_zero.1 h]; exact Nat.le_refl _
  | succ t' ih =>
    by_cases ht : t = t' + 1
    · rw [ht]; exact Nat.le_refl _
    · exact Nat.le_trans (ih (by omega)) (step_facts (stateAt n σ t') (σ t')).2.2.2.1

/-- Who stopped waiting does not wait again. -/
theorem not_again (n : Nat) (σ : Nat → Label) {i t t' : Nat} (h : t ≤ t')
    (hi : i < (stateAt n σ t).next) (hn : ¬ Waits n σ i t) : ¬ Waits n σ i t' := by
  induction t' with
  | zero => rw [Nat.le_zero.1 h] at hn; exact hn
  | succ t' ih =>
    by_cases ht : t = t' + 1
    · rw [← ht]; exact hn
    · rintro ⟨w, hw, rfl⟩
      rcases (step_facts (stateAt n σ t') (σ t')).2.1 w hw with ⟨w0, h1, h2, -⟩ | ⟨h1, -⟩
      · exact ih (by omega) ⟨w0, h1, h2⟩
      · have := next_mono n σ (show t ≤ t' by omega)
        omega

theorem needs_fit (n : Nat) (σ : Nat → Label) (hfit : ∀ t k, σ t = .request k → k ≤ n) (t : Nat) :
    ∀ w ∈ (stateAt n σ t).queue, w.need ≤ n := by
  induction t with
  | zero => simp [stateAt, new]
  | succ t ih =>
    intro w hw
    rcases (step_facts (stateAt n σ t) (σ t)).2.1 w hw with ⟨w0, h1, -, h2⟩ | ⟨-, h1⟩
    · rw [← h2]; exact ih w0 h1
    · exact hfit t _ h1

/-- **C29, every request is served.** On any endless schedule on which every requested size fits the
pool and every message handed out is eventually given back, every request that is not cancelled is
eventually served. -/
theorem C29_served (n : Nat) (σ : Nat → Label)
    (hfit : ∀ t k, σ t = .request k → k ≤ n)
    (hfair : ∀ t id k, Obs.granted id k ∈ obsAt n σ t → ∃ t', Obs.returned id k ∈ obsAt n σ t')
    (t id k : Nat) (hreq : Obs.requested id k ∈ obsAt n σ t) (hnc : ∀ t', σ t' ≠ .cancel id) :
    ∃ t', Obs.granted id k ∈ obsAt n σ t' := by
  refine Classical.byContradiction fun hno => ?_
  have hno' : ∀ t', Obs.granted id k ∉ obsAt n σ t' := fun t' h => hno ⟨t', h⟩
  -- it waits for ever
  have hw : ∀ t', t < t' → ∃ w ∈ (stateAt n σ t').queue, w.id = id ∧ w.need = k := by
    intro t' ht
    induction t' with
    | zero => omega
    | succ t' ih =>
      by_cases h : t = t'
      · subst h
        rcases (step_facts (stateAt n σ t) (σ t)).2.2.2.2 id k hreq with h | h
        · exact absurd h (hno' t)
        · exact h
      · obtain ⟨w, h1, h2, h3⟩ := ih (by omega)
        rcases (step_facts (stateAt n σ t') (σ t')).2.2.1 w h1 (by rw [h2]; exact hnc t') with h4 | ⟨w', h4, h5, h6⟩
        · rw [h2, h3] at h4; exact absurd h4 (hno' t')
        · exact ⟨w', h4, by rw [h5, h2], by rw [h6, h3]⟩
  -- the first of those who wait for ever
  have hex : ∃ i, ∃ t0, ∀ t', t0 ≤ t' → Waits n σ i t' :=
    ⟨id, t + 1, fun t' h => by obtain ⟨w, h1, h2, -⟩ := hw t' (by omega); exact ⟨w, h1, h2⟩⟩
  obtain ⟨i, ⟨t0, hi⟩, hmin⟩ : ∃ i, (∃ t0, ∀ t', t0 ≤ t' → Waits n σ i t') ∧
      ∀ j < i, ¬ ∃ t0, ∀ t', t0 ≤ t' → Waits n σ j t' := by
    obtain ⟨i, hi⟩ := hex
    induction i using Nat.strongRecOn with
    | _ i ih =>
      by_cases h : ∃ j < i, ∃ t0, ∀ t', t0 ≤ t' → Waits n σ j t'
      · obtain ⟨j, hj, h⟩ := h
        exact ih j hj h
      · exact ⟨i, hi, fun j hj hh => h ⟨j, hj, hh⟩⟩
  have hi_next : i < (stateAt n σ t0).next := by
    obtain ⟨w, h1, rfl⟩ := hi t0 (Nat.le_refl _)
    exact (inv_at n σ t0).qFresh w h1
  -- from some time on it is the first in the queue
  have hfirst : ∀ m, m ≤ i → ∃ T, t0 ≤ T ∧ ∀ t', T ≤ t' → ∀ j < m, ¬ Waits n σ j t' := by
    intro m
    induction m with
    | zero => intro _; exact ⟨t0, Nat.le_refl _, fun _ _ j hj => by omega⟩
    | succ m ih =>
      intro hm
      obtain ⟨T, h1, h2⟩ := ih (by omega)
      have h3 : ∃ t', T ≤ t' ∧ ¬ Waits n σ m t' := by
        refine Classical.byContradiction fun hcon => hmin m (by omega) ⟨T, fun t' ht => ?_⟩
        exact Classical.byContradiction fun hh => hcon ⟨t', ht, hh⟩
      obtain ⟨T', h4, h5⟩ := h3
      refine ⟨T', by omega, fun t' ht j hj => ?_⟩
      by_cases hjm : j = m
      · subst hjm
        refine not_again n σ ht ?_ h5
        have := next_mono n σ (show t0 ≤ T' by omega)
        omega
      · exact h2 t' (by omega) j (by omega)
  obtain ⟨T, hT, hhead⟩ := hfirst i (Nat.le_refl _)
  -- from then on nothing but empty messages is handed out
  have hquiet : ∀ t', T ≤ t' → ∀ j m, Obs.granted j m ∈ obsAt n σ t' → m = 0 := by
    intro t' ht j m hg
    refine Classical.byContradiction fun hm => ?_
    have hinv := inv_at n σ (t' + 1)
    obtain ⟨w, h1, h2⟩ := hi (t' + 1) (by omega)
    have hlt := hinv.orderQ (j, m) (by
      show (j, m) ∈ grantedEv (before n σ t' ++ obsAt n σ t')
      rw [grantedEv_append]
      exact List.mem_append_right _ (mem_grantedEv.2 hg)) (by simp only; omega) w h1
    simp only at hlt
    rw [h2] at hlt
    have hnx := next_mono n σ (show t0 ≤ t' by omega)
    rcases (step_facts (stateAt n σ t') (σ t')).1 j m hg with h | h
    · exact hhead t' ht j hlt h
    · omega
  -- whatever is handed out by then is given back
  have hback : ∀ l : List (Nat × Nat), (∀ p ∈ l, p ∈ grantedEv (before n σ T)) →
      ∃ T', T ≤ T' ∧ ∀ p ∈ l, p ∈ returnedEv (before n σ T') := by
    intro l
    induction l with
    | nil => intro _; exact ⟨T, Nat.le_refl _, by simp⟩
    | cons p l ih =>
      intro hl
      obtain ⟨T1, h1, h2⟩ := ih (fun q hq => hl q (List.mem_cons_of_mem _ hq))
      obtain ⟨tg, -, hg⟩ := mem_before.1 (mem_grantedEv.1 (hl p List.mem_cons_self))
      obtain ⟨tr, hr⟩ := hfair tg p.1 p.2 hg
      refine ⟨max T1 (tr + 1), by omega, fun q hq => ?_⟩
      have hmono : ∀ (x : Nat × Nat) (a b : Nat), a ≤ b → x ∈ returnedEv (before n σ a) →
          x ∈ returnedEv (before n σ b) := by
        intro x a b hab hx
        unfold returnedEv at *
        rw [List.mem_filterMap] at *
        obtain ⟨o, ho, he⟩ := hx
        obtain ⟨t', h3, h4⟩ := mem_before.1 ho
        exact ⟨o, mem_before.2 ⟨t', by omega, h4⟩, he⟩
      rcases List.mem_cons.1 hq with rfl | hq
      · unfold returnedEv
        rw [List.mem_filterMap]
        exact ⟨_, mem_before.2 ⟨tr, by omega, hr⟩, rfl⟩
      · exact hmono q T1 _ (by omega) (h2 q hq)
  obtain ⟨T', hTT, hret⟩ := hback _ (fun p hp => hp)
  have hinv := inv_at n σ T'
  -- so what is live then is empty
  have hzero : ∀ a ∈ (stateAt n σ T').live, a.size = 0 := by
    intro a ha
    refine Classical.byContradiction fun hs => ?_
    have hg := hinv.live_granted ha
    obtain ⟨tg, h1, h2⟩ := mem_before.1 (mem_grantedEv.1 hg)
    have htg : tg < T := by
      refine Classical.byContradiction fun h => ?_
      exact hs (hquiet tg (by omega) _ _ h2)
    have hr := hret (a.id, a.size) (mem_grantedEv.2 (mem_before.2 ⟨tg, htg, h2⟩))
    have hnd := (hinv.gRet.map Prod.fst).nodup_iff.1 hinv.gNodup
    rw [List.map_append, List.nodup_append] at hnd
    exact hnd.2.2 a.id (List.mem_map.2 ⟨_, hr, rfl⟩) a.id
      (by rw [List.map_map]; exact List.mem_map.2 ⟨a, ha, rfl⟩) rfl
  have hsz : sumSize (stateAt n σ T').live = 0 := by
    unfold sumSize
    exact sum_zero _ (fun x hx => by obtain ⟨a, ha, rfl⟩ := List.mem_map.1 hx; exact hzero a ha)
  have hcon := hinv.conserve
  rw [cap_at, hsz] at hcon
  obtain ⟨w, hwm, -⟩ := hi T' (by omega)
  cases hq : (stateAt n σ T').queue with
  | nil => rw [hq] at hwm; simp at hwm
  | cons x q =>
    have h0 := hinv.wait0 (by rw [hq]; simp)
    have h1 := hinv.need x (by rw [hq]; simp)
    have h2 := needs_fit n σ hfit T' x (by rw [hq]; simp)
    have h3 : sumGot q = 0 := by
      unfold sumGot
      refine sum_zero _ (fun y hy => ?_)
      obtain ⟨z, hz, rfl⟩ := List.mem_map.1 hy
      exact hinv.tail0 z (by rw [hq]; exact hz)
    have h4 : sumGot (x :: q) = x.got + sumGot q := by simp [sumGot]
    rw [hq, h4, h3, h0] at hcon
    omega

/-- A case: a pool of ten bytes, two messages that do not fit together, each dropped after a while. -/
def demo : Nat → Label
  | 0 => .request 6
  | 1 => .request 7
  | 2 => .dropPtr 0
  | 3 => .dropPermit 0
  | 4 => .dropPtr 1
  | 5 => .dropPermit 1
  | _ => .clone 0

example : (∀ t k, demo t = .request k → k ≤ 10) ∧
    (∀ t id k, Obs.granted id k ∈ obsAt 10 demo t → ∃ t', Obs.returned id k ∈ obsAt 10 demo t') ∧
    Obs.requested 1 7 ∈ obsAt 10 demo 1 ∧ Obs.granted 1 7 ∉ obsAt 10 demo 1 ∧
    (∀ t, demo t ≠ .cancel 1) := by
  have hend : ∀ t, stateAt 10 demo (t + 6) = ⟨10, 10, [], [], 2⟩ := by
    intro t
    induction t with
    | zero => rfl
    | succ t ih =>
      show ((stateAt 10 demo (t + 6)).step (demo (t + 6))).1 = _
      rw [ih]; rfl
  refine ⟨?_, ?_, by decide, by decide, ?_⟩
  · intro t k h
    unfold demo at h
    split at h <;> simp at h <;> omega
  · intro t id k h
    match t, h with
    | 0, h => exact ⟨3, by revert h; simp [obsAt, stateAt, demo, Pool.step, new, pick, Pool.release, assign]⟩
    | 1, h => simp [obsAt, stateAt, demo, Pool.step, new] at h
    | 2, h => simp [obsAt, stateAt, demo, Pool.step, new, pick] at h
    | 3, h =>
      exact ⟨5, by
        revert h
        simp [obsAt, stateAt, demo, Pool.step, new, pick, Pool.release, assign, Waiter.alloc]⟩
    | 4, h =>
      simp [obsAt, stateAt, demo, Pool.step, new, pick, Pool.release, assign, Waiter.alloc] at h
    | 5, h =>
      simp [obsAt, stateAt, demo, Pool.step, new, pick, Pool.release, assign, Waiter.alloc] at h
    | t + 6, h =>
      unfold obsAt at h
      rw [hend t] at h
      simp [demo, Pool.step, pick] at h
  · intro t h
    unfold demo at h
    split at h <;> simp at h

/-! ### A request larger than the pool

The size hint is checked against the largest message (`MAX_MESSAGE_SIZE`, protocols/mod.rs:320-325), not
against the pool. With a pool smaller than that, one peer announcing a message larger than the pool stops
every reader of the broker, for as long as it keeps the connection open. -/

/-- **C29 needs the size condition.** Once a request larger than the pool waits and is not cancelled, no
later request of a non-empty message is ever served. -/
theorem C29_needs_size (n : Nat) (σ : Nat → Label) (t id k : Nat)
    (hreq : Obs.requested id k ∈ obsAt n σ t) (hbig : n < k) (hnc : ∀ t', σ t' ≠ .cancel id)
    (t' id' k' : Nat) (hlater : id < id') (hk : 0 < k') : Obs.granted id' k' ∉ obsAt n σ t' := by
  intro hg
  have hnever : ∀ t', Obs.granted id k ∉ obsAt n σ t' := by
    intro t' h
    have hinv := inv_at n σ (t' + 1)
    have hm : (id, k) ∈ grantedEv (before n σ (t' + 1)) :=
      mem_grantedEv.2 (mem_before.2 ⟨t', by omega, h⟩)
    -- it would have been live
    have hsub : ∀ (s : Pool) (obs : List Obs) (h : Inv s 0 obs) (l : Label),
        Obs.granted id k ∈ (s.step l).2 → k ≤ s.cap := by
      intro s obs hI l hl
      have hI' := inv_step s obs hI l
      have hc := hI'.conserve
      have hcap := cap_step s l
      -- the step that grants also makes it live
      have hrel : ∀ (s : Pool) (j : Nat), Obs.granted id k ∈ (s.release j).2 →
          ∃ a ∈ (s.release j).1.live, a.size = k := by
        intro s j hj
        unfold Pool.release at hj ⊢
        obtain ⟨w, hw, he⟩ := List.mem_map.1 hj
        simp only [Obs.granted.injEq] at he
        exact ⟨w.alloc, List.mem_append_right _ (List.mem_map.2 ⟨w, hw, rfl⟩), he.2⟩
      have : ∃ a ∈ (s.step l).1.live, a.size = k := by
        cases l with
        | request m =>
          simp only [Pool.step] at hl ⊢
          split at hl
          · rename_i hm
            simp at hl
            rw [if_pos hm]
            exact ⟨_, List.mem_append_right _ (List.mem_singleton.2 rfl), hl.2.symm⟩
          · simp at hl
        | cancel i =>
          simp only [Pool.step] at hl ⊢
          split at hl
          · simp at hl
          · rename_i hp
            simp only [List.mem_cons, reduceCtorEq, false_or] at hl
            exact hrel _ _ hl
        | clone i =>
          simp only [Pool.step] at hl
          repeat' split at hl
          all_goals simp at hl
        | dropPtr i =>
          simp only [Pool.step] at hl
          repeat' split at hl
          all_goals simp at hl
        | dropPermit i =>
          simp only [Pool.step] at hl ⊢
          split at hl
          · simp at hl
          · rename_i hp
            split at hl
            · rename_i h1
              split at hl
              · rename_i h2
                rw [if_pos h1, if_pos h2]
                simp only [List.mem_cons, reduceCtorEq, false_or] at hl
                exact hrel _ _ hl
              · simp at hl
            · simp at hl
      obtain ⟨a, ha, rfl⟩ := this
      have : a.size ≤ sumSize (s.step l).1.live := by
        unfold sumSize
        exact le_sum _ (List.mem_map.2 ⟨a, ha, rfl⟩)
      omega
    have := hsub _ _ (inv_at n σ t') (σ t') h
    rw [cap_at] at this
    omega
  have hw : ∀ t', t < t' → ∃ w ∈ (stateAt n σ t').queue, w.id = id ∧ w.need = k := by
    intro t' ht
    induction t' with
    | zero => omega
    | succ t' ih =>
      by_cases h : t = t'
      · subst h
        rcases (step_facts (stateAt n σ t) (σ t)).2.2.2.2 id k hreq with h | h
        · exact absurd h (hnever t)
        · exact h
      · obtain ⟨w, h1, h2, h3⟩ := ih (by omega)
        rcases (step_facts (stateAt n σ t') (σ t')).2.2.1 w h1 (by rw [h2]; exact hnc t') with h4 | ⟨w', h4, h5, h6⟩
        · rw [h2, h3] at h4; exact absurd h4 (hnever t')
        · exact ⟨w', h4, by rw [h5, h2], by rw [h6, h3]⟩
  -- at a time when both have happened
  obtain ⟨w, h1, h2, -⟩ := hw (max t t' + 1) (by omega)
  have hlt := (inv_at n σ (max t t' + 1)).orderQ (id', k')
    (mem_grantedEv.2 (mem_before.2 ⟨t', by omega, hg⟩)) hk w h1
  simp only at hlt
  omega

/-- A case: the pool is empty otherwise, and a reader of one byte waits for ever. -/
example : ((new 10).run [.request 11, .request 1]).2 = [.requested 0 11, .requested 1 1] := by decide

end Verif.Props.Pool

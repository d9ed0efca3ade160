import Verif.Model.Pool

/-!
# Lemmas about the memory pool
-/

namespace Verif.Pool

/-! ## What a trace says -/

def grantedEv (obs : List Obs) : List (Nat × Nat) :=
  obs.filterMap fun o => match o with | .granted id n => some (id, n) | _ => none

def freedEv (obs : List Obs) : List (Nat × Nat) :=
  obs.filterMap fun o => match o with | .freed id n => some (id, n) | _ => none

def returnedEv (obs : List Obs) : List (Nat × Nat) :=
  obs.filterMap fun o => match o with | .returned id n => some (id, n) | _ => none

theorem grantedEv_append (a b : List Obs) : grantedEv (a ++ b) = grantedEv a ++ grantedEv b :=
  List.filterMap_append

theorem freedEv_append (a b : List Obs) : freedEv (a ++ b) = freedEv a ++ freedEv b :=
  List.filterMap_append

theorem returnedEv_append (a b : List Obs) : returnedEv (a ++ b) = returnedEv a ++ returnedEv b :=
  List.filterMap_append

/-- The handles of an allocation that the trace says were made besides the first, and dropped. -/
def clones (id : Nat) (obs : List Obs) : Nat := obs.count (.cloned id)
def drops (id : Nat) (obs : List Obs) : Nat := obs.count (.dropped id)

theorem pick_some {A : Type} {p : A → Bool} {l l1 l2 : List A} {a : A} (h : pick p l = some (l1, a, l2)) :
    l = l1 ++ a :: l2 ∧ p a = true := by
  induction l generalizing l1 with
  | nil => simp [pick] at h
  | cons x l ih =>
    unfold pick at h
    split at h
    · rename_i hp
      simp only [Option.some.injEq, Prod.mk.injEq] at h
      obtain ⟨rfl, rfl, rfl⟩ := h
      exact ⟨rfl, hp⟩
    · rw [Option.map_eq_some_iff] at h
      obtain ⟨⟨m1, b, m2⟩, h1, h2⟩ := h
      simp only [Prod.mk.injEq] at h2
      obtain ⟨rfl, rfl, rfl⟩ := h2
      obtain ⟨e1, e2⟩ := ih h1
      exact ⟨by rw [e1]; rfl, e2⟩

theorem pick_none {A : Type} {p : A → Bool} {l : List A} (h : pick p l = none) :
    ∀ a ∈ l, p a = false := by
  induction l with
  | nil => simp
  | cons x l ih =>
    unfold pick at h
    split at h
    · simp at h
    · rename_i hp
      rw [Option.map_eq_none_iff] at h
      intro a ha
      rcases List.mem_cons.1 ha with rfl | ha
      · simpa using hp
      · exact ih h a ha

def sumGot (q : List Waiter) : Nat := (q.map Waiter.got).sum
def sumNeed (q : List Waiter) : Nat := (q.map Waiter.need).sum
def sumSize (l : List Alloc) : Nat := (l.map Alloc.size).sum

theorem assign_conserve (k : Nat) (q : List Waiter) (h : ∀ w ∈ q, w.got < w.need) :
    (assign k q).1 + sumGot (assign k q).2.1 + sumNeed (assign k q).2.2 = k + sumGot q := by
  induction q generalizing k with
  | nil => simp [assign, sumGot, sumNeed]
  | cons w q ih =>
    unfold assign
    split
    · rename_i hk
      have := ih (k - (w.need - w.got)) (fun x hx => h x (List.mem_cons_of_mem _ hx))
      have hw := h w List.mem_cons_self
      simp only [sumGot, sumNeed, List.map_cons, List.sum_cons] at this ⊢
      omega
    · simp only [sumGot, sumNeed, List.map_cons, List.sum_cons, List.map_nil, List.sum_nil]
      omega

theorem assign_shape (k : Nat) (q : List Waiter) :
    ∃ rest, q = (assign k q).2.2 ++ rest ∧
      ((rest = [] ∧ (assign k q).2.1 = []) ∨
       ∃ w t j, rest = w :: t ∧ (assign k q).2.1 = { w with got := w.got + j } :: t ∧
         j < w.need - w.got ∧ (assign k q).1 = 0) := by
  induction q generalizing k with
  | nil => exact ⟨[], rfl, Or.inl ⟨rfl, rfl⟩⟩
  | cons w q ih =>
    unfold assign
    split
    · obtain ⟨rest, h1, h2⟩ := ih (k - (w.need - w.got))
      refine ⟨rest, ?_, h2⟩
      simp only [List.cons_append]
      rw [← h1]
    · rename_i hk
      exact ⟨w :: q, rfl, Or.inr ⟨w, q, k, rfl, rfl, by omega, rfl⟩⟩

/-! ## Invariant -/

/-- Invariant of the pool after the trace `obs`, with `k` bytes taken out and not given back yet. -/
structure Inv (s : Pool) (k : Nat) (obs : List Obs) : Prop where
  conserve : s.avail + sumGot s.queue + sumSize s.live + k = s.cap
  wait0 : s.queue ≠ [] → s.avail = 0
  need : ∀ w ∈ s.queue, w.got < w.need
  tail0 : ∀ w ∈ s.queue.tail, w.got = 0
  liveOk : ∀ a ∈ s.live, 0 < a.permits ∧ a.ptrs ≤ a.permits
  qFresh : ∀ w ∈ s.queue, w.id < s.next
  gFresh : ∀ p ∈ grantedEv obs, p.1 < s.next
  gNodup : ((grantedEv obs).map Prod.fst).Nodup
  qSorted : (s.queue.map Waiter.id).Pairwise (· < ·)
  qNotG : ∀ w ∈ s.queue, ∀ p ∈ grantedEv obs, p.1 ≠ w.id
  gRet : (grantedEv obs).Perm (returnedEv obs ++ s.live.map fun a => (a.id, a.size))
  gFree : (grantedEv obs).Perm
    (freedEv obs ++ (s.live.filter fun a => decide (0 < a.ptrs)).map fun a => (a.id, a.size))
  cLive : ∀ a ∈ s.live, a.permits + drops a.id obs = 1 + clones a.id obs
  cRet : ∀ p ∈ returnedEv obs, drops p.1 obs = 1 + clones p.1 obs
  cNone : ∀ id, (∀ p ∈ grantedEv obs, p.1 ≠ id) → clones id obs = 0 ∧ drops id obs = 0
  order : ((grantedEv obs).filter fun p => decide (0 < p.2)).Pairwise (·.1 < ·.1)
  orderQ : ∀ p ∈ grantedEv obs, 0 < p.2 → ∀ w ∈ s.queue, p.1 < w.id

theorem inv_new (n : Nat) : Inv (new n) 0 [] := by
  refine ⟨rfl, ?_, ?_, ?_, ?_, ?_, ?_, ?_, ?_, ?_, ?_, ?_, ?_, ?_, ?_, ?_, ?_⟩ <;>
    simp [new, grantedEv, freedEv, returnedEv, clones, drops]

theorem Inv.liveNodup {s : Pool} {k : Nat} {obs : List Obs} (h : Inv s k obs) :
    (s.live.map Alloc.id).Nodup := by
  have h1 := (h.gRet.map Prod.fst).nodup_iff.1 h.gNodup
  rw [List.map_append, List.map_map] at h1
  exact (List.nodup_append.1 h1).2.1

theorem Inv.live_granted {s : Pool} {k : Nat} {obs : List Obs} (h : Inv s k obs) {a : Alloc}
    (ha : a ∈ s.live) : (a.id, a.size) ∈ grantedEv obs :=
  h.gRet.mem_iff.2 (List.mem_append_right _ (List.mem_map.2 ⟨a, ha, rfl⟩))

theorem grantedEv_map (g : List Waiter) :
    grantedEv (g.map fun w => Obs.granted w.id w.need) = g.map fun w => (w.id, w.need) := by
  induction g with
  | nil => rfl
  | cons w g ih =>
    rw [List.map_cons, show ∀ (x : Obs) l, x :: l = [x] ++ l from fun _ _ => rfl, grantedEv_append, ih]
    rfl

/-- Granting a batch of waiting requests, first in the queue, in order. -/
theorem inv_release (s : Pool) (k : Nat) (obs : List Obs) (h : Inv s k obs) :
    Inv (s.release k).1 0 (obs ++ (s.release k).2) := by
  obtain ⟨rest, hq, hrest⟩ := assign_shape k s.queue
  have hcon := assign_conserve k s.queue h.need
  generalize hA : assign k s.queue = r at *
  obtain ⟨kr, q', g⟩ := r
  simp only at *
  have hev := grantedEv_map g
  have hev2 : returnedEv (g.map fun w => Obs.granted w.id w.need) = [] := by
    simp [returnedEv]
  have hev3 : freedEv (g.map fun w => Obs.granted w.id w.need) = [] := by
    simp [freedEv]
  have hcl : ∀ id, clones id (obs ++ g.map fun w => Obs.granted w.id w.need) = clones id obs := by
    intro id; unfold clones; rw [List.count_append]
    have : List.count (Obs.cloned id) (g.map fun w => Obs.granted w.id w.need) = 0 := by
      apply List.count_eq_zero.2; simp
    omega
  have hdr : ∀ id, drops id (obs ++ g.map fun w => Obs.granted w.id w.need) = drops id obs := by
    intro id; unfold drops; rw [List.count_append]
    have : List.count (Obs.dropped id) (g.map fun w => Obs.granted w.id w.need) = 0 := by
      apply List.count_eq_zero.2; simp
    omega
  have hgq : ∀ w ∈ g, w ∈ s.queue := fun w hw => by rw [hq]; exact List.mem_append_left _ hw
  -- the identifiers in the new queue are those of `rest`
  have hids : q'.map Waiter.id = rest.map Waiter.id := by
    rcases hrest with ⟨rfl, rfl⟩ | ⟨w, t, j, rfl, rfl, -, -⟩ <;> rfl
  have hsort := h.qSorted
  rw [hq, List.map_append, List.pairwise_append] at hsort
  obtain ⟨hs1, hs2, hs3⟩ := hsort
  have hqid : ∀ w ∈ q', ∃ w0 ∈ rest, w0.id = w.id := by
    intro w hw
    have : w.id ∈ q'.map Waiter.id := List.mem_map.2 ⟨w, hw, rfl⟩
    rw [hids] at this
    obtain ⟨w0, h1, h2⟩ := List.mem_map.1 this
    exact ⟨w0, h1, h2⟩
  have hrq : ∀ w ∈ rest, w ∈ s.queue := fun w hw => by rw [hq]; exact List.mem_append_right _ hw
  unfold Pool.release
  rw [hA]
  simp only
  refine ⟨?_, ?_, ?_, ?_, ?_, ?_, ?_, ?_, ?_, ?_, ?_, ?_, ?_, ?_, ?_, ?_, ?_⟩
  · have h1 := h.conserve
    have h2 : sumSize (s.live ++ g.map Waiter.alloc) = sumSize s.live + sumNeed g := by
      simp [sumSize, sumNeed, List.map_append, List.sum_append, List.map_map, Waiter.alloc,
        Function.comp_def]
    simp only [h2]; omega
  · intro hne
    rcases hrest with ⟨rfl, rfl⟩ | ⟨w, t, j, rfl, rfl, -, h0⟩
    · exact absurd rfl hne
    · rw [h0, h.wait0 (by rw [hq]; simp)]
  · intro w hw
    rcases hrest with ⟨rfl, rfl⟩ | ⟨w0, t, j, rfl, rfl, hj, -⟩
    · simp at hw
    · have hn := h.need w0 (hrq w0 List.mem_cons_self)
      rcases List.mem_cons.1 hw with rfl | hw
      · simp only; omega
      · exact h.need w (hrq w (List.mem_cons_of_mem _ hw))
  · intro w hw
    rcases hrest with ⟨rfl, rfl⟩ | ⟨w0, t, j, rfl, rfl, hj, -⟩
    · simp at hw
    · apply h.tail0
      rw [hq]
      cases g with
      | nil => exact hw
      | cons x g => simp only [List.cons_append, List.tail_cons]; simp at hw; simp [hw]
  · intro a ha
    rcases List.mem_append.1 ha with ha | ha
    · exact h.liveOk a ha
    · obtain ⟨w, -, rfl⟩ := List.mem_map.1 ha
      simp [Waiter.alloc]
  · intro w hw
    obtain ⟨w0, h1, h2⟩ := hqid w hw
    rw [← h2]; exact h.qFresh w0 (hrq w0 h1)
  · intro p hp
    rw [grantedEv_append, hev] at hp
    rcases List.mem_append.1 hp with hp | hp
    · exact h.gFresh p hp
    · obtain ⟨w, hw, rfl⟩ := List.mem_map.1 hp
      exact h.qFresh w (hgq w hw)
  · rw [grantedEv_append, hev, List.map_append, List.nodup_append]
    refine ⟨h.gNodup, ?_, ?_⟩
    · rw [List.map_map]
      exact hs1.imp (fun h => Nat.ne_of_lt h)
    · intro x hx y hy
      obtain ⟨p, hp, rfl⟩ := List.mem_map.1 hx
      rw [List.map_map] at hy
      obtain ⟨w, hw, rfl⟩ := List.mem_map.1 hy
      exact h.qNotG w (hgq w hw) p hp
  · rw [hids]; exact hs2
  · intro w hw p hp
    obtain ⟨w0, h1, h2⟩ := hqid w hw
    rw [← h2]
    rw [grantedEv_append, hev] at hp
    rcases List.mem_append.1 hp with hp | hp
    · exact h.qNotG w0 (hrq w0 h1) p hp
    · obtain ⟨x, hx, rfl⟩ := List.mem_map.1 hp
      exact Nat.ne_of_lt (hs3 x.id (List.mem_map.2 ⟨x, hx, rfl⟩) w0.id (List.mem_map.2 ⟨w0, h1, rfl⟩))
  · rw [grantedEv_append, hev, returnedEv_append, hev2, List.append_nil, List.map_append,
      ← List.append_assoc, List.map_map]
    exact h.gRet.append_right _
  · rw [grantedEv_append, hev, freedEv_append, hev3, List.append_nil, List.filter_append, List.map_append,
      ← List.append_assoc]
    have : (List.filter (fun a => decide (0 < a.ptrs)) (g.map Waiter.alloc)) = g.map Waiter.alloc := by
      rw [List.filter_eq_self]
      intro a ha
      obtain ⟨w, -, rfl⟩ := List.mem_map.1 ha
      simp [Waiter.alloc]
    rw [this, List.map_map]
    exact h.gFree.append_right _
  · intro a ha
    rw [hcl, hdr]
    rcases List.mem_append.1 ha with ha | ha
    · exact h.cLive a ha
    · obtain ⟨w, hw, rfl⟩ := List.mem_map.1 ha
      obtain ⟨e1, e2⟩ := h.cNone w.id (fun p hp => h.qNotG w (hgq w hw) p hp)
      simp [Waiter.alloc, e1, e2]
  · intro p hp
    rw [returnedEv_append, hev2, List.append_nil] at hp
    rw [hcl, hdr]; exact h.cRet p hp
  · intro id hid
    rw [hcl, hdr]
    apply h.cNone
    intro p hp
    exact hid p (by rw [grantedEv_append]; exact List.mem_append_left _ hp)
  · rw [grantedEv_append, hev, List.filter_append, List.pairwise_append]
    refine ⟨h.order, ?_, ?_⟩
    · have : (g.map fun w => (w.id, w.need)).Pairwise (·.1 < ·.1) := by
        rw [List.pairwise_map]
        rw [List.pairwise_map] at hs1
        exact hs1
      exact this.filter _
    · intro p hp x hx
      obtain ⟨hp1, hp2⟩ := List.mem_filter.1 hp
      obtain ⟨w, hw, rfl⟩ := List.mem_map.1 (List.mem_filter.1 hx).1
      exact h.orderQ p hp1 (by simpa using hp2) w (hgq w hw)
  · intro p hp hpos w hw
    obtain ⟨w0, h1, h2⟩ := hqid w hw
    rw [← h2]
    rw [grantedEv_append, hev] at hp
    rcases List.mem_append.1 hp with hp | hp
    · exact h.orderQ p hp hpos w0 (hrq w0 h1)
    · obtain ⟨x, hx, rfl⟩ := List.mem_map.1 hp
      exact hs3 x.id (List.mem_map.2 ⟨x, hx, rfl⟩) w0.id (List.mem_map.2 ⟨w0, h1, rfl⟩)

/-- Observations that are about nobody. -/
theorem count_singleton_ne {a b : Obs} (h : a ≠ b) : List.count a [b] = 0 := by
  rw [List.count_eq_zero]; simpa using h

theorem inv_step (s : Pool) (obs : List Obs) (h : Inv s 0 obs) (l : Label) :
    Inv (s.step l).1 0 (obs ++ (s.step l).2) := by
  cases l with
  | request n =>
    simp only [Pool.step]
    have hfresh : ∀ p ∈ grantedEv obs, p.1 ≠ s.next := fun p hp => Nat.ne_of_lt (h.gFresh p hp)
    split
    · rename_i hn
      have hev : grantedEv (obs ++ [.requested s.next n, .granted s.next n]) =
          grantedEv obs ++ [(s.next, n)] := by rw [grantedEv_append]; rfl
      have hev2 : returnedEv (obs ++ [.requested s.next n, .granted s.next n]) = returnedEv obs := by
        rw [returnedEv_append]; simp [returnedEv]
      have hev3 : freedEv (obs ++ [.requested s.next n, .granted s.next n]) = freedEv obs := by
        rw [freedEv_append]; simp [freedEv]
      have hcl : ∀ id, clones id (obs ++ [.requested s.next n, .granted s.next n]) = clones id obs := by
        intro id; simp [clones, List.count_append]
      have hdr : ∀ id, drops id (obs ++ [.requested s.next n, .granted s.next n]) = drops id obs := by
        intro id; simp [drops, List.count_append]
      refine ⟨?_, ?_, h.need, h.tail0, ?_, ?_, ?_, ?_, h.qSorted, ?_, ?_, ?_, ?_, ?_, ?_, ?_, ?_⟩
      · have h1 := h.conserve
        simp only [sumSize, List.map_append, List.sum_append, List.map_cons, List.map_nil, List.sum_cons,
          List.sum_nil] at *
        omega
      · intro hq; simp only [h.wait0 hq]; omega
      · intro a ha
        rcases List.mem_append.1 ha with ha | ha
        · exact h.liveOk a ha
        · rw [List.mem_singleton.1 ha]; simp
      · intro w hw; exact Nat.lt_succ_of_lt (h.qFresh w hw)
      · intro p hp
        rw [hev] at hp
        rcases List.mem_append.1 hp with hp | hp
        · exact Nat.lt_succ_of_lt (h.gFresh p hp)
        · rw [List.mem_singleton.1 hp]; exact Nat.lt_succ_self _
      · rw [hev, List.map_append, List.nodup_append]
        refine ⟨h.gNodup, by simp, ?_⟩
        intro x hx y hy
        obtain ⟨p, hp, rfl⟩ := List.mem_map.1 hx
        simp only [List.map_cons, List.map_nil, List.mem_singleton] at hy
        rw [hy]; exact hfresh p hp
      · intro w hw p hp
        rw [hev] at hp
        rcases List.mem_append.1 hp with hp | hp
        · exact h.qNotG w hw p hp
        · rw [List.mem_singleton.1 hp]; exact Ne.symm (Nat.ne_of_lt (h.qFresh w hw))
      · rw [hev, hev2, List.map_append, ← List.append_assoc]
        exact h.gRet.append_right _
      · rw [hev, hev3, List.filter_append, List.map_append, ← List.append_assoc]
        exact h.gFree.append_right _
      · intro a ha
        rw [hcl, hdr]
        rcases List.mem_append.1 ha with ha | ha
        · exact h.cLive a ha
        · rw [List.mem_singleton.1 ha]
          obtain ⟨e1, e2⟩ := h.cNone s.next hfresh
          simp [e1, e2]
      · rw [hev2]; intro p hp; rw [hcl, hdr]; exact h.cRet p hp
      · intro id hid
        rw [hcl, hdr]
        exact h.cNone id (fun p hp => hid p (by rw [hev]; exact List.mem_append_left _ hp))
      · rw [hev, List.filter_append, List.pairwise_append]
        refine ⟨h.order, ?_, ?_⟩
        · by_cases hz : 0 < n <;> simp [hz]
        · intro p hp x hx
          have hx' := (List.mem_filter.1 hx).1
          rw [List.mem_singleton.1 hx']
          exact h.gFresh p (List.mem_filter.1 hp).1
      · intro p hp hpos w hw
        rw [hev] at hp
        rcases List.mem_append.1 hp with hp | hp
        · exact h.orderQ p hp hpos w hw
        · rw [List.mem_singleton.1 hp] at hpos
          have := h.wait0 (List.ne_nil_of_mem hw)
          simp only at hpos
          omega
    · rename_i hn
      have hev : grantedEv (obs ++ [.requested s.next n]) = grantedEv obs := by
        rw [grantedEv_append]; simp [grantedEv]
      have hev2 : returnedEv (obs ++ [.requested s.next n]) = returnedEv obs := by
        rw [returnedEv_append]; simp [returnedEv]
      have hev3 : freedEv (obs ++ [.requested s.next n]) = freedEv obs := by
        rw [freedEv_append]; simp [freedEv]
      have hcl : ∀ id, clones id (obs ++ [.requested s.next n]) = clones id obs := by
        intro id; simp [clones, List.count_append]
      have hdr : ∀ id, drops id (obs ++ [.requested s.next n]) = drops id obs := by
        intro id; simp [drops, List.count_append]
      refine ⟨?_, fun _ => rfl, ?_, ?_, h.liveOk, ?_, ?_, by rw [hev]; exact h.gNodup, ?_, ?_,
        by rw [hev, hev2]; exact h.gRet, by rw [hev, hev3]; exact h.gFree, ?_, ?_, ?_,
        by rw [hev]; exact h.order, ?_⟩
      · have h1 := h.conserve
        simp only [sumGot, List.map_append, List.sum_append, List.map_cons, List.map_nil, List.sum_cons,
          List.sum_nil] at *
        omega
      · intro w hw
        rcases List.mem_append.1 hw with hw | hw
        · exact h.need w hw
        · rw [List.mem_singleton.1 hw]; simp only; omega
      · intro w hw
        cases hq : s.queue with
        | nil => rw [hq] at hw; simp at hw
        | cons x q =>
          rw [hq] at hw
          simp only [List.cons_append, List.tail_cons, List.mem_append, List.mem_singleton] at hw
          rcases hw with hw | hw
          · exact h.tail0 w (by rw [hq]; exact hw)
          · rw [hw]; exact h.wait0 (by rw [hq]; simp)
      · intro w hw
        rcases List.mem_append.1 hw with hw | hw
        · exact Nat.lt_succ_of_lt (h.qFresh w hw)
        · rw [List.mem_singleton.1 hw]; exact Nat.lt_succ_self _
      · rw [hev]; intro p hp; exact Nat.lt_succ_of_lt (h.gFresh p hp)
      · rw [List.map_append, List.pairwise_append]
        refine ⟨h.qSorted, by simp, ?_⟩
        intro x hx y hy
        obtain ⟨w, hw, rfl⟩ := List.mem_map.1 hx
        simp only [List.map_cons, List.map_nil, List.mem_singleton] at hy
        rw [hy]; exact h.qFresh w hw
      · rw [hev]
        intro w hw p hp
        rcases List.mem_append.1 hw with hw | hw
        · exact h.qNotG w hw p hp
        · rw [List.mem_singleton.1 hw]; exact hfresh p hp
      · intro a ha; rw [hcl, hdr]; exact h.cLive a ha
      · rw [hev2]; intro p hp; rw [hcl, hdr]; exact h.cRet p hp
      · intro id hid; rw [hcl, hdr]; rw [hev] at hid; exact h.cNone id hid
      · rw [hev]
        intro p hp hpos w hw
        rcases List.mem_append.1 hw with hw | hw
        · exact h.orderQ p hp hpos w hw
        · rw [List.mem_singleton.1 hw]; exact h.gFresh p hp
  | cancel id =>
    simp only [Pool.step]
    split
    · rw [List.append_nil]; exact h
    · rename_i q1 w q2 hp
      obtain ⟨hq, -⟩ := pick_some hp
      have hev : grantedEv (obs ++ [.cancelled id]) = grantedEv obs := by
        rw [grantedEv_append]; simp [grantedEv]
      have hev2 : returnedEv (obs ++ [.cancelled id]) = returnedEv obs := by
        rw [returnedEv_append]; simp [returnedEv]
      have hev3 : freedEv (obs ++ [.cancelled id]) = freedEv obs := by
        rw [freedEv_append]; simp [freedEv]
      have hcl : ∀ i, clones i (obs ++ [.cancelled id]) = clones i obs := by
        intro i; simp [clones, List.count_append]
      have hdr : ∀ i, drops i (obs ++ [.cancelled id]) = drops i obs := by
        intro i; simp [drops, List.count_append]
      have hsub : ∀ x ∈ q1 ++ q2, x ∈ s.queue := by
        intro x hx
        rw [hq]
        rcases List.mem_append.1 hx with hx | hx
        · exact List.mem_append_left _ hx
        · exact List.mem_append_right _ (List.mem_cons_of_mem _ hx)
      have hsl : (q1 ++ q2).Sublist s.queue := by
        rw [hq]; exact (List.sublist_cons_self w q2).append_left q1
      have h1 : Inv { s with queue := q1 ++ q2 } w.got (obs ++ [.cancelled id]) := by
        refine ⟨?_, fun _ => h.wait0 (by rw [hq]; simp), fun x hx => h.need x (hsub x hx), ?_, h.liveOk,
          fun x hx => h.qFresh x (hsub x hx), by rw [hev]; exact h.gFresh, by rw [hev]; exact h.gNodup,
          List.Pairwise.sublist (hsl.map _) h.qSorted, ?_, by rw [hev, hev2]; exact h.gRet,
          by rw [hev, hev3]; exact h.gFree, ?_, ?_, ?_, by rw [hev]; exact h.order, ?_⟩
        · have := h.conserve
          rw [hq] at this
          simp only [sumGot, List.map_append, List.sum_append, List.map_cons, List.sum_cons] at this ⊢
          omega
        · intro x hx
          apply h.tail0
          rw [hq]
          cases q1 with
          | nil =>
            have : x ∈ q2 := List.mem_of_mem_tail hx
            simpa using this
          | cons y q1 =>
            simp only [List.cons_append, List.tail_cons] at hx ⊢
            rcases List.mem_append.1 hx with hx | hx
            · exact List.mem_append_left _ hx
            · exact List.mem_append_right _ (List.mem_cons_of_mem _ hx)
        · rw [hev]; exact fun x hx p hp => h.qNotG x (hsub x hx) p hp
        · intro a ha; rw [hcl, hdr]; exact h.cLive a ha
        · rw [hev2]; intro p hp; rw [hcl, hdr]; exact h.cRet p hp
        · intro i hi; rw [hcl, hdr]; rw [hev] at hi; exact h.cNone i hi
        · rw [hev]; exact fun p hp hpos x hx => h.orderQ p hp hpos x (hsub x hx)
      have := inv_release _ _ _ h1
      rw [List.append_assoc] at this
      exact this
  | clone id =>
    simp only [Pool.step]
    split
    · rw [List.append_nil]; exact h
    · rename_i l1 a l2 hp
      obtain ⟨hl, ha⟩ := pick_some hp
      have ha : a.id = id := by simpa using ha
      split
      · rename_i hpt
        have hnd := h.liveNodup
        rw [hl, List.map_append, List.map_cons] at hnd
        have hne : ∀ x ∈ l1 ++ l2, x.id ≠ a.id := by
          intro x hx
          rw [List.nodup_append] at hnd
          obtain ⟨n1, n2, n3⟩ := hnd
          rcases List.mem_append.1 hx with hx | hx
          · exact n3 x.id (List.mem_map.2 ⟨x, hx, rfl⟩) a.id List.mem_cons_self
          · intro e
            exact (List.nodup_cons.1 n2).1 (List.mem_map.2 ⟨x, hx, e⟩)
        have hev : grantedEv (obs ++ [.cloned id]) = grantedEv obs := by
          rw [grantedEv_append]; simp [grantedEv]
        have hev2 : returnedEv (obs ++ [.cloned id]) = returnedEv obs := by
          rw [returnedEv_append]; simp [returnedEv]
        have hev3 : freedEv (obs ++ [.cloned id]) = freedEv obs := by
          rw [freedEv_append]; simp [freedEv]
        have hcl : ∀ i, i ≠ id → clones i (obs ++ [.cloned id]) = clones i obs := by
          intro i hi
          unfold clones
          rw [List.count_append, count_singleton_ne (by simpa using hi)]; rfl
        have hcl' : clones id (obs ++ [.cloned id]) = clones id obs + 1 := by
          simp [clones, List.count_append]
        have hdr : ∀ i, drops i (obs ++ [.cloned id]) = drops i obs := by
          intro i; simp [drops, List.count_append]
        have hmem : a ∈ s.live := by rw [hl]; simp
        refine ⟨?_, h.wait0, h.need, h.tail0, ?_, h.qFresh, by rw [hev]; exact h.gFresh,
          by rw [hev]; exact h.gNodup, h.qSorted, by rw [hev]; exact h.qNotG, ?_, ?_, ?_, ?_, ?_,
          by rw [hev]; exact h.order, by rw [hev]; exact h.orderQ⟩
        · have := h.conserve
          rw [hl] at this
          simp only [sumSize, List.map_append, List.map_cons] at this ⊢
          exact this
        · intro x hx
          rcases List.mem_append.1 hx with hx | hx
          · exact h.liveOk x (by rw [hl]; exact List.mem_append_left _ hx)
          · rcases List.mem_cons.1 hx with rfl | hx
            · have := h.liveOk a hmem
              simp only; omega
            · exact h.liveOk x (by rw [hl]; exact List.mem_append_right _ (List.mem_cons_of_mem _ hx))
        · rw [hev, hev2]
          have := h.gRet
          rw [hl] at this
          simpa using this
        · rw [hev, hev3]
          have := h.gFree
          rw [hl] at this
          simp only [List.filter_append, List.filter_cons, hpt, decide_true, if_true, Nat.succ_pos,
            List.map_append, List.map_cons] at this ⊢
          simpa using this
        · intro x hx
          rw [hdr]
          have hother : x ∈ l1 ++ l2 → x.permits + drops x.id obs = 1 + clones x.id (obs ++ [.cloned id]) := by
            intro hx'
            rw [hcl x.id (by rw [← ha]; exact hne x hx')]
            apply h.cLive
            rw [hl]
            rcases List.mem_append.1 hx' with hx | hx
            · exact List.mem_append_left _ hx
            · exact List.mem_append_right _ (List.mem_cons_of_mem _ hx)
          rcases List.mem_append.1 hx with hx | hx
          · exact hother (List.mem_append_left _ hx)
          · rcases List.mem_cons.1 hx with rfl | hx
            · have := h.cLive a hmem
              simp only
              rw [ha, hcl'] at *
              omega
            · exact hother (List.mem_append_right _ hx)
        · rw [hev2]
          intro p hp
          have hne' : p.1 ≠ id := by
            intro e
            have h1 := (h.gRet.map Prod.fst).nodup_iff.1 h.gNodup
            rw [List.map_append, List.nodup_append] at h1
            exact h1.2.2 p.1 (List.mem_map.2 ⟨p, hp, rfl⟩) a.id
              (by rw [List.map_map]; exact List.mem_map.2 ⟨a, hmem, rfl⟩) (by rw [e, ha])
          rw [hcl p.1 hne', hdr]; exact h.cRet p hp
        · rw [hev]
          intro i hi
          have hne' : i ≠ id := by
            rintro rfl
            exact hi _ (h.live_granted hmem) ha
          rw [hcl i hne', hdr]; exact h.cNone i hi
      · rw [List.append_nil]; exact h
  | dropPtr id =>
    simp only [Pool.step]
    split
    · rw [List.append_nil]; exact h
    · rename_i l1 a l2 hp
      obtain ⟨hl, ha⟩ := pick_some hp
      have ha : a.id = id := by simpa using ha
      split
      · rename_i hpt
        have hmem : a ∈ s.live := by rw [hl]; simp
        have hobs : ∀ o : List Obs, (o = [.freed id a.size] ∨ o = []) → grantedEv (obs ++ o) = grantedEv obs ∧
            returnedEv (obs ++ o) = returnedEv obs ∧ (∀ i, clones i (obs ++ o) = clones i obs) ∧
            (∀ i, drops i (obs ++ o) = drops i obs) := by
          rintro o (rfl | rfl)
          · refine ⟨by rw [grantedEv_append]; simp [grantedEv], by rw [returnedEv_append]; simp [returnedEv],
              fun i => by simp [clones, List.count_append], fun i => by simp [drops, List.count_append]⟩
          · simp
        obtain ⟨hev, hev2, hcl, hdr⟩ := hobs (if a.ptrs = 1 then [.freed id a.size] else [])
          (by by_cases e : a.ptrs = 1 <;> simp [e])
        refine ⟨?_, h.wait0, h.need, h.tail0, ?_, h.qFresh, by rw [hev]; exact h.gFresh,
          by rw [hev]; exact h.gNodup, h.qSorted, by rw [hev]; exact h.qNotG, ?_, ?_, ?_, ?_, ?_,
          by rw [hev]; exact h.order, by rw [hev]; exact h.orderQ⟩
        · have := h.conserve
          rw [hl] at this
          simp only [sumSize, List.map_append, List.map_cons] at this ⊢
          exact this
        · intro x hx
          rcases List.mem_append.1 hx with hx | hx
          · exact h.liveOk x (by rw [hl]; exact List.mem_append_left _ hx)
          · rcases List.mem_cons.1 hx with rfl | hx
            · have := h.liveOk a hmem
              simp only; omega
            · exact h.liveOk x (by rw [hl]; exact List.mem_append_right _ (List.mem_cons_of_mem _ hx))
        · rw [hev, hev2]
          have := h.gRet
          rw [hl] at this
          simpa using this
        · rw [hev]
          have := h.gFree
          rw [hl] at this
          simp only [List.filter_append, List.filter_cons, hpt, decide_true, if_true,
            List.map_append, List.map_cons] at this ⊢
          split
          · rename_i h1
            simp only [h1, Nat.sub_self, Nat.lt_irrefl, decide_false, Bool.false_eq_true, if_false]
            rw [freedEv_append]
            refine this.trans ?_
            have e : freedEv [Obs.freed id a.size] = [(a.id, a.size)] := by rw [ha]; rfl
            rw [e, List.append_assoc]
            refine List.Perm.append_left _ ?_
            rw [List.singleton_append]
            exact List.perm_middle
          · rename_i h1
            have : decide (0 < a.ptrs - 1) = true := by simp; omega
            simp only [this, if_true, List.append_nil, List.map_cons]
            assumption
        · intro x hx
          rw [hcl, hdr]
          rcases List.mem_append.1 hx with hx | hx
          · exact h.cLive x (by rw [hl]; exact List.mem_append_left _ hx)
          · rcases List.mem_cons.1 hx with rfl | hx
            · exact h.cLive a hmem
            · exact h.cLive x (by rw [hl]; exact List.mem_append_right _ (List.mem_cons_of_mem _ hx))
        · rw [hev2]; intro p hp; rw [hcl, hdr]; exact h.cRet p hp
        · rw [hev]; intro i hi; rw [hcl, hdr]; exact h.cNone i hi
      · rw [List.append_nil]; exact h
  | dropPermit id =>
    simp only [Pool.step]
    split
    · rw [List.append_nil]; exact h
    · rename_i l1 a l2 hp
      obtain ⟨hl, ha⟩ := pick_some hp
      have ha : a.id = id := by simpa using ha
      have hmem : a ∈ s.live := by rw [hl]; simp
      have hnd := h.liveNodup
      rw [hl, List.map_append, List.map_cons] at hnd
      have hne : ∀ x ∈ l1 ++ l2, x.id ≠ a.id := by
        intro x hx
        rw [List.nodup_append] at hnd
        obtain ⟨n1, n2, n3⟩ := hnd
        rcases List.mem_append.1 hx with hx | hx
        · exact n3 x.id (List.mem_map.2 ⟨x, hx, rfl⟩) a.id List.mem_cons_self
        · intro e
          exact (List.nodup_cons.1 n2).1 (List.mem_map.2 ⟨x, hx, e⟩)
      have hsub : ∀ x ∈ l1 ++ l2, x ∈ s.live := by
        intro x hx
        rw [hl]
        rcases List.mem_append.1 hx with hx | hx
        · exact List.mem_append_left _ hx
        · exact List.mem_append_right _ (List.mem_cons_of_mem _ hx)
      have hnret : ∀ p ∈ returnedEv obs, p.1 ≠ id := by
        intro p hp e
        have h1 := (h.gRet.map Prod.fst).nodup_iff.1 h.gNodup
        rw [List.map_append, List.nodup_append] at h1
        exact h1.2.2 p.1 (List.mem_map.2 ⟨p, hp, rfl⟩) a.id
          (by rw [List.map_map]; exact List.mem_map.2 ⟨a, hmem, rfl⟩) (by rw [e, ha])
      split
      · rename_i hlt
        split
        · rename_i h1
          have hp0 : a.ptrs = 0 := by omega
          have hev : grantedEv (obs ++ [.dropped id, .returned id a.size]) = grantedEv obs := by
            rw [grantedEv_append]; simp [grantedEv]
          have hev2 : returnedEv (obs ++ [.dropped id, .returned id a.size]) =
              returnedEv obs ++ [(id, a.size)] := by
            rw [returnedEv_append]; rfl
          have hev3 : freedEv (obs ++ [.dropped id, .returned id a.size]) = freedEv obs := by
            rw [freedEv_append]; simp [freedEv]
          have hcl : ∀ i, clones i (obs ++ [.dropped id, .returned id a.size]) = clones i obs := by
            intro i; simp [clones, List.count_append]
          have hdr : ∀ i, i ≠ id → drops i (obs ++ [.dropped id, .returned id a.size]) = drops i obs := by
            intro i hi
            unfold drops
            rw [List.count_append, show ([Obs.dropped id, .returned id a.size] : List Obs) =
              [.dropped id] ++ [.returned id a.size] from rfl, List.count_append,
              count_singleton_ne (by simpa using hi), count_singleton_ne (by simp)]
            rfl
          have hdr' : drops id (obs ++ [.dropped id, .returned id a.size]) = drops id obs + 1 := by
            simp [drops, List.count_append]
          have hinv : Inv { s with live := l1 ++ l2 } a.size (obs ++ [.dropped id, .returned id a.size]) := by
            refine ⟨?_, h.wait0, h.need, h.tail0, fun x hx => h.liveOk x (hsub x hx), h.qFresh,
              by rw [hev]; exact h.gFresh, by rw [hev]; exact h.gNodup, h.qSorted,
              by rw [hev]; exact h.qNotG, ?_, ?_, ?_, ?_, ?_,
              by rw [hev]; exact h.order, by rw [hev]; exact h.orderQ⟩
            · have := h.conserve
              rw [hl] at this
              simp only [sumSize, List.map_append, List.map_cons, List.sum_append, List.sum_cons] at this ⊢
              omega
            · rw [hev, hev2]
              have := h.gRet
              rw [hl] at this
              refine this.trans ?_
              rw [List.append_assoc]
              refine List.Perm.append_left _ ?_
              rw [List.map_append, List.map_cons, List.map_append, ha, List.singleton_append]
              exact List.perm_middle
            · rw [hev, hev3]
              have := h.gFree
              rw [hl] at this
              simp only [List.filter_append, List.filter_cons, hp0, Nat.lt_irrefl, decide_false,
                Bool.false_eq_true, if_false] at this ⊢
              exact this
            · intro x hx
              rw [hcl, hdr x.id (by rw [← ha]; exact hne x hx)]
              exact h.cLive x (hsub x hx)
            · rw [hev2]
              intro p hp
              rw [hcl]
              rcases List.mem_append.1 hp with hp | hp
              · rw [hdr p.1 (hnret p hp)]; exact h.cRet p hp
              · rw [List.mem_singleton.1 hp, hdr']
                have := h.cLive a hmem
                rw [ha, h1] at this
                simp only; omega
            · rw [hev]
              intro i hi
              have hne' : i ≠ id := by
                rintro rfl
                exact hi _ (h.live_granted hmem) ha
              rw [hcl, hdr i hne']; exact h.cNone i hi
          have := inv_release _ _ _ hinv
          rw [List.append_assoc] at this
          exact this
        · rename_i h1
          have hev : grantedEv (obs ++ [.dropped id]) = grantedEv obs := by
            rw [grantedEv_append]; simp [grantedEv]
          have hev2 : returnedEv (obs ++ [.dropped id]) = returnedEv obs := by
            rw [returnedEv_append]; simp [returnedEv]
          have hev3 : freedEv (obs ++ [.dropped id]) = freedEv obs := by
            rw [freedEv_append]; simp [freedEv]
          have hcl : ∀ i, clones i (obs ++ [.dropped id]) = clones i obs := by
            intro i; simp [clones, List.count_append]
          have hdr : ∀ i, i ≠ id → drops i (obs ++ [.dropped id]) = drops i obs := by
            intro i hi
            unfold drops
            rw [List.count_append, count_singleton_ne (by simpa using hi)]; rfl
          have hdr' : drops id (obs ++ [.dropped id]) = drops id obs + 1 := by
            simp [drops, List.count_append]
          refine ⟨?_, h.wait0, h.need, h.tail0, ?_, h.qFresh, by rw [hev]; exact h.gFresh,
            by rw [hev]; exact h.gNodup, h.qSorted, by rw [hev]; exact h.qNotG, ?_, ?_, ?_, ?_, ?_,
            by rw [hev]; exact h.order, by rw [hev]; exact h.orderQ⟩
          · have := h.conserve
            rw [hl] at this
            simp only [sumSize, List.map_append, List.map_cons] at this ⊢
            exact this
          · intro x hx
            rcases List.mem_append.1 hx with hx | hx
            · exact h.liveOk x (hsub x (List.mem_append_left _ hx))
            · rcases List.mem_cons.1 hx with rfl | hx
              · simp only; omega
              · exact h.liveOk x (hsub x (List.mem_append_right _ hx))
          · rw [hev, hev2]
            have := h.gRet
            rw [hl] at this
            simpa using this
          · rw [hev, hev3]
            have := h.gFree
            rw [hl] at this
            by_cases hpt : 0 < a.ptrs <;> simpa [List.filter_append, List.filter_cons, hpt] using this
          · intro x hx
            rw [hcl]
            rcases List.mem_append.1 hx with hx | hx
            · rw [hdr x.id (by rw [← ha]; exact hne x (List.mem_append_left _ hx))]
              exact h.cLive x (hsub x (List.mem_append_left _ hx))
            · rcases List.mem_cons.1 hx with rfl | hx
              · have := h.cLive a hmem
                simp only
                rw [ha, hdr'] at *
                omega
              · rw [hdr x.id (by rw [← ha]; exact hne x (List.mem_append_right _ hx))]
                exact h.cLive x (hsub x (List.mem_append_right _ hx))
          · rw [hev2]; intro p hp; rw [hcl, hdr p.1 (hnret p hp)]; exact h.cRet p hp
          · rw [hev]
            intro i hi
            have hne' : i ≠ id := by
              rintro rfl
              exact hi _ (h.live_granted hmem) ha
            rw [hcl, hdr i hne']; exact h.cNone i hi
      · rw [List.append_nil]; exact h

theorem inv_run (ls : List Label) (s : Pool) (obs : List Obs) (h : Inv s 0 obs) :
    Inv (s.run ls).1 0 (obs ++ (s.run ls).2) := by
  induction ls generalizing s obs with
  | nil => simpa [Pool.run] using h
  | cons l ls ih =>
    have := ih _ _ (inv_step s obs h l)
    simpa [Pool.run, List.append_assoc] using this

theorem cap_step (s : Pool) (l : Label) : (s.step l).1.cap = s.cap := by
  cases l <;> simp only [Pool.step] <;> repeat' split
  all_goals rfl

theorem cap_run (s : Pool) (ls : List Label) : (s.run ls).1.cap = s.cap := by
  induction ls generalizing s with
  | nil => rfl
  | cons l ls ih => simp only [Pool.run]; rw [ih, cap_step]

end Verif.Pool

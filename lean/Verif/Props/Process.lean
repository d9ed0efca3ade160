import Verif.Model.Process
import Mathlib.Data.List.Perm.Subperm

/-!
# C84: connections do not stop a process
-/

namespace Verif.Props.Process

open Verif.Process

/-- How much time passes. -/
def ticks : List Label → Nat
  | [] => 0
  | .tick :: ls => ticks ls + 1
  | _ :: ls => ticks ls

/-- How many peers connect. -/
def arrivals : List Label → Nat
  | [] => 0
  | .arrive _ :: ls => arrivals ls + 1
  | _ :: ls => arrivals ls

theorem ticks_append (a b : List Label) : ticks (a ++ b) = ticks a + ticks b := by
  induction a with
  | nil => simp [ticks]
  | cons l a ih => cases l <;> (simp only [List.cons_append, ticks, ih]; try omega)

theorem arrivals_append (a b : List Label) : arrivals (a ++ b) = arrivals a + arrivals b := by
  induction a with
  | nil => simp [arrivals]
  | cons l a ih => cases l <;> (simp only [List.cons_append, arrivals, ih]; try omega)

/-! ## The longest a connection can go without being authenticated -/

/-- Five seconds for the handshake, five for authentication. -/
def window (c : Cfg) : Nat := c.finD + c.late + (c.authD + c.late)

/-- And the time to close, at a marshal. -/
def windowM (c : Cfg) : Nat := window c + (c.closeD + c.late)

structure Aged (c : Cfg) (now : Nat) (t : Task) : Prop where
  past : t.since ≤ now
  fin : ∀ d, t.phase = .fin d → d = t.since + c.finD ∧ now ≤ d + c.late
  auth : ∀ d, t.phase = .auth d → d ≤ t.since + c.finD + c.late + c.authD ∧ now ≤ d + c.late
  closing : ∀ d, t.phase = .closing d → d ≤ t.since + window c + c.closeD ∧ now ≤ d + c.late

theorem Aged.reg {c : Cfg} {now id since k : Nat} (h : since ≤ now) : Aged c now ⟨id, since, .reg k⟩ :=
  ⟨h, fun _ e => (by cases e), fun _ e => (by cases e), fun _ e => (by cases e)⟩

theorem aged_step {c : Cfg} {s s' : St} {l : Label} (hs : Step c s l s') (h : ∀ t ∈ s.tasks, Aged c s.now t) :
    ∀ t ∈ s'.tasks, Aged c s'.now t := by
  cases hs with
  | tick hd =>
    intro t ht
    obtain ⟨h1, h2, h3, h4⟩ := h t ht
    have hd := hd t ht
    refine ⟨Nat.le_succ_of_le h1, fun d e => ⟨(h2 d e).1, ?_⟩, fun d e => ⟨(h3 d e).1, ?_⟩, fun d e => ⟨(h4 d e).1, ?_⟩⟩
    all_goals
      have := hd d (by rw [e]; rfl)
      show s.now + 1 ≤ _
      omega
  | accept id hu hf hl =>
    intro t ht
    rcases List.mem_cons.1 ht with rfl | ht
    · refine ⟨Nat.le_refl _, fun d e => ?_, fun d e => (by cases e), fun d e => (by cases e)⟩
      cases e
      exact ⟨rfl, by show s.now ≤ _; omega⟩
    · exact h t ht
  | refuse id hu hl => exact h
  | osError hu => exact h
  | finalized id since d p q e =>
    intro t ht
    have hold := h ⟨id, since, .fin d⟩ (by rw [e]; simp)
    rcases List.mem_append.1 ht with ht | ht
    · exact h t (by rw [e]; simp [ht])
    rcases List.mem_cons.1 ht with rfl | ht
    · obtain ⟨e1, e2⟩ := hold.fin d rfl
      refine ⟨hold.past, fun d e => (by cases e), fun d' e' => ?_, fun d e => (by cases e)⟩
      cases e'
      simp only at e1
      exact ⟨by show s.now + c.authD ≤ since + c.finD + c.late + c.authD; omega, by show s.now ≤ _; omega⟩
    · exact h t (by rw [e]; simp [ht])
  | registered id key since d p q e =>
    intro t ht
    have hold := h ⟨id, since, .auth d⟩ (by rw [e]; simp)
    rcases List.mem_append.1 ht with ht | ht
    · exact h t (by rw [e]; have := (List.mem_filter.1 ht).1; simp [this])
    rcases List.mem_cons.1 ht with rfl | ht
    · exact Aged.reg hold.past
    · exact h t (by rw [e]; have := (List.mem_filter.1 ht).1; simp [this])
  | answered id since d p q e =>
    intro t ht
    have hold := h ⟨id, since, .auth d⟩ (by rw [e]; simp)
    rcases List.mem_append.1 ht with ht | ht
    · exact h t (by rw [e]; simp [ht])
    rcases List.mem_cons.1 ht with rfl | ht
    · obtain ⟨e1, e2⟩ := hold.auth d rfl
      refine ⟨hold.past, fun d e => (by cases e), fun d e => (by cases e), fun d' e' => ?_⟩
      cases e'
      simp only at e1
      exact ⟨by show s.now + c.closeD ≤ since + window c + c.closeD; unfold window; omega, by show s.now ≤ _; omega⟩
    · exact h t (by rw [e]; simp [ht])
  | ended t0 p q e =>
    intro t ht
    refine h t ?_
    rw [e]
    rcases List.mem_append.1 ht with ht | ht <;> simp [ht]

theorem aged_run {c : Cfg} {ls : List Label} {s : St} (hr : Run c init ls s) : ∀ t ∈ s.tasks, Aged c s.now t := by
  induction hr with
  | nil => intro t ht; simp [init] at ht
  | snoc hr hs ih => exact aged_step hs ih

/-- Nothing closes if no marshal answers. -/
theorem no_closing {c : Cfg} {ls : List Label} {s : St} (hr : Run c init ls s) (hn : ∀ id, Label.answered id ∉ ls) :
    ∀ t ∈ s.tasks, ∀ d, t.phase ≠ .closing d := by
  induction hr with
  | nil => intro t ht; simp [init] at ht
  | snoc hr hs ih =>
    have ih := ih (fun id hm => hn id (by simp [hm]))
    cases hs with
    | tick hd => exact ih
    | accept id hu hf hl =>
      intro t ht
      rcases List.mem_cons.1 ht with rfl | ht
      · intro d e; cases e
      · exact ih t ht
    | refuse id hu hl => exact ih
    | osError hu => exact ih
    | finalized id since d p q e =>
      intro t ht
      rcases List.mem_append.1 ht with ht | ht
      · exact ih t (by rw [e]; simp [ht])
      rcases List.mem_cons.1 ht with rfl | ht
      · intro d e; cases e
      · exact ih t (by rw [e]; simp [ht])
    | registered id key since d p q e =>
      intro t ht
      rcases List.mem_append.1 ht with ht | ht
      · exact ih t (by rw [e]; have := (List.mem_filter.1 ht).1; simp [this])
      rcases List.mem_cons.1 ht with rfl | ht
      · intro d e; cases e
      · exact ih t (by rw [e]; have := (List.mem_filter.1 ht).1; simp [this])
    | answered id since d p q e => exact absurd (by simp) (hn id)
    | ended t0 p q e =>
      intro t ht
      refine ih t ?_
      rw [e]
      rcases List.mem_append.1 ht with ht | ht <;> simp [ht]

/-- **C84 (part): nobody stays unauthenticated.** A connection that is not registered has been accepted at most ten seconds
(twice the timeout, and how late the runtime is) ago; at a marshal, plus the time to close. -/
theorem C84_unauthenticated_leave (c : Cfg) (ls : List Label) (s : St) (hr : Run c init ls s) (W : Nat) (hW : window c ≤ W)
    (hM : ∀ id, Label.answered id ∈ ls → windowM c ≤ W) (t : Task) (ht : t ∈ s.tasks) (hk : ∀ k, t.phase ≠ .reg k) :
    s.now ≤ t.since + W := by
  obtain ⟨h1, h2, h3, h4⟩ := aged_run hr t ht
  rcases t with ⟨id, since, ph⟩
  unfold window at hW
  cases ph with
  | fin d => obtain ⟨e1, e2⟩ := h2 d rfl; simp only at e1 ⊢; omega
  | auth d => obtain ⟨e1, e2⟩ := h3 d rfl; simp only at e1 ⊢; omega
  | closing d =>
    obtain ⟨e1, e2⟩ := h4 d rfl
    by_cases hn : ∀ id, Label.answered id ∉ ls
    · exact absurd rfl (no_closing hr hn _ ht d)
    · obtain ⟨i, hi⟩ := Classical.not_forall.1 hn
      have := hM i (Classical.not_not.1 hi)
      unfold windowM at this
      simp only at e1 ⊢; omega
  | reg k => exact absurd rfl (hk k)

/-! ## Counting -/

theorem append_nil_run {c : Cfg} {s s' : St} {ls : List Label} (h : Run c s ls s') :
    ls = [] ∧ s' = s ∨ ∃ ls' l s1, ls = ls' ++ [l] ∧ Run c s ls' s1 ∧ Step c s1 l s' := by
  cases h with
  | nil => exact .inl ⟨rfl, rfl⟩
  | snoc h1 h2 => exact .inr ⟨_, _, _, rfl, h1, h2⟩

/-- The connections accepted at `T` or later. -/
def recent (T : Nat) (ts : List Task) : Nat := ts.countP (fun t => decide (T ≤ t.since))

theorem recent_step {c : Cfg} {s s' : St} {l : Label} (T : Nat) (hs : Step c s l s') :
    recent T s'.tasks ≤ recent T s.tasks + arrivals [l] := by
  cases hs with
  | tick hd => simp [arrivals]
  | accept id hu hf hl =>
    simp only [recent, List.countP_cons, arrivals]
    split <;> omega
  | refuse id hu hl => simp [arrivals]
  | osError hu => simp [arrivals]
  | finalized id since d p q e => simp [recent, e, arrivals, List.countP_cons]
  | answered id since d p q e => simp [recent, e, arrivals, List.countP_cons]
  | registered id key since d p q e =>
    have e1 : (p.filter (fun t => t.phase.key != some key)).countP (fun t => decide (T ≤ t.since)) ≤
        p.countP (fun t => decide (T ≤ t.since)) := List.filter_sublist.countP_le
    have e2 : (q.filter (fun t => t.phase.key != some key)).countP (fun t => decide (T ≤ t.since)) ≤
        q.countP (fun t => decide (T ≤ t.since)) := List.filter_sublist.countP_le
    simp only [recent, e, arrivals, List.countP_cons, List.countP_append]
    omega
  | ended t0 p q e =>
    simp only [recent, e, arrivals, List.countP_cons, List.countP_append]
    omega

theorem now_step {c : Cfg} {s s' : St} {l : Label} (hs : Step c s l s') : s'.now = s.now + ticks [l] := by
  cases hs <;> simp [ticks]

theorem now_run {c : Cfg} {s s' : St} {ls : List Label} (hr : Run c s ls s') : s'.now = s.now + ticks ls := by
  induction hr with
  | nil => simp [ticks]
  | snoc hr hs ih => rw [now_step hs, ih, ticks_append]; omega

/-- The last `W` seconds of a run: those connections accepted in them are at most as many as the arrivals in them. -/
theorem recent_run {c : Cfg} {ls : List Label} {s : St} (hr : Run c init ls s) (T : Nat) :
    ∃ a b, ls = a ++ b ∧ ticks b + T ≤ max s.now T ∧ recent T s.tasks ≤ arrivals b := by
  induction hr with
  | nil => exact ⟨[], [], rfl, by simp [ticks]; omega, by simp [recent, init]⟩
  | snoc hr hs ih =>
    rename_i s' s'' ls l
    obtain ⟨a, b, e, h1, h2⟩ := ih
    have hst := recent_step T hs
    by_cases hT : T ≤ s'.now
    · refine ⟨a, b ++ [l], by rw [e, List.append_assoc], ?_, by rw [arrivals_append]; omega⟩
      rw [ticks_append, now_step hs]
      omega
    · -- nothing is recent yet
      have h3 : recent T s'.tasks = 0 := by
        simp only [recent, List.countP_eq_zero, decide_eq_true_eq]
        intro t ht
        have := (aged_run hr t ht).past
        omega
      have h4 := now_step hs
      cases l with
      | tick => exact ⟨ls ++ [.tick], [], by simp, by simp only [ticks]; omega, by simp only [arrivals] at hst ⊢; omega⟩
      | _ => exact ⟨ls, [_], rfl, by simp only [ticks]; omega, by omega⟩

/-! ## Registered connections -/

/-- The keys in the table. -/
def keys (ts : List Task) : List Nat := ts.filterMap (fun t => t.phase.key)

theorem keys_append (a b : List Task) : keys (a ++ b) = keys a ++ keys b := List.filterMap_append

theorem keys_filter (key : Nat) (ts : List Task) :
    keys (ts.filter (fun t => t.phase.key != some key)) = (keys ts).filter (fun k => k != key) := by
  induction ts with
  | nil => rfl
  | cons t ts ih =>
    rcases t with ⟨id, since, ph⟩
    cases ph with
    | reg k =>
      by_cases e : k = key
      · subst e
        simpa [keys, List.filter_cons, Phase.key] using ih
      · simp only [keys, List.filter_cons, Phase.key] at ih ⊢
        simp [e, ih]
    | fin d => simpa [keys, List.filter_cons, Phase.key] using ih
    | auth d => simpa [keys, List.filter_cons, Phase.key] using ih
    | closing d => simpa [keys, List.filter_cons, Phase.key] using ih

theorem keys_step {c : Cfg} {s s' : St} {l : Label} (K : List Nat) (hK : ∀ id k, l = .registered id k → k ∈ K)
    (hs : Step c s l s') (h : (keys s.tasks).Nodup ∧ ∀ k ∈ keys s.tasks, k ∈ K) :
    (keys s'.tasks).Nodup ∧ ∀ k ∈ keys s'.tasks, k ∈ K := by
  cases hs with
  | tick hd => exact h
  | accept id hu hf hl => exact h
  | refuse id hu hl => exact h
  | osError hu => exact h
  | finalized id since d p q e =>
    rw [e, keys_append] at h
    simp only [keys_append]
    exact h
  | answered id since d p q e =>
    rw [e, keys_append] at h
    simp only [keys_append]
    exact h
  | registered id key since d p q e =>
    have hk : keys s.tasks = keys p ++ keys q := by rw [e, keys_append]; rfl
    have hk' : keys (p.filter (fun t => t.phase.key != some key) ++ ⟨id, since, .reg key⟩ ::
        q.filter (fun t => t.phase.key != some key)) =
        (keys p).filter (fun k => k != key) ++ key :: (keys q).filter (fun k => k != key) := by
      rw [keys_append, keys_filter]
      show _ ++ key :: keys (q.filter _) = _
      rw [keys_filter]
    rw [hk] at h
    obtain ⟨h1, h2⟩ := h
    rw [List.nodup_append] at h1
    obtain ⟨n1, n2, n3⟩ := h1
    constructor
    · rw [hk', List.nodup_append]
      refine ⟨n1.filter _, List.nodup_cons.2 ⟨by simp, n2.filter _⟩, ?_⟩
      intro a ha b hb
      rcases List.mem_cons.1 hb with rfl | hb
      · intro e'; subst e'; simp at ha
      · exact n3 a (List.mem_filter.1 ha).1 b (List.mem_filter.1 hb).1
    · rw [hk']
      intro k hk
      rcases List.mem_append.1 hk with hk | hk
      · exact h2 k (List.mem_append_left _ (List.mem_filter.1 hk).1)
      rcases List.mem_cons.1 hk with rfl | hk
      · exact hK id k rfl
      · exact h2 k (List.mem_append_right _ (List.mem_filter.1 hk).1)
  | ended t0 p q e =>
    have hsub : (keys (p ++ q)).Sublist (keys s.tasks) := by
      rw [e]
      exact List.Sublist.filterMap _ (List.Sublist.append_left (List.sublist_cons_self _ _) _)
    exact ⟨h.1.sublist hsub, fun k hk => h.2 k (hsub.subset hk)⟩

theorem keys_run {c : Cfg} {ls : List Label} {s : St} (K : List Nat) (hr : Run c init ls s)
    (hK : ∀ id k, Label.registered id k ∈ ls → k ∈ K) : (keys s.tasks).length ≤ K.length := by
  have key : (keys s.tasks).Nodup ∧ ∀ k ∈ keys s.tasks, k ∈ K := by
      induction hr with
    | nil => simp [init, keys]
    | snoc hr hs ih =>
      exact keys_step K (fun id k e => hK id k (by simp [e])) hs (ih (fun id k hm => hK id k (by simp [hm])))
  exact (List.subperm_of_subset key.1 key.2).length_le

theorem keys_cons (t : Task) (ts : List Task) : (keys (t :: ts)).length = (if t.phase.key.isSome then 1 else 0) + (keys ts).length := by
  simp only [keys, List.filterMap_cons]
  cases t.phase.key <;> simp; omega

theorem length_le {T : Nat} {ts : List Task} (h : ∀ t ∈ ts, (∀ k, t.phase ≠ .reg k) → T ≤ t.since) :
    ts.length ≤ recent T ts + (keys ts).length := by
  induction ts with
  | nil => simp
  | cons t ts ih =>
    have ih := ih (fun t ht => h t (by simp [ht]))
    have ht := h t (by simp)
    rw [keys_cons]
    rcases t with ⟨id, since, ph⟩
    simp only [recent, List.countP_cons, List.length_cons] at ih ht ⊢
    cases ph with
    | reg k => rw [if_pos (show (Phase.reg k).key.isSome = true from rfl)]; omega
    | fin d => rw [if_pos (by simpa using ht (by simp))]; omega
    | auth d => rw [if_pos (by simpa using ht (by simp))]; omega
    | closing d => rw [if_pos (by simpa using ht (by simp))]; omega

/-- **C84 (part): it keeps running.** Let `K` be the keys that can authenticate (whitelisted users, brokers), and let at most
`n` peers connect within any `W` seconds, where `W` is ten seconds (and how late the runtime is; at a marshal, plus the time to
close). If there are descriptors for `n` and for all of `K`, and `accept` fails only for want of descriptors, then `start` does
not return, whatever happens on the connections. -/
theorem C84_keeps_running_partial (c : Cfg) (K : List Nat) (n W : Nat) (hF : n + K.length ≤ c.limit) (ls : List Label) (s : St)
    (hr : Run c init ls s) (hW : window c ≤ W) (hM : ∀ id, Label.answered id ∈ ls → windowM c ≤ W)
    (hK : ∀ id k, Label.registered id k ∈ ls → k ∈ K) (hos : Label.osError ∉ ls)
    (hn : ∀ a b d, ls = a ++ b ++ d → ticks b ≤ W → arrivals b ≤ n) : s.up = true := by
  induction hr with
  | nil => rfl
  | snoc hr hs ih =>
    rename_i s' s'' ls l
    have hM' : ∀ id, Label.answered id ∈ ls → windowM c ≤ W := fun id hm => hM id (by simp [hm])
    have hK' : ∀ id k, Label.registered id k ∈ ls → k ∈ K := fun id k hm => hK id k (by simp [hm])
    have hu := ih hM' hK' (fun hm => hos (by simp [hm]))
      (fun a b d e hb => hn a b (d ++ [l]) (by rw [e]; simp) hb)
    cases hs with
    | tick hd => exact hu
    | accept id _ hf hl => exact hu
    | refuse id _ hl =>
      exfalso
      obtain ⟨a, b, e, h1, h2⟩ := recent_run hr (s'.now - W)
      have harr := hn a (b ++ [.arrive id]) [] (by rw [e]; simp) (by
        rw [ticks_append]
        simp only [ticks]
        omega)
      rw [arrivals_append] at harr
      simp only [arrivals] at harr
      have hlen := length_le (T := s'.now - W) (ts := s'.tasks) (fun t ht hk => by
        have := C84_unauthenticated_leave c ls s' hr W hW hM' t ht hk
        omega)
      have hkeys := keys_run K hr hK'
      omega
    | osError _ => exact absurd (by simp) hos
    | finalized id since d p q e => exact hu
    | registered id key since d p q e => exact hu
    | answered id since d p q e => exact hu
    | ended t0 p q e => exact hu

/-! ## It is false without such a bound -/

theorem run_arrivals (c : Cfg) : ∀ m, m ≤ c.limit →
    ∃ s, Run c init ((List.range m).map .arrive) s ∧ s.up = true ∧ s.tasks.length = m ∧ ∀ t ∈ s.tasks, t.id < m := by
  intro m
  induction m with
  | zero => exact fun _ => ⟨init, .nil _, rfl, rfl, by simp [init]⟩
  | succ m ih =>
    intro hm
    obtain ⟨s, hr, hu, hl, hid⟩ := ih (by omega)
    refine ⟨{ s with tasks := ⟨m, s.now, .fin (s.now + c.finD)⟩ :: s.tasks }, ?_, hu, by simp [hl], ?_⟩
    · rw [List.range_succ, List.map_append]
      exact .snoc hr (.accept s m hu (fun t ht => by have := hid t ht; omega) (by omega))
    · intro t ht
      rcases List.mem_cons.1 ht with rfl | ht
      · exact Nat.lt_succ_self _
      · have := hid t ht; omega

theorem down_step {c : Cfg} {s s' : St} {l : Label} (hs : Step c s l s') (h : s.up = false) : s'.up = false := by
  cases hs <;> first | exact h | rfl

theorem down_run {c : Cfg} {ls : List Label} {s s' : St} (hr : Run c s ls s') (h : s.up = false) : s'.up = false := by
  induction hr with
  | nil => exact h
  | snoc hr hs ih => exact down_step hs ih

theorem down_accepts {c : Cfg} {ls : List Label} {s s' : St} (hr : Run c s ls s') (h : s.up = false) :
    ∀ id, Label.arrive id ∉ ls := by
  induction hr with
  | nil => simp
  | snoc hr hs ih =>
    intro id hm
    rcases List.mem_append.1 hm with hm | hm
    · exact ih id hm
    · have hd := down_run hr h
      rw [← List.mem_singleton.1 hm] at hs
      cases hs with
      | accept _ hu _ _ => rw [hd] at hu; cases hu
      | refuse _ hu _ => rw [hd] at hu; cases hu

/-- **C84 is false.** For every number of descriptors: that many peers connect and do nothing at all (nobody authenticates, no
time passes), and one more connects. `accept` fails, `start` returns, and nobody is ever accepted again. -/
theorem C84_false (c : Cfg) : ∃ s, Run c init ((List.range (c.limit + 1)).map .arrive) s ∧ s.up = false ∧
    ∀ ls s', Run c s ls s' → s'.up = false ∧ ∀ id, Label.arrive id ∉ ls := by
  obtain ⟨s, hr, hu, hl, _⟩ := run_arrivals c c.limit (Nat.le_refl _)
  refine ⟨{ s with up := false }, ?_, rfl, fun ls s' h => ⟨down_run h rfl, down_accepts h rfl⟩⟩
  rw [List.range_succ, List.map_append]
  exact .snoc hr (.refuse s _ hu (by omega))

/-- **C84 is false (one error).** A single failed `accept` is enough, whatever the state. -/
theorem C84_false_one_error (c : Cfg) (s : St) (hu : s.up = true) :
    ∃ s', Step c s .osError s' ∧ ∀ ls s'', Run c s' ls s'' → s''.up = false ∧ ∀ id, Label.arrive id ∉ ls :=
  ⟨_, .osError s hu, fun _ _ h => ⟨down_run h rfl, down_accepts h rfl⟩⟩

/-! ## Cases -/

/-- Three descriptors, five seconds each. -/
def small : Cfg := ⟨3, 5, 5, 0, 1⟩

/-- User 7 connects and authenticates, and connects again two seconds later; twelve seconds later a peer connects who never
says anything and is dropped. -/
def quiet : List Label :=
  [.arrive 0, .finalized 0, .registered 0 7, .tick, .tick, .arrive 1, .finalized 1, .registered 1 7] ++
    List.replicate 12 .tick ++ [.arrive 2] ++ List.replicate 5 .tick ++ [.ended 2]

theorem run_ticks {c : Cfg} {s0 s : St} {ls : List Label} (hr : Run c s0 ls s) (k m : Nat)
    (hm : ∀ t ∈ s.tasks, ∀ d, t.phase.deadline = some d → m ≤ d + c.late) (hk : s.now + k ≤ m) :
    Run c s0 (ls ++ List.replicate k .tick) { s with now := s.now + k } := by
  induction k with
  | zero => simpa using hr
  | succ k ih =>
    rw [List.replicate_succ', ← List.append_assoc]
    exact .snoc (ih (by omega)) (.tick { s with now := s.now + k } (fun t ht d hd => by
      have := hm t ht d hd
      show s.now + k < d + c.late
      omega))

theorem run_quiet : Run small init quiet ⟨19, true, [⟨1, 2, .reg 7⟩]⟩ := by
  have h1 : Run small init [.arrive 0] ⟨0, true, [⟨0, 0, .fin 5⟩]⟩ :=
    .snoc (.nil _) (.accept init 0 rfl (by simp [init]) (by simp [init, small]))
  have h2 : Run small init [.arrive 0, .finalized 0] ⟨0, true, [⟨0, 0, .auth 5⟩]⟩ :=
    .snoc h1 (.finalized _ 0 0 5 [] [] rfl)
  have h3 : Run small init [.arrive 0, .finalized 0, .registered 0 7] ⟨0, true, [⟨0, 0, .reg 7⟩]⟩ :=
    .snoc h2 (.registered _ 0 7 0 5 [] [] rfl)
  have h4 := run_ticks h3 2 2 (fun t ht d hd => by
    rw [List.mem_singleton.1 ht] at hd; cases hd) (by simp)
  have h5 := Run.snoc h4 (.accept _ 1 rfl (by simp) (by simp [small]))
  have h6 := Run.snoc h5 (.finalized _ 1 2 7 [] [⟨0, 0, .reg 7⟩] rfl)
  have h7 := Run.snoc h6 (.registered _ 1 7 2 7 [] [⟨0, 0, .reg 7⟩] rfl)
  have h8 := run_ticks h7 12 100 (fun t ht d hd => by
    simp [Phase.key] at ht
    rw [ht] at hd; cases hd) (by simp)
  have h9 := Run.snoc h8 (.accept _ 2 rfl (by simp [Phase.key]) (by simp [small, Phase.key]))
  have h10 := run_ticks h9 5 20 (fun t ht d hd => by
    simp [Phase.key] at ht
    rcases ht with rfl | rfl
    · cases hd; simp [small]
    · cases hd) (by simp)
  exact Run.snoc h10 (.ended _ ⟨2, 14, .fin 19⟩ [] [⟨1, 2, .reg 7⟩] rfl)

/-- Two peers within any twelve seconds, one key, three descriptors. -/
example : (⟨19, true, [⟨1, 2, .reg 7⟩]⟩ : St).up = true := by
  refine C84_keeps_running_partial small [7] 2 12 (by decide) quiet _ run_quiet (by decide) ?_ ?_ ?_ ?_
  · intro id h; simp [quiet] at h
  · intro id k h; simp [quiet] at h; simp; omega
  · simp [quiet]
  · intro a b d e hb
    have hlen : a.length + b.length + d.length = 27 := by
      have := congrArg List.length e
      simp [quiet] at this; omega
    have hsub : b = (quiet.drop a.length).take b.length := by rw [e]; simp
    have key : ∀ i < 28, ∀ j < 28, ticks ((quiet.drop i).take j) ≤ 12 → arrivals ((quiet.drop i).take j) ≤ 2 := by decide +kernel
    have := key a.length (by omega) b.length (by omega)
    rw [← hsub] at this
    exact this hb

/-- Four peers at once. -/
example : ∃ s, Run small init [.arrive 0, .arrive 1, .arrive 2, .arrive 3] s ∧ s.up = false := by
  obtain ⟨s, h1, h2, _⟩ := C84_false small
  exact ⟨s, h1, h2⟩

/-! ## Time can always go on -/

theorem run_append {c : Cfg} {s s' s'' : St} {ls ls' : List Label} (h : Run c s ls s') (h' : Run c s' ls' s'') :
    Run c s (ls ++ ls') s'' := by
  induction h' with
  | nil => simpa using h
  | snoc _ hs ih => rw [← List.append_assoc]; exact .snoc ih hs

theorem end_all (c : Cfg) : ∀ (q p : List Task) (s : St), s.tasks = p ++ q → (∀ t ∈ p, ∃ k, t.phase = .reg k) →
    ∃ ls s', Run c s ls s' ∧ s'.now = s.now ∧ s'.up = s.up ∧ (∀ l ∈ ls, ∃ id, l = .ended id) ∧
      (∀ t ∈ s'.tasks, ∃ k, t.phase = .reg k) ∧ ∀ t ∈ s.tasks, (∃ k, t.phase = .reg k) → t ∈ s'.tasks := by
  intro q
  induction q with
  | nil =>
    intro p s h hp
    exact ⟨[], s, .nil s, rfl, rfl, by simp, by simpa [h] using hp, fun t ht _ => ht⟩
  | cons t q ih =>
    intro p s h hp
    by_cases ht : ∃ k, t.phase = .reg k
    · exact ih (p ++ [t]) s (by simp [h]) (by
        intro x hx
        rcases List.mem_append.1 hx with hx | hx
        · exact hp x hx
        · simp at hx; exact hx ▸ ht)
    · obtain ⟨ls, s', r, h1, h2, h3, h4, h5⟩ := ih p { s with tasks := p ++ q } rfl hp
      refine ⟨[.ended t.id] ++ ls, s', run_append (.snoc (.nil s) (.ended s t p q h)) r, h1, h2, ?_, h4, ?_⟩
      · intro l hl
        rcases List.mem_append.1 hl with hl | hl
        · simp at hl; exact ⟨_, hl⟩
        · exact h3 l hl
      · intro x hx hk
        rw [h] at hx
        refine h5 x ?_ hk
        rcases List.mem_append.1 hx with hx | hx
        · exact List.mem_append_left _ hx
        · rcases List.mem_cons.1 hx with rfl | hx
          · exact absurd hk ht
          · exact List.mem_append_right _ hx

/-- **C84**, it is not an empty promise: from every state time can go on for as long as one likes, with nobody new, no error of the
operating system, and the registered connections as they are. -/
theorem C84_goes_on (c : Cfg) (s : St) (n : Nat) : ∃ ls s', Run c s ls s' ∧ s'.now = s.now + n ∧ s'.up = s.up ∧
    (∀ id, Label.arrive id ∉ ls) ∧ Label.osError ∉ ls ∧ ∀ t ∈ s.tasks, (∃ k, t.phase = .reg k) → t ∈ s'.tasks := by
  obtain ⟨ls, s1, r, h1, h2, h3, h4, h5⟩ := end_all c s.tasks [] s rfl (by simp)
  have tk : ∀ n, Run c s1 (List.replicate n .tick) { s1 with now := s1.now + n } := by
    intro n
    induction n with
    | zero => exact .nil s1
    | succ n ih =>
      rw [List.replicate_succ']
      refine .snoc ih (.tick _ fun t ht d hd => ?_)
      obtain ⟨k, hk⟩ := h4 t ht
      rw [hk] at hd; cases hd
  refine ⟨_, _, run_append r (tk n), by rw [h1], h2, fun id hm => ?_, fun hm => ?_, h5⟩
  · rcases List.mem_append.1 hm with hm | hm
    · obtain ⟨_, e⟩ := h3 _ hm; cases e
    · cases (List.mem_replicate.1 hm).2
  · rcases List.mem_append.1 hm with hm | hm
    · obtain ⟨_, e⟩ := h3 _ hm; cases e
    · cases (List.mem_replicate.1 hm).2
end Verif.Props.Process

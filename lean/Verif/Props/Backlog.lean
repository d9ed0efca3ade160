import Verif.Model.Backlog
import Verif.Lemmas.Pool

/-!
# Property C82: a user who stops reading does not stop the others
-/

namespace Verif.Props.Backlog
open Verif Verif.Backlog
open Verif.Pool (Waiter assign sumGot sumNeed assign_shape assign_conserve)

/-! ## Invariant -/

structure Inv (s : St) : Prop where
  conserve : s.avail + sumGot s.queue + bytes s.live = s.cap
  wait0 : s.queue ≠ [] → s.avail = 0
  need : ∀ w ∈ s.queue, w.got < w.need
  tail0 : ∀ w ∈ s.queue.tail, w.got = 0
  liveFresh : ∀ p ∈ s.live, p.1 < s.next
  queueFresh : ∀ w ∈ s.queue, w.id < s.next
  waits : ∀ c k m, s.conn c = some k → k.phase = .waiting m →
    m ∈ s.live.map Prod.fst ∨ m ∈ s.queue.map Waiter.id

theorem bytes_append (a b : List (Nat × Nat)) : bytes (a ++ b) = bytes a + bytes b := by
  simp [bytes]

theorem bytes_cons (p : Nat × Nat) (b : List (Nat × Nat)) : bytes (p :: b) = p.2 + bytes b := by
  simp [bytes]

theorem sumGot_append (a b : List Waiter) : sumGot (a ++ b) = sumGot a + sumGot b := by
  simp [sumGot]

theorem inv_release (s : St) (k : Nat) (hc : s.avail + sumGot s.queue + bytes s.live + k = s.cap)
    (hw0 : s.queue ≠ [] → s.avail = 0) (hn : ∀ w ∈ s.queue, w.got < w.need)
    (ht : ∀ w ∈ s.queue.tail, w.got = 0) (hl : ∀ p ∈ s.live, p.1 < s.next) (hq : ∀ w ∈ s.queue, w.id < s.next)
    (hw : ∀ c k m, s.conn c = some k → k.phase = .waiting m →
      m ∈ s.live.map Prod.fst ∨ m ∈ s.queue.map Waiter.id) : Inv (s.release k) := by
  obtain ⟨rest, h1, h2⟩ := assign_shape k s.queue
  have hcon := assign_conserve k s.queue hn
  unfold St.release
  generalize assign k s.queue = r at *
  obtain ⟨kr, q', g⟩ := r
  simp only at *
  have hb : bytes (g.map fun w => (w.id, w.need)) = sumNeed g := by
    simp [bytes, sumNeed, Function.comp_def]
  have hrest : ∀ w ∈ rest, w ∈ s.queue := fun w hw => by rw [h1]; exact List.mem_append_right _ hw
  refine ⟨?_, ?_, ?_, ?_, ?_, ?_, ?_⟩
  · simp only [bytes_append, hb]; omega
  · intro hne
    rcases h2 with ⟨rfl, rfl⟩ | ⟨w, t, j, rfl, rfl, -, h0⟩
    · exact absurd rfl hne
    · simp only; rw [h0, hw0 (by rw [h1]; simp)]
  · intro w hw'
    rcases h2 with ⟨rfl, rfl⟩ | ⟨w0, t, j, rfl, rfl, hj, -⟩
    · simp at hw'
    · have := hn w0 (hrest w0 List.mem_cons_self)
      rcases List.mem_cons.1 hw' with rfl | hw'
      · simp only; omega
      · exact hn w (hrest w (List.mem_cons_of_mem _ hw'))
  · intro w hw'
    rcases h2 with ⟨rfl, rfl⟩ | ⟨w0, t, j, rfl, rfl, hj, -⟩
    · simp at hw'
    · apply ht
      rw [h1]
      cases g with
      | nil => exact hw'
      | cons x g => simp only [List.cons_append, List.tail_cons]; simp at hw'; simp [hw']
  · intro p hp
    rcases List.mem_append.1 hp with hp | hp
    · exact hl p hp
    · obtain ⟨w, h3, rfl⟩ := List.mem_map.1 hp
      exact hq w (by rw [h1]; exact List.mem_append_left _ h3)
  · intro w hw'
    rcases h2 with ⟨rfl, rfl⟩ | ⟨w0, t, j, rfl, rfl, hj, -⟩
    · simp at hw'
    · rcases List.mem_cons.1 hw' with rfl | hw'
      · exact hq w0 (hrest w0 List.mem_cons_self)
      · exact hq w (hrest w (List.mem_cons_of_mem _ hw'))
  · intro c k' m hk hm
    rcases hw c k' m hk hm with h3 | h3
    · exact .inl (by rw [List.map_append]; exact List.mem_append_left _ h3)
    · obtain ⟨w, h4, rfl⟩ := List.mem_map.1 h3
      rw [h1] at h4
      rcases List.mem_append.1 h4 with h4 | h4
      · exact .inl (by rw [List.map_append]; exact List.mem_append_right _ (by simp; exact ⟨w, h4, rfl⟩))
      · rcases h2 with ⟨rfl, rfl⟩ | ⟨w0, t, j, rfl, rfl, hj, -⟩
        · simp at h4
        · rcases List.mem_cons.1 h4 with rfl | h4
          · exact .inr (by simp)
          · exact .inr (by simp; exact .inr ⟨w, h4, rfl⟩)

/-- Steps that only change connections, and start no waiting. -/
theorem Inv.conn {s : St} (h : Inv s) (f : Nat → Option Conn)
    (hf : ∀ c k m, f c = some k → k.phase = .waiting m → ∃ c' k', s.conn c' = some k' ∧ k'.phase = .waiting m) :
    Inv { s with conn := f } :=
  ⟨h.conserve, h.wait0, h.need, h.tail0, h.liveFresh, h.queueFresh, fun c k m hk hm => by
    obtain ⟨c', k', h1, h2⟩ := hf c k m hk hm
    exact h.waits c' k' m h1 h2⟩

theorem upd_some {f : Nat → Option Conn} {c x : Nat} {o : Option Conn} {k : Conn} (h : upd f c o x = some k) :
    (x = c ∧ o = some k) ∨ (x ≠ c ∧ f x = some k) := by
  unfold upd at h
  split at h
  · exact .inl ⟨by assumption, h⟩
  · exact .inr ⟨by assumption, h⟩

theorem sendTo_some {f : Nat → Option Conn} {m d x : Nat} {k : Conn} (h : sendTo f m d x = some k) :
    ∃ k', f x = some k' ∧ (k = k' ∨ (x = d ∧ k'.authed = true ∧ k'.writer = true ∧
      k = { k' with outq := k'.outq ++ [m] })) := by
  unfold sendTo at h
  cases hd : f d with
  | none => rw [hd] at h; exact ⟨k, h, .inl rfl⟩
  | some k' =>
    have hk' := hd
    rw [hd] at h
    dsimp only at h
    split at h
    · split at h
      · rcases upd_some h with ⟨rfl, h2⟩ | ⟨_, h2⟩
        · simp only [Option.some.injEq] at h2
          exact ⟨k', hk', .inr ⟨rfl, by assumption, by assumption, h2.symm⟩⟩
        · exact ⟨k, h2, .inl rfl⟩
      · rcases upd_some h with ⟨_, h2⟩ | ⟨_, h2⟩
        · simp at h2
        · exact ⟨k, h2, .inl rfl⟩
    · exact ⟨k, h, .inl rfl⟩

theorem dropAll_some {f : Nat → Option Conn} {es : List Nat} {x : Nat} {k : Conn} (h : dropAll f es x = some k) :
    x ∉ es ∧ f x = some k := by
  unfold dropAll at h
  split at h
  · simp at h
  · exact ⟨by assumption, h⟩

theorem inv_start (n : Nat) : Inv (start n) := by
  refine ⟨?_, ?_, ?_, ?_, ?_, ?_, ?_⟩ <;> simp [start, sumGot, bytes]

theorem inv_step {s s' : St} {l : Label} (h : Inv s) (hs : Step s l s') : Inv s' := by
  cases hs with
  | connect c hc =>
    refine h.conn _ fun x k m hk hm => ?_
    rcases upd_some hk with ⟨_, h2⟩ | ⟨_, h2⟩
    · cases h2; simp at hm
    · exact ⟨x, k, h2, hm⟩
  | header c n k hk hp hn hav =>
    refine ⟨?_, ?_, h.need, h.tail0, ?_, ?_, ?_⟩
    · have := h.conserve
      simp only [bytes_append, bytes_cons]; simp only [bytes, List.map_nil, List.sum_nil] at *; omega
    · intro hq; have := h.wait0 hq; simp only; omega
    · intro p hp
      rcases List.mem_append.1 hp with hp | hp
      · have := h.liveFresh p hp; simp only; omega
      · rw [List.mem_singleton.1 hp]; simp
    · intro w hw; have := h.queueFresh w hw; simp only; omega
    · intro x k' m hk' hm
      rcases upd_some hk' with ⟨_, h2⟩ | ⟨_, h2⟩
      · cases h2; simp at hm
      · rcases h.waits x k' m h2 hm with h3 | h3
        · exact .inl (by rw [List.map_append]; exact List.mem_append_left _ h3)
        · exact .inr h3
  | wait c n k hk hp hn hav =>
    refine ⟨?_, ?_, ?_, ?_, ?_, ?_, ?_⟩
    · have := h.conserve
      simp only [sumGot_append]; simp only [sumGot, List.map_cons, List.map_nil, List.sum_cons, List.sum_nil] at *
      omega
    · intro _; rfl
    · intro w hw
      rcases List.mem_append.1 hw with hw | hw
      · exact h.need w hw
      · rw [List.mem_singleton.1 hw]; exact hav
    · intro w hw
      cases hq : s.queue with
      | nil => simp [hq] at hw
      | cons w0 q =>
        simp only [hq, List.cons_append, List.tail_cons] at hw
        rcases List.mem_append.1 hw with hw | hw
        · exact h.tail0 w (by rw [hq]; exact hw)
        · rw [List.mem_singleton.1 hw]; exact h.wait0 (by rw [hq]; simp)
    · intro p hp; have := h.liveFresh p hp; simp only; omega
    · intro w hw
      rcases List.mem_append.1 hw with hw | hw
      · have := h.queueFresh w hw; simp only; omega
      · rw [List.mem_singleton.1 hw]; simp
    · intro x k' m hk' hm
      rcases upd_some hk' with ⟨_, h2⟩ | ⟨_, h2⟩
      · cases h2
        simp only [Phase.waiting.injEq] at hm
        subst hm
        exact .inr (by simp)
      · rcases h.waits x k' m h2 hm with h3 | h3
        · exact .inl h3
        · exact .inr (by rw [List.map_append]; exact List.mem_append_left _ h3)
  | granted c k m hk hp hm =>
    refine h.conn _ fun x k' m' hk' hm' => ?_
    rcases upd_some hk' with ⟨_, h2⟩ | ⟨_, h2⟩
    · cases h2; simp at hm'
    · exact ⟨x, k', h2, hm'⟩
  | body c k m hk hp =>
    refine h.conn _ fun x k' m' hk' hm' => ?_
    rcases upd_some hk' with ⟨_, h2⟩ | ⟨_, h2⟩
    · cases h2; simp at hm'
    · exact ⟨x, k', h2, hm'⟩
  | fail c k hk hp =>
    refine h.conn _ fun x k' m' hk' hm' => ?_
    rcases upd_some hk' with ⟨_, h2⟩ | ⟨_, h2⟩
    · cases h2; simp at hm'
    · exact ⟨x, k', h2, hm'⟩
  | take c k m q n ds es hk hf hi hm hn ha hc =>
    refine h.conn _ fun x k' m' hk' hm' => ?_
    obtain ⟨_, hk'⟩ := dropAll_some hk'
    rcases upd_some hk' with ⟨_, h2⟩ | ⟨_, h2⟩
    · cases h2; exact ⟨c, k, hk, hm'⟩
    · exact ⟨x, k', h2, hm'⟩
  | bad c k m q hk hf hi =>
    refine h.conn _ fun x k' m' hk' hm' => ?_
    rcases upd_some hk' with ⟨_, h2⟩ | ⟨_, h2⟩
    · cases h2
    · exact ⟨x, k', h2, hm'⟩
  | send c k m d ds hk hf =>
    refine h.conn _ fun x k' m' hk' hm' => ?_
    obtain ⟨k2, h3, h4⟩ := sendTo_some hk'
    have hm2 : k2.phase = .waiting m' := by
      rcases h4 with rfl | ⟨_, _, _, rfl⟩ <;> exact hm'
    rcases upd_some h3 with ⟨_, h2⟩ | ⟨_, h2⟩
    · cases h2; exact ⟨c, k, hk, hm2⟩
    · exact ⟨x, k2, h2, hm2⟩
  | sent c k m hk hf =>
    refine h.conn _ fun x k' m' hk' hm' => ?_
    rcases upd_some hk' with ⟨_, h2⟩ | ⟨_, h2⟩
    · cases h2; exact ⟨c, k, hk, hm'⟩
    · exact ⟨x, k', h2, hm'⟩
  | noMore c k hk hf hi hp =>
    refine h.conn _ fun x k' m' hk' hm' => ?_
    rcases upd_some hk' with ⟨_, h2⟩ | ⟨_, h2⟩
    · cases h2
    · exact ⟨x, k', h2, hm'⟩
  | written c k m q hk hw ho =>
    refine h.conn _ fun x k' m' hk' hm' => ?_
    rcases upd_some hk' with ⟨_, h2⟩ | ⟨_, h2⟩
    · cases h2; exact ⟨c, k, hk, hm'⟩
    · exact ⟨x, k', h2, hm'⟩
  | writeFail c k m q hk hw ho =>
    refine h.conn _ fun x k' m' hk' hm' => ?_
    rcases upd_some hk' with ⟨_, h2⟩ | ⟨_, h2⟩
    · cases h2; exact ⟨c, k, hk, hm'⟩
    · exact ⟨x, k', h2, hm'⟩
  | kick c k hk =>
    refine h.conn _ fun x k' m' hk' hm' => ?_
    rcases upd_some hk' with ⟨_, h2⟩ | ⟨_, h2⟩
    · cases h2
    · exact ⟨x, k', h2, hm'⟩
  | free m n l1 l2 hl hh =>
    refine inv_release _ n ?_ h.wait0 h.need h.tail0 ?_ h.queueFresh ?_
    · have := h.conserve
      rw [hl] at this
      simp only [bytes_append, bytes_cons] at this ⊢
      omega
    · intro p hp
      refine h.liveFresh p ?_
      rw [hl]
      rcases List.mem_append.1 hp with hp | hp
      · exact List.mem_append_left _ hp
      · exact List.mem_append_right _ (List.mem_cons_of_mem _ hp)
    · intro c k m' hk hm'
      have hne : m' ≠ m := by rintro rfl; exact hh c k hk (.inl hm')
      rcases h.waits c k m' hk hm' with h3 | h3
      · rw [hl] at h3
        simp only [List.map_append, List.map_cons, List.mem_append, List.mem_cons, hne, false_or] at h3 ⊢
        exact .inl h3
      · exact .inr h3
  | cancel w q1 q2 hq hh =>
    have hsub : ∀ x ∈ q1 ++ q2, x ∈ s.queue := by
      intro x hx
      rw [hq]
      rcases List.mem_append.1 hx with hx | hx
      · exact List.mem_append_left _ hx
      · exact List.mem_append_right _ (List.mem_cons_of_mem _ hx)
    refine inv_release _ w.got ?_ ?_ (fun x hx => h.need x (hsub x hx)) ?_ h.liveFresh
      (fun x hx => h.queueFresh x (hsub x hx)) ?_
    · have := h.conserve
      rw [hq] at this
      simp only [sumGot, List.map_append, List.map_cons, List.sum_append, List.sum_cons] at this ⊢
      omega
    · intro _; exact h.wait0 (by rw [hq]; simp)
    · intro x hx
      refine h.tail0 x ?_
      rw [hq]
      cases q1 with
      | nil => simp only [List.nil_append, List.tail_cons] at hx ⊢; exact List.mem_of_mem_tail hx
      | cons y q1 =>
        simp only [List.cons_append, List.tail_cons, List.mem_append, List.mem_cons] at hx ⊢
        rcases hx with hx | hx
        · exact .inl hx
        · exact .inr (.inr hx)
    · intro c k m' hk hm'
      have hne : m' ≠ w.id := by rintro rfl; exact hh c k hk (.inl hm')
      rcases h.waits c k m' hk hm' with h3 | h3
      · exact .inl h3
      · rw [hq] at h3
        simp only [List.map_append, List.map_cons, List.mem_append, List.mem_cons, hne, false_or] at h3 ⊢
        exact .inr h3

theorem inv_run {s s' : St} {ls : List Label} (h : Inv s) (hr : Run s ls s') : Inv s' := by
  induction hr with
  | nil => exact h
  | cons hs _ ih => exact ih (inv_step h hs)

theorem cap_step {s s' : St} {l : Label} (hs : Step s l s') : s'.cap = s.cap := by cases hs <;> rfl

theorem cap_run {s s' : St} {ls : List Label} (hr : Run s ls s') : s'.cap = s.cap := by
  induction hr with
  | nil => rfl
  | cons hs _ ih => rw [ih, cap_step hs]

/-! ## A broker that is stuck -/

/-- The memory held by the messages in the send channel of `c`. -/
def backlog (s : St) (c : Nat) : Nat :=
  match s.conn c with
  | some k => bytes (s.live.filter (fun p => p.1 ∈ k.outq))
  | none => 0

/-- There are messages in the channel of `c0`; everything that was received has been handled; the first of the requests for
memory comes from `c1` and is for more than there is without the messages in that channel. -/
structure Full (s : St) (c0 c1 : Nat) : Prop where
  silent : ∃ k0, s.conn c0 = some k0 ∧ k0.phase = .header
  first : ∃ w q k1, s.queue = w :: q ∧ s.conn c1 = some k1 ∧ k1.phase = .waiting w.id ∧
    s.cap < w.need + backlog s c0
  idle : ∀ c k, s.conn c = some k → k.inq = [] ∧ k.fwd = none ∧
    (k.phase = .header ∨ k.phase = .ended ∨ ∃ m, k.phase = .waiting m ∧ m ∉ s.live.map Prod.fst)

/-- Moreover the sender task of `c0` has ended. -/
structure Stuck (s : St) (c0 c1 : Nat) : Prop extends Full s c0 c1 where
  dead : ∃ k0, s.conn c0 = some k0 ∧ k0.writer = false

/-- The peer of `c0` neither sends anything nor ends the connection, and neither `c0` nor `c1` is removed by the whitelist
task. (If they are users that have logged in, that is all `kick` stands for. What else would remove them is not
excluded.) -/
def LeftAlone (c0 c1 : Nat) : Label → Prop
  | .fail c => c ≠ c0
  | .header c _ => c ≠ c0
  | .kick c => c ≠ c0 ∧ c ≠ c1
  | _ => True

/-- Nothing of what is in the channel of `c0` is written. -/
def NotWritten (c0 : Nat) : Label → Prop
  | .written c _ => c ≠ c0
  | .writeFail c => c ≠ c0
  | _ => True

structure J (s0 : St) (c0 c1 : Nat) (k0 : Conn) (s : St) : Prop where
  inv : Inv s
  dead : s.conn c0 = some k0
  first : ∃ w q k1, s.queue = w :: q ∧ s.conn c1 = some k1 ∧ k1.phase = .waiting w.id ∧ k1.inq = [] ∧
    s.cap < w.need + bytes (s.live.filter (fun p => p.1 ∈ k0.outq))
  fwd : ∀ c k, s.conn c = some k → k.fwd = none
  inq : ∀ c k m n, s.conn c = some k → (m ∈ k.inq ∨ k.phase = .body m) → (m, n) ∈ s.live → n = 0
  wait : ∀ c k m, s.conn c = some k → k.phase = .waiting m → m ∉ s.live.map Prod.fst
  old : ∀ c k m, s.conn c = some k → m ∈ k.outq → ∃ k', s0.conn c = some k' ∧ m ∈ k'.outq

theorem bytes_filter_le (l : List (Nat × Nat)) (p : Nat × Nat → Bool) : bytes (l.filter p) ≤ bytes l := by
  induction l with
  | nil => simp
  | cons a l ih =>
    rw [List.filter_cons]
    split <;> simp only [bytes_cons] <;> omega

/-- Too little comes free for the first request: nothing is granted. -/
theorem release_small (s : St) (w : Waiter) (q : List Waiter) (k : Nat) (hq : s.queue = w :: q)
    (hk : w.got + k < w.need) :
    s.release k = { s with avail := s.avail, queue := { w with got := w.got + k } :: q } := by
  unfold St.release
  rw [hq]
  have : ¬ w.need - w.got ≤ k := by omega
  simp [assign, this]

theorem J.conn {s0 s : St} {c0 c1 : Nat} {k0 : Conn} (h : J s0 c0 c1 k0 s) (f : Nat → Option Conn)
    (hinv : Inv { s with conn := f }) (h0 : f c0 = some k0) (h1 : ∀ k1, s.conn c1 = some k1 →
      ∃ k1', f c1 = some k1' ∧ (k1.inq = [] → (∃ m, k1.phase = .waiting m) → k1'.inq = [] ∧ k1'.phase = k1.phase))
    (hf : ∀ c k, f c = some k → k.fwd = none ∧
      ((∃ k', s.conn c = some k' ∧ (∀ m, (m ∈ k.inq ∨ k.phase = .body m) → (m ∈ k'.inq ∨ k'.phase = .body m)) ∧
        (∀ m, k.phase = .waiting m → k'.phase = .waiting m) ∧ ∀ m, m ∈ k.outq → m ∈ k'.outq) ∨
       (k.inq = [] ∧ k.phase = .header ∧ k.outq = []))) : J s0 c0 c1 k0 { s with conn := f } := by
  refine ⟨hinv, h0, ?_, fun c k hk => (hf c k hk).1, ?_, ?_, ?_⟩
  · obtain ⟨w, q, k1, e1, e2, e3, e4, e5⟩ := h.first
    obtain ⟨k1', e6, e7⟩ := h1 k1 e2
    obtain ⟨e8, e9⟩ := e7 e4 ⟨_, e3⟩
    exact ⟨w, q, k1', e1, e6, e9.trans e3, e8, e5⟩
  · intro c k m n hk hm hn
    rcases (hf c k hk).2 with ⟨k', e1, e2, e3, e4⟩ | ⟨e1, e2, e3⟩
    · exact h.inq c k' m n e1 (e2 m hm) hn
    · rw [e1, e2] at hm; simp at hm
  · intro c k m hk hm
    rcases (hf c k hk).2 with ⟨k', e1, e2, e3, e4⟩ | ⟨e1, e2, e3⟩
    · exact h.wait c k' m e1 (e3 m hm)
    · rw [e2] at hm; simp at hm
  · intro c k m hk hm
    rcases (hf c k hk).2 with ⟨k', e1, e2, e3, e4⟩ | ⟨e1, e2, e3⟩
    · exact h.old c k' m e1 (e4 m hm)
    · rw [e3] at hm; simp at hm

theorem upd_ne {f : Nat → Option Conn} {c x : Nat} {o : Option Conn} (h : x ≠ c) : upd f c o x = f x := by
  simp [upd, h]

theorem upd_eq {f : Nat → Option Conn} {c : Nat} {o : Option Conn} : upd f c o c = o := by
  simp [upd]

/-- While stuck: what a step can be, and that it leaves the broker stuck. -/
theorem j_step {s0 s s' : St} {c0 c1 : Nat} {k0 : Conn} {l : Label} (hp : k0.phase = .header) (hi : k0.inq = [])
    (hw : k0.writer = false ∨ NotWritten c0 l) (h : J s0 c0 c1 k0 s) (hs : Step s l s') (hl : LeftAlone c0 c1 l) :
    J s0 c0 c1 k0 s' ∧ (∀ c ds es, l ≠ .take c ds es) ∧
      ∀ c m, l = .written c m → ∃ k, s0.conn c = some k ∧ m ∈ k.outq := by
  have hinv := inv_step h.inv hs
  obtain ⟨w, q, k1, f1, f2, f3, f4, f5⟩ := h.first
  have hav : s.avail = 0 := h.inv.wait0 (by rw [f1]; simp)
  cases hs with
  | connect c hc =>
    refine ⟨h.conn _ hinv ?_ ?_ ?_, by simp, by simp⟩
    · rw [upd_ne (by rintro rfl; rw [h.dead] at hc; simp at hc)]; exact h.dead
    · intro k1 hk1
      exact ⟨k1, by rw [upd_ne (by rintro rfl; rw [hk1] at hc; simp at hc)]; exact hk1, fun a _ => ⟨a, rfl⟩⟩
    · intro x k hk
      rcases upd_some hk with ⟨_, h2⟩ | ⟨_, h2⟩
      · cases h2; exact ⟨rfl, .inr ⟨rfl, rfl, rfl⟩⟩
      · exact ⟨h.fwd x k h2, .inl ⟨k, h2, fun _ a => a, fun _ a => a, fun _ a => a⟩⟩
  | header c n k hk hph hn hle =>
    have hn0 : n = 0 := by omega
    subst hn0
    have hc0 : c0 ≠ c := fun e => hl e.symm
    have hc1 : c1 ≠ c := by
      rintro rfl; rw [f2] at hk; cases hk; rw [f3] at hph; cases hph
    refine ⟨⟨hinv, ?_, ⟨w, q, k1, f1, ?_, f3, f4, ?_⟩, ?_, ?_, ?_, ?_⟩, by simp, by simp⟩
    · rw [← h.dead]; exact upd_ne hc0
    · rw [← f2]; exact upd_ne hc1
    · simp only [List.filter_append, bytes_append]; omega
    · intro x k' hk'
      rcases upd_some hk' with ⟨_, h2⟩ | ⟨_, h2⟩
      · cases h2; exact h.fwd c k hk
      · exact h.fwd x k' h2
    · intro x k' m n' hk' hm hn'
      rcases List.mem_append.1 hn' with hn' | hn'
      · rcases upd_some hk' with ⟨_, h2⟩ | ⟨_, h2⟩
        · cases h2
          rcases hm with hm | hm
          · exact h.inq c k m n' hk (.inl hm) hn'
          · simp only [Phase.body.injEq] at hm
            subst hm
            have := h.inv.liveFresh _ hn'
            simp at this
        · exact h.inq x k' m n' h2 hm hn'
      · have := List.mem_singleton.1 hn'
        simp only [Prod.mk.injEq] at this
        exact this.2
    · intro x k' m hk' hm hmem
      rcases upd_some hk' with ⟨_, h2⟩ | ⟨_, h2⟩
      · cases h2; simp at hm
      · rw [List.map_append, List.mem_append] at hmem
        rcases hmem with hmem | hmem
        · exact h.wait x k' m h2 hm hmem
        · simp at hmem
          subst hmem
          rcases h.inv.waits x k' _ h2 hm with h3 | h3
          · exact h.wait x k' _ h2 hm h3
          · obtain ⟨w', h4, h5⟩ := List.mem_map.1 h3
            have := h.inv.queueFresh w' h4
            omega
    · intro x k' m hk' hm
      rcases upd_some hk' with ⟨rfl, h2⟩ | ⟨_, h2⟩
      · cases h2; exact h.old _ k m hk hm
      · exact h.old x k' m h2 hm
  | wait c n k hk hph hn hlt =>
    have hc0 : c0 ≠ c := fun e => hl e.symm
    have hc1 : c1 ≠ c := by
      rintro rfl; rw [f2] at hk; cases hk; rw [f3] at hph; cases hph
    refine ⟨⟨hinv, ?_, ⟨w, q ++ [⟨s.next, n, s.avail⟩], k1, ?_, ?_, f3, f4, f5⟩, ?_, ?_, ?_, ?_⟩, by simp, by simp⟩
    · rw [← h.dead]; exact upd_ne hc0
    · simp [f1]
    · rw [← f2]; exact upd_ne hc1
    · intro x k' hk'
      rcases upd_some hk' with ⟨_, h2⟩ | ⟨_, h2⟩
      · cases h2; exact h.fwd c k hk
      · exact h.fwd x k' h2
    · intro x k' m n' hk' hm hn'
      rcases upd_some hk' with ⟨_, h2⟩ | ⟨_, h2⟩
      · cases h2
        rcases hm with hm | hm
        · exact h.inq c k m n' hk (.inl hm) hn'
        · simp at hm
      · exact h.inq x k' m n' h2 hm hn'
    · intro x k' m hk' hm hmem
      rcases upd_some hk' with ⟨_, h2⟩ | ⟨_, h2⟩
      · cases h2
        simp only [Phase.waiting.injEq] at hm
        subst hm
        obtain ⟨p, h4, h5⟩ := List.mem_map.1 hmem
        have := h.inv.liveFresh p h4
        omega
      · exact h.wait x k' m h2 hm hmem
    · intro x k' m hk' hm
      rcases upd_some hk' with ⟨rfl, h2⟩ | ⟨_, h2⟩
      · cases h2; exact h.old _ k m hk hm
      · exact h.old x k' m h2 hm
  | granted c k m hk hph hm => exact absurd hm (h.wait c k m hk hph)
  | body c k m hk hph =>
    have hc0 : c0 ≠ c := by rintro rfl; rw [h.dead] at hk; cases hk; rw [hp] at hph; cases hph
    have hc1 : c1 ≠ c := by rintro rfl; rw [f2] at hk; cases hk; rw [f3] at hph; cases hph
    refine ⟨h.conn _ hinv (by rw [upd_ne hc0]; exact h.dead) ?_ ?_, by simp, by simp⟩
    · intro k1 hk1; exact ⟨k1, by rw [upd_ne hc1]; exact hk1, fun a _ => ⟨a, rfl⟩⟩
    · intro x k' hk'
      rcases upd_some hk' with ⟨rfl, h2⟩ | ⟨_, h2⟩
      · cases h2
        refine ⟨h.fwd _ k hk, .inl ⟨k, hk, ?_, by simp, fun _ a => a⟩⟩
        intro m' hm'
        rcases hm' with hm' | hm'
        · rcases List.mem_append.1 hm' with hm' | hm'
          · exact .inl hm'
          · rw [List.mem_singleton.1 hm']; exact .inr hph
        · simp at hm'
      · exact ⟨h.fwd x k' h2, .inl ⟨k', h2, fun _ a => a, fun _ a => a, fun _ a => a⟩⟩
  | fail c k hk hph =>
    have hc0 : c0 ≠ c := fun e => hl e.symm
    have hc1 : c1 ≠ c := by
      rintro rfl; rw [f2] at hk; cases hk; rw [f3] at hph; simp at hph
    refine ⟨h.conn _ hinv (by rw [upd_ne hc0]; exact h.dead) ?_ ?_, by simp, by simp⟩
    · intro k1 hk1; exact ⟨k1, by rw [upd_ne hc1]; exact hk1, fun a _ => ⟨a, rfl⟩⟩
    · intro x k' hk'
      rcases upd_some hk' with ⟨rfl, h2⟩ | ⟨_, h2⟩
      · cases h2
        refine ⟨h.fwd _ k hk, .inl ⟨k, hk, ?_, by simp, fun _ a => a⟩⟩
        intro m' hm'
        rcases hm' with hm' | hm'
        · exact .inl hm'
        · simp at hm'
      · exact ⟨h.fwd x k' h2, .inl ⟨k', h2, fun _ a => a, fun _ a => a, fun _ a => a⟩⟩
  | take c k m q' n ds es hk hf hin hm hn ha hc =>
    have := h.inq c k m n hk (.inl (by rw [hin]; simp)) hm
    omega
  | bad c k m q' hk hf hin =>
    have hc0 : c0 ≠ c := by rintro rfl; rw [h.dead] at hk; cases hk; rw [hi] at hin; cases hin
    have hc1 : c1 ≠ c := by rintro rfl; rw [f2] at hk; cases hk; rw [f4] at hin; cases hin
    refine ⟨h.conn _ hinv (by rw [upd_ne hc0]; exact h.dead) ?_ ?_, by simp, by simp⟩
    · intro k1 hk1; exact ⟨k1, by rw [upd_ne hc1]; exact hk1, fun a _ => ⟨a, rfl⟩⟩
    · intro x k' hk'
      rcases upd_some hk' with ⟨_, h2⟩ | ⟨_, h2⟩
      · cases h2
      · exact ⟨h.fwd x k' h2, .inl ⟨k', h2, fun _ a => a, fun _ a => a, fun _ a => a⟩⟩
  | send c k m d ds hk hf => rw [h.fwd c k hk] at hf; cases hf
  | sent c k m hk hf => rw [h.fwd c k hk] at hf; cases hf
  | noMore c k hk hf hin hph =>
    have hc0 : c0 ≠ c := by rintro rfl; rw [h.dead] at hk; cases hk; rw [hp] at hph; cases hph
    have hc1 : c1 ≠ c := by rintro rfl; rw [f2] at hk; cases hk; rw [f3] at hph; cases hph
    refine ⟨h.conn _ hinv (by rw [upd_ne hc0]; exact h.dead) ?_ ?_, by simp, by simp⟩
    · intro k1 hk1; exact ⟨k1, by rw [upd_ne hc1]; exact hk1, fun a _ => ⟨a, rfl⟩⟩
    · intro x k' hk'
      rcases upd_some hk' with ⟨_, h2⟩ | ⟨_, h2⟩
      · cases h2
      · exact ⟨h.fwd x k' h2, .inl ⟨k', h2, fun _ a => a, fun _ a => a, fun _ a => a⟩⟩
  | written c k m q' hk hwr ho =>
    have hc0 : c0 ≠ c := by
      rintro rfl
      rcases hw with hw | hw
      · rw [h.dead] at hk; cases hk; rw [hw] at hwr; cases hwr
      · exact hw rfl
    refine ⟨h.conn _ hinv (by rw [upd_ne hc0]; exact h.dead) ?_ ?_, by simp, ?_⟩
    · intro k1 hk1
      by_cases e : c1 = c
      · subst e; rw [hk1] at hk; cases hk; exact ⟨_, upd_eq, fun a _ => ⟨a, rfl⟩⟩
      · exact ⟨k1, by rw [upd_ne e]; exact hk1, fun a _ => ⟨a, rfl⟩⟩
    · intro x k' hk'
      rcases upd_some hk' with ⟨rfl, h2⟩ | ⟨_, h2⟩
      · cases h2
        exact ⟨h.fwd _ k hk, .inl ⟨k, hk, fun _ a => a, fun _ a => a, fun x hx => by rw [ho]; simp [hx]⟩⟩
      · exact ⟨h.fwd x k' h2, .inl ⟨k', h2, fun _ a => a, fun _ a => a, fun _ a => a⟩⟩
    · intro c' m' he
      cases he
      exact h.old c k m hk (by rw [ho]; simp)
  | writeFail c k m q' hk hwr ho =>
    have hc0 : c0 ≠ c := by
      rintro rfl
      rcases hw with hw | hw
      · rw [h.dead] at hk; cases hk; rw [hw] at hwr; cases hwr
      · exact hw rfl
    refine ⟨h.conn _ hinv (by rw [upd_ne hc0]; exact h.dead) ?_ ?_, by simp, by simp⟩
    · intro k1 hk1
      by_cases e : c1 = c
      · subst e; rw [hk1] at hk; cases hk; exact ⟨_, upd_eq, fun a _ => ⟨a, rfl⟩⟩
      · exact ⟨k1, by rw [upd_ne e]; exact hk1, fun a _ => ⟨a, rfl⟩⟩
    · intro x k' hk'
      rcases upd_some hk' with ⟨rfl, h2⟩ | ⟨_, h2⟩
      · cases h2
        exact ⟨h.fwd _ k hk, .inl ⟨k, hk, fun _ a => a, fun _ a => a, fun x hx => by rw [ho]; simp [hx]⟩⟩
      · exact ⟨h.fwd x k' h2, .inl ⟨k', h2, fun _ a => a, fun _ a => a, fun _ a => a⟩⟩
  | kick c k hk =>
    have hc0 : c0 ≠ c := fun e => hl.1 e.symm
    have hc1 : c1 ≠ c := fun e => hl.2 e.symm
    refine ⟨h.conn _ hinv (by rw [upd_ne hc0]; exact h.dead) ?_ ?_, by simp, by simp⟩
    · intro k1 hk1; exact ⟨k1, by rw [upd_ne hc1]; exact hk1, fun a _ => ⟨a, rfl⟩⟩
    · intro x k' hk'
      rcases upd_some hk' with ⟨_, h2⟩ | ⟨_, h2⟩
      · cases h2
      · exact ⟨h.fwd x k' h2, .inl ⟨k', h2, fun _ a => a, fun _ a => a, fun _ a => a⟩⟩
  | free m n l1 l2 hlv hh =>
    have hm0 : m ∉ k0.outq := fun e => hh c0 k0 h.dead (by simp [Conn.holds, e])
    have hfil : bytes (s.live.filter (fun p => p.1 ∈ k0.outq)) =
        bytes ((l1 ++ l2).filter (fun p => p.1 ∈ k0.outq)) := by
      rw [hlv]; simp [hm0]
    have hcon := h.inv.conserve
    have hle := bytes_filter_le (l1 ++ l2) (fun p => decide (p.1 ∈ k0.outq))
    rw [f1, hlv] at hcon
    simp only [bytes_append, bytes_cons, sumGot, List.map_cons, List.sum_cons] at hcon hle
    rw [hfil] at f5
    have hrel := release_small { s with live := l1 ++ l2 } w q n f1 (by omega)
    rw [hrel] at hinv ⊢
    have hsub : ∀ p ∈ l1 ++ l2, p ∈ s.live := by
      intro p hp'
      rw [hlv]
      rcases List.mem_append.1 hp' with hp' | hp'
      · exact List.mem_append_left _ hp'
      · exact List.mem_append_right _ (List.mem_cons_of_mem _ hp')
    refine ⟨⟨hinv, h.dead, ⟨_, q, k1, rfl, f2, f3, f4, f5⟩, h.fwd, ?_, ?_, h.old⟩, by simp, by simp⟩
    · intro c k m' n' hk hm' hn'; exact h.inq c k m' n' hk hm' (hsub _ hn')
    · intro c k m' hk hm' hmem
      obtain ⟨p, h4, rfl⟩ := List.mem_map.1 hmem
      exact h.wait c k _ hk hm' (List.mem_map.2 ⟨p, hsub _ h4, rfl⟩)
  | cancel w' q1 q2 hq hh =>
    have hne : w'.id ≠ w.id := fun e => hh c1 k1 f2 (.inl (by rw [e]; exact f3))
    obtain ⟨q1', rfl⟩ : ∃ q1', q1 = w :: q1' := by
      cases q1 with
      | nil => rw [f1] at hq; simp only [List.nil_append, List.cons.injEq] at hq; exact absurd (by rw [hq.1]) hne
      | cons x q1' => rw [f1] at hq; simp only [List.cons_append, List.cons.injEq] at hq; exact ⟨q1', by rw [hq.1]⟩
    have hcon := h.inv.conserve
    have hle := bytes_filter_le s.live (fun p => decide (p.1 ∈ k0.outq))
    rw [hq] at hcon
    simp only [sumGot, List.map_append, List.map_cons, List.sum_append, List.sum_cons] at hcon
    have hrel := release_small { s with queue := w :: q1' ++ q2 } w (q1' ++ q2) w'.got rfl (by omega)
    rw [hrel] at hinv ⊢
    exact ⟨⟨hinv, h.dead, ⟨_, _, k1, rfl, f2, f3, f4, f5⟩, h.fwd, h.inq, h.wait, h.old⟩, by simp, by simp⟩

theorem full_for_ever (n : Nat) (ls0 ls : List Label) (s s' : St) (c0 c1 : Nat) (k0 : Conn)
    (h0 : Run (start n) ls0 s) (hst : Full s c0 c1) (d1 : s.conn c0 = some k0) (hr : Run s ls s')
    (hl : ∀ l ∈ ls, LeftAlone c0 c1 l) (hw : ∀ l ∈ ls, k0.writer = false ∨ NotWritten c0 l) :
    (∀ c ds es, Label.take c ds es ∉ ls) ∧
    (∀ c m, Label.written c m ∈ ls → ∃ k, s.conn c = some k ∧ m ∈ k.outq) := by
  obtain ⟨k0', d1', d3⟩ := hst.silent
  rw [d1] at d1'; cases d1'
  obtain ⟨w, q, k1, f1, f2, f3, f4⟩ := hst.first
  have hi := hst.idle
  have hj : J s c0 c1 k0 s := by
    refine ⟨inv_run (inv_start n) h0, d1, ⟨w, q, k1, f1, f2, f3, (hi c1 k1 f2).1, ?_⟩, fun c k hk => (hi c k hk).2.1,
      ?_, ?_, fun c k m hk hm => ⟨k, hk, hm⟩⟩
    · simpa [backlog, d1] using f4
    · intro c k m n hk hm hn
      obtain ⟨e1, e2, e3⟩ := hi c k hk
      rcases hm with hm | hm
      · rw [e1] at hm; simp at hm
      · rw [hm] at e3; simp at e3
    · intro c k m hk hm
      obtain ⟨e1, e2, e3⟩ := hi c k hk
      rw [hm] at e3
      simpa using e3
  have key : ∀ (ls : List Label) (t t' : St), Run t ls t' → J s c0 c1 k0 t → (∀ l ∈ ls, LeftAlone c0 c1 l) →
      (∀ l ∈ ls, k0.writer = false ∨ NotWritten c0 l) →
      (∀ c ds es, Label.take c ds es ∉ ls) ∧
      (∀ c m, Label.written c m ∈ ls → ∃ k, s.conn c = some k ∧ m ∈ k.outq) := by
    intro ls t t' hrun
    induction hrun with
    | nil => intro _ _; simp
    | cons hs _ ih =>
      intro hjt hla hlw
      obtain ⟨e1, e2, e3⟩ := j_step d3 (hi c0 k0 d1).1 (hlw _ (by simp)) hjt hs (hla _ (by simp))
      obtain ⟨e4, e5⟩ := ih e1 (fun l hl => hla l (by simp [hl])) (fun l hl => hlw l (by simp [hl]))
      refine ⟨fun c ds es hm => ?_, fun c m hm => ?_⟩
      · rcases List.mem_cons.1 hm with hm | hm
        · exact e2 c ds es hm.symm
        · exact e4 c ds es hm
      · rcases List.mem_cons.1 hm with hm | hm
        · exact e3 c m hm.symm
        · exact e5 c m hm
  exact key ls s s' hr hj hl hw

/-- **C82 is false (for ever).** From a stuck state of a broker, however long it runs and whatever all others do: as long
as the peer of `c0` does nothing and the operator does not intervene, no message is ever handled again, whoever sends it,
and nobody can log in (the first message of a connection is not handled either). Written are only messages that were in
the channels when the broker got stuck. -/
theorem C82_stuck_for_ever (n : Nat) (ls0 ls : List Label) (s s' : St) (c0 c1 : Nat)
    (h0 : Run (start n) ls0 s) (hst : Stuck s c0 c1) (hr : Run s ls s') (hl : ∀ l ∈ ls, LeftAlone c0 c1 l) :
    (∀ c ds es, Label.take c ds es ∉ ls) ∧
    (∀ c m, Label.written c m ∈ ls → ∃ k, s.conn c = some k ∧ m ∈ k.outq) := by
  obtain ⟨k0, d1, d2⟩ := hst.dead
  exact full_for_ever n ls0 ls s s' c0 c1 k0 h0 hst.toFull d1 hr hl (fun _ _ => .inl d2)

/-- **C82 is false (while nothing is read).** The same while the sender task of `c0` waits for its peer to read. With TLS
that wait can be in `flush`, which has no timeout (mod.rs:168-174): small messages are copied into the buffer of the TLS
session, so writing them does not time out. -/
theorem C82_stuck_while_unread (n : Nat) (ls0 ls : List Label) (s s' : St) (c0 c1 : Nat)
    (h0 : Run (start n) ls0 s) (hst : Full s c0 c1) (hr : Run s ls s') (hl : ∀ l ∈ ls, LeftAlone c0 c1 l)
    (hw : ∀ l ∈ ls, NotWritten c0 l) :
    (∀ c ds es, Label.take c ds es ∉ ls) ∧
    (∀ c m, Label.written c m ∈ ls → ∃ k, s.conn c = some k ∧ m ∈ k.outq) := by
  obtain ⟨k0, d1, _⟩ := hst.silent
  exact full_for_ever n ls0 ls s s' c0 c1 k0 h0 hst d1 hr hl (fun l hl => .inr (hw l hl))

/-! ### A broker does get stuck -/

/-- The connections 1 and 2. -/
def two (a b : Conn) : Nat → Option Conn := fun x => if x = 1 then some a else if x = 2 then some b else none

theorem two_one (a b : Conn) : two a b 1 = some a := rfl
theorem two_two (a b : Conn) : two a b 2 = some b := rfl

theorem upd_two_one (a b a' : Conn) : upd (two a b) 1 (some a') = two a' b := by
  funext x; simp only [upd, two]; split <;> simp_all

theorem upd_two_two (a b b' : Conn) : upd (two a b) 2 (some b') = two a b' := by
  funext x; simp only [upd, two]; repeat' split
  all_goals simp_all

theorem dropAll_nil (f : Nat → Option Conn) : dropAll f [] = f := by
  funext x; simp [dropAll]

theorem sendTo_two (a b : Conn) (m : Nat) (h1 : b.authed = true) (h2 : b.writer = true) :
    sendTo (two a b) m 2 = two a { b with outq := b.outq ++ [m] } := by
  simp only [sendTo, two_two, h1, h2, if_true, upd_two_two]

theorem _root_.Verif.Backlog.Run.append {s s' s'' : St} {l l' : List Label} (h : Run s l s') (h' : Run s' l' s'') : Run s (l ++ l') s'' := by
  induction h with
  | nil => exact h'
  | cons hs _ ih => exact .cons hs (ih h')

/-- Somebody with number `c` connects and logs in with a message of one byte. -/
theorem two_holds {a b : Conn} {m : Nat} (ha : ¬ a.holds m) (hb : ¬ b.holds m) :
    ∀ c k, two a b c = some k → ¬ k.holds m := by
  intro c k hk
  simp only [two] at hk
  split at hk
  · cases hk; exact ha
  · split at hk
    · cases hk; exact hb
    · cases hk

/-- User 1 sends a message of `n` bytes to user 2; it is left in the channel. -/
theorem run_publish (cap avail n next : Nat) (live : List (Nat × Nat)) (out : List Nat) (hn : n ≤ avail) (h0 : 0 < n)
    (hm : n ≤ Frame.maxMessageSize) :
    Run ⟨cap, avail, [], live, two { authed := true } { authed := true, outq := out }, next⟩
      [.header 1 n, .body 1, .take 1 [2] [], .send 1, .send 1]
      ⟨cap, avail - n, [], live ++ [(next, n)], two { authed := true } { authed := true, outq := out ++ [next] },
        next + 1⟩ := by
  refine .cons (.header _ 1 n _ rfl rfl hm hn) ?_
  simp only [upd_two_one]
  refine .cons (.body _ 1 _ next rfl rfl) ?_
  simp only [upd_two_one]
  refine .cons (.take _ 1 _ next [] n [2] [] rfl rfl rfl (by simp) h0 (by simp) (by simp)) ?_
  simp only [upd_two_one, dropAll_nil]
  refine .cons (.send _ 1 _ next 2 [] rfl rfl) ?_
  rw [upd_two_one, sendTo_two _ _ _ rfl rfl]
  refine .cons (.sent _ 1 _ next rfl rfl) ?_
  simp only [upd_two_one]
  exact .nil _

/-- Users 1 and 2 connect and log in. -/
theorem run_login (cap : Nat) (hc : 2 ≤ cap) :
    Run (start cap) [.connect 1, .connect 2, .header 1 1, .body 1, .take 1 [] [], .send 1, .header 2 1, .body 2,
        .take 2 [] [], .send 2, .free 0, .free 1]
      ⟨cap, cap, [], [], two { authed := true } { authed := true }, 2⟩ := by
  refine .cons (.connect _ 1 rfl) ?_
  refine .cons (.connect _ 2 rfl) ?_
  have e : upd (upd (start cap).conn 1 (some {})) 2 (some {}) = two {} {} := by
    funext x; simp only [upd, two, start]; repeat' split
    all_goals simp_all
  simp only [e]
  refine .cons (.header _ 1 1 _ rfl rfl (by decide) (by simp [start]; omega)) ?_
  simp only [upd_two_one]
  refine .cons (.body _ 1 _ _ rfl rfl) ?_
  simp only [upd_two_one]
  refine .cons (.take _ 1 _ 0 [] 1 [] [] rfl rfl rfl (by simp [start]) (by simp) (by simp) (by simp)) ?_
  simp only [upd_two_one, dropAll_nil]
  refine .cons (.sent _ 1 _ 0 rfl rfl) ?_
  simp only [upd_two_one]
  refine .cons (.header _ 2 1 _ rfl rfl (by decide) (by simp [start]; omega)) ?_
  simp only [upd_two_two]
  refine .cons (.body _ 2 _ _ rfl rfl) ?_
  simp only [upd_two_two]
  refine .cons (.take _ 2 _ 1 [] 1 [] [] rfl rfl rfl (by simp [start]) (by simp) (by simp) (by simp)) ?_
  simp only [upd_two_two, dropAll_nil]
  refine .cons (.sent _ 2 _ 1 rfl rfl) ?_
  simp only [upd_two_two]
  refine .cons (.free _ 0 1 [] [(1, 1)] (by simp [start]) (two_holds (by simp [Conn.holds]) (by simp [Conn.holds]))) ?_
  simp only [St.release, start, assign, List.map_nil, List.append_nil, List.nil_append]
  refine .cons (.free _ 1 1 [] [] rfl (two_holds (by simp [Conn.holds]) (by simp [Conn.holds]))) ?_
  simp only [St.release, assign, List.map_nil, List.append_nil]
  have e2 : cap - 1 - 1 + 1 + 1 = cap := by omega
  rw [e2]
  exact .nil _

/-- The steps of the example: two users log in; the first sends three messages of `a` bytes to the second, who reads
nothing, so that the first of them cannot be written within five seconds; then the first user starts to send a message of
`r` bytes. -/
def jam (a r : Nat) : List Label :=
  [.connect 1, .connect 2, .header 1 1, .body 1, .take 1 [] [], .send 1, .header 2 1, .body 2,
    .take 2 [] [], .send 2, .free 0, .free 1] ++
  ([.header 1 a, .body 1, .take 1 [2] [], .send 1, .send 1] ++
  ([.header 1 a, .body 1, .take 1 [2] [], .send 1, .send 1] ++
  ([.header 1 a, .body 1, .take 1 [2] [], .send 1, .send 1] ++
  [.writeFail 2, .free 2, .header 1 r])))

theorem run_jam (cap a r : Nat) (ha : 0 < a) (ham : a ≤ Frame.maxMessageSize) (hrm : r ≤ Frame.maxMessageSize)
    (h3 : 3 * a ≤ cap) (hr : cap < r + 2 * a) :
    Run (start cap) (jam a r) ⟨cap, 0, [⟨5, r, cap - 2 * a⟩], [(3, a), (4, a)],
      two { authed := true, phase := .waiting 5 } { authed := true, outq := [3, 4], writer := false }, 6⟩ := by
  refine (run_login cap (by omega)).append ((run_publish _ _ a _ _ _ (by omega) ha ham).append
    ((run_publish _ _ a _ _ _ (by omega) ha ham).append ((run_publish _ _ a _ _ _ (by omega) ha ham).append ?_)))
  simp only [List.nil_append, List.cons_append, Nat.reduceAdd]
  refine .cons (.writeFail _ 2 _ 2 [3, 4] rfl rfl rfl) ?_
  simp only [upd_two_two]
  refine .cons (.free _ 2 a [] [(3, a), (4, a)] rfl (two_holds (by simp [Conn.holds]) (by simp [Conn.holds]))) ?_
  simp only [St.release, assign, List.map_nil, List.append_nil, List.nil_append]
  have e : cap - a - a - a + a = cap - 2 * a := by omega
  rw [e]
  refine .cons (.wait _ 1 r _ rfl rfl hrm (by simp; omega)) ?_
  simp only [upd_two_one, List.nil_append]
  exact .nil _

theorem stuck_jam (cap a r : Nat) (hr : cap < r + 2 * a) :
    Stuck ⟨cap, 0, [⟨5, r, cap - 2 * a⟩], [(3, a), (4, a)],
      two { authed := true, phase := .waiting 5 } { authed := true, outq := [3, 4], writer := false }, 6⟩ 2 1 := by
  refine ⟨⟨⟨_, rfl, rfl⟩, ⟨_, _, _, rfl, rfl, rfl, ?_⟩, ?_⟩, ⟨_, rfl, rfl⟩⟩
  · simp [backlog, two_two, bytes]; omega
  · intro c k hk
    simp only [two] at hk
    split at hk
    · cases hk; exact ⟨rfl, rfl, .inr (.inr ⟨5, rfl, by simp⟩)⟩
    · split at hk
      · cases hk; exact ⟨rfl, rfl, .inl rfl⟩
      · cases hk

/-- **C82 is false.** Two users are enough, for any pool of at least three messages (`a` bytes each), and even if every
message is small enough for the pool: afterwards the broker handles no message of anybody, for ever, unless the user who
does not read does something or the operator intervenes. -/
theorem C82_false (cap a r : Nat) (ha : 0 < a) (ham : a ≤ Frame.maxMessageSize) (hrm : r ≤ Frame.maxMessageSize)
    (h3 : 3 * a ≤ cap) (hr : cap < r + 2 * a) :
    ∃ s, Run (start cap) (jam a r) s ∧ (∀ w ∈ s.queue, w.need = r) ∧
      ∀ ls s', Run s ls s' → (∀ l ∈ ls, LeftAlone 2 1 l) → ∀ c ds es, Label.take c ds es ∉ ls :=
  ⟨_, run_jam cap a r ha ham hrm h3 hr, by simp, fun ls s' hrun hla =>
    (C82_stuck_for_ever cap _ ls _ s' 2 1 (run_jam cap a r ha ham hrm h3 hr) (stuck_jam cap a r hr) hrun hla).1⟩

/-- The pool a broker has by default, 1 GiB (cdn-broker/src/binaries/broker.rs:66-72): three messages of 350 MB and one of 500 MB;
or (any other mix) smaller ones. -/
example : ∃ s, Run (start 1073741824) (jam 350000000 500000000) s ∧ (∀ w ∈ s.queue, w.need = 500000000) ∧
    ∀ ls s', Run s ls s' → (∀ l ∈ ls, LeftAlone 2 1 l) → ∀ c ds es, Label.take c ds es ∉ ls :=
  C82_false 1073741824 350000000 500000000 (by decide) (by decide) (by decide) (by decide) (by decide)

/-- What can still happen there: a third user connects and sends a header, and waits. -/
example : ∃ s ls s', Run (start 10) (jam 3 5) s ∧ Run s ls s' ∧ (∀ l ∈ ls, LeftAlone 2 1 l) ∧ ls ≠ [] := by
  refine ⟨_, [.connect 3, .header 3 1], _, run_jam 10 3 5 (by decide) (by decide) (by decide) (by decide) (by decide),
    .cons (.connect _ 3 rfl) (.cons (.wait _ 3 1 {} rfl rfl (by decide) (by decide)) (.nil _)), ?_, by simp⟩
  intro l hl
  simp only [List.mem_cons, List.not_mem_nil, or_false] at hl
  rcases hl with rfl | rfl
  · trivial
  · show (3 : Nat) ≠ 2; decide

/-- User 1 sends `j` messages of `a` bytes to user 2. -/
def publishes (a : Nat) : Nat → List Label
  | 0 => []
  | j + 1 => publishes a j ++ [.header 1 a, .body 1, .take 1 [2] [], .send 1, .send 1]

theorem run_publishes (cap a : Nat) (ha : 0 < a) (ham : a ≤ Frame.maxMessageSize) (j : Nat) (hj : j * a ≤ cap) :
    ∃ (live : List (Nat × Nat)) (out : List Nat) (next : Nat),
      Run ⟨cap, cap, [], [], two { authed := true } { authed := true }, 2⟩ (publishes a j)
        ⟨cap, cap - j * a, [], live, two { authed := true } { authed := true, outq := out }, next⟩ ∧
      bytes (live.filter (fun p => p.1 ∈ out)) = j * a ∧ (∀ p ∈ live, p.1 < next) ∧ ∀ m ∈ out, m < next := by
  induction j with
  | zero => exact ⟨[], [], 2, by simpa [publishes] using .nil _, by simp [bytes], by simp, by simp⟩
  | succ j ih =>
    have e : (j + 1) * a = j * a + a := by rw [Nat.succ_mul]
    obtain ⟨live, out, next, h1, h2, h3, h4⟩ := ih (by omega)
    refine ⟨live ++ [(next, a)], out ++ [next], next + 1, ?_, ?_, ?_, ?_⟩
    · have := h1.append (run_publish cap (cap - j * a) a next live out (by omega) ha ham)
      rw [Nat.sub_sub, ← e] at this
      exact this
    · have e1 : live.filter (fun p => decide (p.1 ∈ out ++ [next])) = live.filter (fun p => decide (p.1 ∈ out)) := by
        apply List.filter_congr
        intro p hp
        have := h3 p hp
        simp only [List.mem_append, List.mem_singleton, decide_eq_decide]
        constructor
        · rintro (h | h)
          · exact h
          · omega
        · exact .inl
      rw [List.filter_append, bytes_append, e1, h2]
      simp [bytes, e]
    · intro p hp
      rcases List.mem_append.1 hp with hp | hp
      · have := h3 p hp; omega
      · rw [List.mem_singleton.1 hp]; simp
    · intro m hm
      rcases List.mem_append.1 hm with hm | hm
      · have := h4 m hm; omega
      · rw [List.mem_singleton.1 hm]; omega

/-- **C82 is false for messages of every size.** If user 2 reads nothing, then after as many messages to them as fit into
the pool (`cap / a`, all of the same size `a`), the next message is stuck, and from then on no message of anybody is handled
until they read, close, or are removed. -/
theorem C82_false_every_size (cap a : Nat) (ha : 0 < a) (ham : a ≤ Frame.maxMessageSize) (hc : 2 ≤ cap) :
    ∃ ls0 s, Run (start cap) (ls0 ++ publishes a (cap / a) ++ [.header 1 a]) s ∧
      ∀ ls s', Run s ls s' → (∀ l ∈ ls, LeftAlone 2 1 l) → (∀ l ∈ ls, NotWritten 2 l) →
        ∀ c ds es, Label.take c ds es ∉ ls := by
  have hdm : cap / a * a ≤ cap := Nat.div_mul_le_self cap a
  have hlt : cap < cap / a * a + a := by
    have := Nat.lt_div_mul_add ha (a := cap)
    exact this
  obtain ⟨live, out, next, h1, h2, h3, h4⟩ := run_publishes cap a ha ham (cap / a) hdm
  have hrun := (run_login cap hc).append h1
  have hlast : Run ⟨cap, cap - cap / a * a, [], live, two { authed := true } { authed := true, outq := out }, next⟩
      [.header 1 a] ⟨cap, 0, [⟨next, a, cap - cap / a * a⟩], live,
        two { authed := true, phase := .waiting next } { authed := true, outq := out }, next + 1⟩ := by
    refine .cons (.wait _ 1 a _ rfl rfl ham (by simp; omega)) ?_
    simp only [upd_two_one, List.nil_append]
    exact .nil _
  have hall := hrun.append hlast
  refine ⟨_, _, hall, fun ls s' hr hl hw => ?_⟩
  refine (C82_stuck_while_unread cap _ ls _ s' 2 1 hall ?_ hr hl hw).1
  refine ⟨⟨_, rfl, rfl⟩, ⟨_, _, _, rfl, rfl, rfl, ?_⟩, ?_⟩
  · simp only [backlog, two_two, h2]; omega
  · intro c k hk
    simp only [two] at hk
    split at hk
    · cases hk
      refine ⟨rfl, rfl, .inr (.inr ⟨next, rfl, ?_⟩)⟩
      intro hm
      obtain ⟨p, e1, e2⟩ := List.mem_map.1 hm
      have := h3 p e1
      omega
    · split at hk
      · cases hk; exact ⟨rfl, rfl, .inl rfl⟩
      · cases hk

/-! ## When nobody is stuck -/

theorem need_step {s s' : St} {l : Label} (h : ∀ w ∈ s.queue, w.need ≤ Frame.maxMessageSize) (hs : Step s l s') :
    ∀ w ∈ s'.queue, w.need ≤ Frame.maxMessageSize := by
  have rel : ∀ (t : St) (k : Nat), (∀ w ∈ t.queue, w.need ≤ Frame.maxMessageSize) →
      ∀ w ∈ (t.release k).queue, w.need ≤ Frame.maxMessageSize := by
    intro t k ht
    have : ∀ (q : List Waiter) (k : Nat), (∀ w ∈ q, w.need ≤ Frame.maxMessageSize) →
        ∀ w ∈ (assign k q).2.1, w.need ≤ Frame.maxMessageSize := by
      intro q
      induction q with
      | nil => intro k _ w hw; simp [assign] at hw
      | cons x q ih =>
        intro k hx w hw
        simp only [assign] at hw
        split at hw
        · exact ih _ (fun w hw => hx w (by simp [hw])) w hw
        · rcases List.mem_cons.1 hw with rfl | hw
          · exact hx x (by simp)
          · exact hx w (by simp [hw])
    exact this _ _ ht
  cases hs with
  | wait c n k hk hph hn hlt =>
    intro w hw
    rcases List.mem_append.1 hw with hw | hw
    · exact h w hw
    · rw [List.mem_singleton.1 hw]; exact hn
  | free m n l1 l2 hlv hh => exact rel _ _ h
  | cancel w' q1 q2 hq hh =>
    refine rel _ _ ?_
    intro w hw
    refine h w ?_
    rw [hq]
    rcases List.mem_append.1 hw with hw | hw
    · exact List.mem_append_left _ hw
    · exact List.mem_append_right _ (List.mem_cons_of_mem _ hw)
  | _ => exact h

theorem need_run {s s' : St} {ls : List Label} (h : ∀ w ∈ s.queue, w.need ≤ Frame.maxMessageSize) (hs : Run s ls s') :
    ∀ w ∈ s'.queue, w.need ≤ Frame.maxMessageSize := by
  induction hs with
  | nil => exact h
  | cons hs _ ih => exact ih (need_step h hs)

/-- The steps of the broker itself, not of its peers or its operator. -/
def Own : Label → Prop
  | .connect _ | .header _ _ | .fail _ | .kick _ => False
  | _ => True

/-- **C82 (part).** A broker that has done all it can do: the messages that still have memory are in channels whose sender
task has ended. If those leave enough for a message of maximal size, then nobody waits for memory, and on every
connection everything that was received is handled, the next message can come, and everything to be written is written
(unless writing to that connection failed). -/
theorem C82_served_partial (n : Nat) (ls : List Label) (s : St)
    (hr : Run (start n) ls s) (hrest : ∀ l s', Own l → ¬ Step s l s') :
    (∀ p ∈ s.live, ∃ c k, s.conn c = some k ∧ k.writer = false ∧ p.1 ∈ k.outq) ∧
    (Frame.maxMessageSize + bytes s.live ≤ n →
      s.queue = [] ∧ s.avail + bytes s.live = n ∧
      ∀ c k, s.conn c = some k → k.phase = .header ∧ k.inq = [] ∧ k.fwd = none ∧ (k.writer = true → k.outq = [])) := by
  have hinv := inv_run (inv_start n) hr
  have hcap : s.cap = n := cap_run hr
  have hneed := need_run (s := start n) (by simp [start]) hr
  have hfwd : ∀ c k, s.conn c = some k → k.fwd = none := by
    intro c k hk
    cases hf : k.fwd with
    | none => rfl
    | some p =>
      obtain ⟨m, ds⟩ := p
      cases ds with
      | nil => exact False.elim <| hrest (.send c) _ trivial (.sent s c k m hk hf)
      | cons d ds => exact False.elim <| hrest (.send c) _ trivial (.send s c k m d ds hk hf)
  have hinq : ∀ c k, s.conn c = some k → k.inq = [] := by
    intro c k hk
    cases hi : k.inq with
    | nil => rfl
    | cons m q => exact False.elim <| hrest (.bad c) _ trivial (.bad s c k m q hk (hfwd c k hk) hi)
  have hout : ∀ c k, s.conn c = some k → k.writer = true → k.outq = [] := by
    intro c k hk hw
    cases ho : k.outq with
    | nil => rfl
    | cons m q => exact False.elim <| hrest (.written c m) _ trivial (.written s c k m q hk hw ho)
  have hbody : ∀ c k m, s.conn c = some k → k.phase ≠ .body m := by
    intro c k m hk hp
    exact hrest (.body c) _ trivial (.body s c k m hk hp)
  have hwait : ∀ c k m, s.conn c = some k → k.phase = .waiting m → m ∉ s.live.map Prod.fst := by
    intro c k m hk hp hm
    exact hrest (.granted c) _ trivial (.granted s c k m hk hp hm)
  refine ⟨?_, fun hfit => ?_⟩
  · intro p hp
    obtain ⟨l1, l2, hl⟩ := List.append_of_mem hp
    obtain ⟨m, x⟩ := p
    apply Classical.byContradiction
    intro hno
    refine hrest (.free m) _ trivial (.free s m x l1 l2 hl ?_)
    intro c k hk hh
    rcases hh with hh | hh | hh | ⟨ds, hh⟩ | hh
    · exact hwait c k m hk hh (by rw [hl]; simp)
    · exact hbody c k m hk hh
    · rw [hinq c k hk] at hh; simp at hh
    · rw [hfwd c k hk] at hh; cases hh
    · refine hno ⟨c, k, hk, ?_, hh⟩
      cases hw : k.writer with
      | false => rfl
      | true => rw [hout c k hk hw] at hh; simp at hh
  have hq : s.queue = [] := by
    cases hq : s.queue with
    | nil => rfl
    | cons w q =>
      have h0 := hinv.wait0 (by rw [hq]; simp)
      have h1 := hinv.need w (by rw [hq]; simp)
      have h2 := hneed w (by rw [hq]; simp)
      have h3 := hinv.conserve
      have h4 : sumGot q = 0 := by
        have := hinv.tail0
        rw [hq] at this
        simp only [List.tail_cons] at this
        clear hq
        induction q with
        | nil => rfl
        | cons x q ih =>
          have e1 := this x (by simp)
          have e2 := ih (fun w hw => this w (by simp [hw]))
          simp only [sumGot, List.map_cons, List.sum_cons] at e2 ⊢
          omega
      rw [hq] at h3
      simp only [sumGot, List.map_cons, List.sum_cons] at h3 h4
      omega
  refine ⟨hq, ?_, fun c k hk => ⟨?_, hinq c k hk, hfwd c k hk, hout c k hk⟩⟩
  · have h3 := hinv.conserve
    rw [hq] at h3
    simp only [sumGot, List.map_nil, List.sum_nil] at h3
    omega
  · cases hp : k.phase with
    | header => rfl
    | waiting m =>
      rcases hinv.waits c k m hk hp with h1 | h1
      · exact absurd h1 (hwait c k m hk hp)
      · rw [hq] at h1; simp at h1
    | body m => exact absurd hp (hbody c k m hk)
    | ended =>
      exact False.elim <| hrest (.noMore c) _ trivial (.noMore s c k hk (hfwd c k hk) (hinq c k hk) hp)

/-- In particular: if no sender task has ended and left messages, and the pool has room for a message of maximal size, then
all memory is free again and nobody waits. -/
theorem C82_all_served_partial (n : Nat) (ls : List Label) (s : St) (hn : Frame.maxMessageSize ≤ n)
    (hr : Run (start n) ls s) (hrest : ∀ l s', Own l → ¬ Step s l s')
    (hd : ∀ c k, s.conn c = some k → k.writer = false → k.outq = []) :
    s.avail = n ∧ s.queue = [] ∧ s.live = [] ∧
      ∀ c k, s.conn c = some k → k.phase = .header ∧ k.inq = [] ∧ k.fwd = none ∧ k.outq = [] := by
  obtain ⟨h1, h2⟩ := C82_served_partial n ls s hr hrest
  have hlive : s.live = [] := by
    cases hl : s.live with
    | nil => rfl
    | cons p l =>
      obtain ⟨c, k, e1, e2, e3⟩ := h1 p (by rw [hl]; simp)
      rw [hd c k e1 e2] at e3
      simp at e3
  obtain ⟨e1, e2, e3⟩ := h2 (by simpa [hlive, bytes] using hn)
  refine ⟨by simpa [hlive, bytes] using e2, e1, hlive, fun c k hk => ?_⟩
  obtain ⟨f1, f2, f3, f4⟩ := e3 c k hk
  refine ⟨f1, f2, f3, ?_⟩
  cases hw : k.writer with
  | true => exact f4 hw
  | false => exact hd c k hk hw

/-- Such a state: two users have logged in, at a broker with the pool it has by default. -/
example : ∃ ls s, Run (start 1073741824) ls s ∧ (∀ l s', Own l → ¬ Step s l s') ∧ Frame.maxMessageSize ≤ 1073741824 ∧
    (∃ k, s.conn 1 = some k) ∧ ∀ c k, s.conn c = some k → k.writer = false → k.outq = [] := by
  have htwo : ∀ c k, two { authed := true } { authed := true } c = some k → k = { authed := true } := by
    intro c k hk
    simp only [two] at hk
    split at hk
    · cases hk; rfl
    · split at hk
      · cases hk; rfl
      · cases hk
  refine ⟨_, _, run_login 1073741824 (by decide), ?_, by decide, ⟨_, rfl⟩, ?_⟩
  · intro l s' hl hs
    cases hs with
    | connect | header | wait | fail | kick => exact hl
    | granted c k m hk h1 h2 => cases htwo c k hk; cases h1
    | body c k m hk h1 => cases htwo c k hk; cases h1
    | take c k m q n ds es hk h1 h2 => cases htwo c k hk; cases h2
    | bad c k m q hk h1 h2 => cases htwo c k hk; cases h2
    | send c k m d ds hk h1 => cases htwo c k hk; cases h1
    | sent c k m hk h1 => cases htwo c k hk; cases h1
    | noMore c k hk h1 h2 h3 => cases htwo c k hk; cases h3
    | written c k m q hk h1 h2 => cases htwo c k hk; cases h2
    | writeFail c k m q hk h1 h2 => cases htwo c k hk; cases h2
    | free m n l1 l2 h1 => simp at h1
    | cancel w q1 q2 h1 => simp at h1
  · intro c k hk h1
    cases htwo c k hk; cases h1

/-! ### It gets there -/

/-- The connections of the state are among `cs`. -/
def Covers (cs : List Nat) (s : St) : Prop := ∀ c, s.conn c ≠ none → c ∈ cs

def val (g : Conn → Nat) (f : Nat → Option Conn) (c : Nat) : Nat :=
  match f c with
  | some k => g k
  | none => 0

def tot (g : Conn → Nat) (f : Nat → Option Conn) (cs : List Nat) : Nat := (cs.map (val g f)).sum

theorem tot_le {g : Conn → Nat} {f f' : Nat → Option Conn} {cs : List Nat} (h : ∀ c, val g f' c ≤ val g f c) :
    tot g f' cs ≤ tot g f cs := by
  induction cs with
  | nil => simp [tot]
  | cons c cs ih =>
    have := h c
    simp only [tot, List.map_cons, List.sum_cons] at ih ⊢
    omega

theorem tot_lt {g : Conn → Nat} {f f' : Nat → Option Conn} {cs : List Nat} (h : ∀ c, val g f' c ≤ val g f c)
    {c : Nat} (hc : c ∈ cs) (hlt : val g f' c < val g f c) : tot g f' cs < tot g f cs := by
  induction cs with
  | nil => simp at hc
  | cons x cs ih =>
    have hx := h x
    have hle : tot g f' cs ≤ tot g f cs := tot_le h
    rcases List.mem_cons.1 hc with rfl | hc
    · simp only [tot, List.map_cons, List.sum_cons] at hle ⊢; omega
    · have := ih hc
      simp only [tot, List.map_cons, List.sum_cons] at this ⊢; omega

/-- What is left to do for the receiver task. -/
def wIn (k : Conn) : Nat :=
  1 + k.inq.length + match k.phase with
    | .header => 2
    | .waiting _ => 5
    | .body _ => 4
    | .ended => 1

/-- For the receive loop. -/
def wFwd (k : Conn) : Nat :=
  match k.fwd with
  | some (_, ds) => ds.length + 1
  | none => 0

/-- For the sender task. -/
def wOut (k : Conn) : Nat := k.outq.length

theorem val_upd (g : Conn → Nat) (f : Nat → Option Conn) (c x : Nat) (o : Option Conn) :
    val g (upd f c o) x = if x = c then (match o with | some k => g k | none => 0) else val g f x := by
  unfold val upd
  by_cases h : x = c <;> simp [h]

theorem val_some {g : Conn → Nat} {f : Nat → Option Conn} {c : Nat} {k : Conn} (h : f c = some k) : val g f c = g k := by
  simp [val, h]

theorem val_upd_le {g : Conn → Nat} {f : Nat → Option Conn} {c : Nat} {k k' : Conn} (h : f c = some k)
    (hg : g k' ≤ g k) : ∀ x, val g (upd f c (some k')) x ≤ val g f x := by
  intro x
  rw [val_upd]
  split
  · rename_i e; rw [e, val_some h]; exact hg
  · exact Nat.le_refl _

theorem val_upd_none {g : Conn → Nat} {f : Nat → Option Conn} {c : Nat} : ∀ x, val g (upd f c none) x ≤ val g f x := by
  intro x
  rw [val_upd]
  split
  · exact Nat.zero_le _
  · exact Nat.le_refl _

theorem val_drop {g : Conn → Nat} {f : Nat → Option Conn} {es : List Nat} : ∀ x, val g (dropAll f es) x ≤ val g f x := by
  intro x
  unfold val dropAll
  by_cases h : x ∈ es <;> simp [h]

theorem val_send {g : Conn → Nat} (hg : ∀ k m, g { k with outq := k.outq ++ [m] } = g k) {f : Nat → Option Conn}
    {m d : Nat} : ∀ x, val g (sendTo f m d) x ≤ val g f x := by
  intro x
  unfold sendTo
  cases hd : f d with
  | none => exact Nat.le_refl _
  | some k =>
    simp only
    split
    · split
      · exact val_upd_le hd (Nat.le_of_eq (hg k m)) x
      · exact val_upd_none x
    · exact Nat.le_refl _

/-- The number of messages that have memory or wait for it. -/
def wPool (s : St) : Nat := s.live.length + s.queue.length

theorem assign_length (k : Nat) (q : List Waiter) :
    (assign k q).2.1.length + (assign k q).2.2.length = q.length := by
  induction q generalizing k with
  | nil => simp [assign]
  | cons w q ih =>
    simp only [assign]
    split
    · simp only [List.length_cons]
      have := ih (k - (w.need - w.got))
      omega
    · simp

theorem wPool_release (s : St) (k : Nat) : wPool (s.release k) = wPool s := by
  have := assign_length k s.queue
  simp only [wPool, St.release, List.length_append, List.length_map]
  omega

/-- Every step but a new connection or a new message makes less of what is left to do. -/
theorem step_less {s s' : St} {l : Label} {cs : List Nat} (hcs : Covers cs s) (hs : Step s l s')
    (h1 : ∀ c, l ≠ .connect c) (h2 : ∀ c n, l ≠ .header c n) :
    Covers cs s' ∧
    (tot wIn s'.conn cs < tot wIn s.conn cs ∨
     tot wIn s'.conn cs ≤ tot wIn s.conn cs ∧
      (tot wFwd s'.conn cs < tot wFwd s.conn cs ∨
       tot wFwd s'.conn cs ≤ tot wFwd s.conn cs ∧
        (tot wOut s'.conn cs < tot wOut s.conn cs ∨
         tot wOut s'.conn cs ≤ tot wOut s.conn cs ∧ wPool s' < wPool s))) := by
  have cov : ∀ (c : Nat) (k : Conn) (o : Option Conn), s.conn c = some k → ∀ x, upd s.conn c o x ≠ none → x ∈ cs := by
    intro c k o hk x hx
    by_cases e : x = c
    · rw [e]; exact hcs c (by rw [hk]; simp)
    · rw [upd_ne e] at hx; exact hcs x hx
  have mem : ∀ (c : Nat) (k : Conn), s.conn c = some k → c ∈ cs := fun c k hk => hcs c (by rw [hk]; simp)
  cases hs with
  | connect c hc => exact absurd rfl (h1 c)
  | header c n k hk hph hn hle => exact absurd rfl (h2 c n)
  | wait c n k hk hph hn hle => exact absurd rfl (h2 c n)
  | granted c k m hk hph hm =>
    have hlt : wIn { k with phase := .body m } < wIn k := by simp [wIn, hph]
    exact ⟨cov c k _ hk, .inl (tot_lt (val_upd_le hk (Nat.le_of_lt hlt)) (mem c k hk)
      (by rw [val_some upd_eq, val_some hk]; exact hlt))⟩
  | body c k m hk hph =>
    have hlt : wIn { k with phase := .header, inq := k.inq ++ [m] } < wIn k := by simp [wIn, hph]; omega
    exact ⟨cov c k _ hk, .inl (tot_lt (val_upd_le hk (Nat.le_of_lt hlt)) (mem c k hk)
      (by rw [val_some upd_eq, val_some hk]; exact hlt))⟩
  | fail c k hk hph =>
    have hlt : wIn { k with phase := .ended } < wIn k := by
      rcases hph with hph | ⟨m, hph⟩ <;> simp [wIn, hph]
    exact ⟨cov c k _ hk, .inl (tot_lt (val_upd_le hk (Nat.le_of_lt hlt)) (mem c k hk)
      (by rw [val_some upd_eq, val_some hk]; exact hlt))⟩
  | take c k m q n ds es hk hf hin hm hn ha hc =>
    have hlt : wIn { k with authed := true, inq := q, fwd := some (m, ds) } < wIn k := by simp [wIn, hin]
    refine ⟨?_, .inl (Nat.lt_of_le_of_lt (tot_le val_drop) (tot_lt (val_upd_le hk (Nat.le_of_lt hlt)) (mem c k hk)
      (by rw [val_some upd_eq, val_some hk]; exact hlt)))⟩
    intro x hx
    refine cov c k (some { k with authed := true, inq := q, fwd := some (m, ds) }) hk x ?_
    intro e
    apply hx
    simp only [dropAll, e]
    split <;> rfl
  | bad c k m q hk hf hin =>
    exact ⟨cov c k _ hk, .inl (tot_lt val_upd_none (mem c k hk)
      (by rw [val_upd, if_pos rfl, val_some hk]; simp [wIn]; omega))⟩
  | send c k m d ds hk hf =>
    have hlt : wFwd { k with fwd := some (m, ds) } < wFwd k := by simp [wFwd, hf]
    refine ⟨?_, .inr ⟨Nat.le_trans (tot_le (val_send (fun _ _ => rfl))) (tot_le (val_upd_le hk (Nat.le_refl _))),
      .inl (Nat.lt_of_le_of_lt (tot_le (val_send (fun _ _ => rfl))) (tot_lt (val_upd_le hk (Nat.le_of_lt hlt))
        (mem c k hk) (by rw [val_some upd_eq, val_some hk]; exact hlt)))⟩⟩
    intro x hx
    simp only at hx
    cases hx' : sendTo (upd s.conn c (some { k with fwd := some (m, ds) })) m d x with
    | none => exact absurd hx' hx
    | some k' =>
      obtain ⟨k'', h3, _⟩ := sendTo_some hx'
      exact cov c k (some { k with fwd := some (m, ds) }) hk x (by rw [h3]; simp)
  | sent c k m hk hf =>
    have hlt : wFwd { k with fwd := none } < wFwd k := by simp [wFwd, hf]
    exact ⟨cov c k _ hk, .inr ⟨tot_le (val_upd_le hk (Nat.le_refl _)), .inl (tot_lt (val_upd_le hk (Nat.le_of_lt hlt))
        (mem c k hk) (by rw [val_some upd_eq, val_some hk]; exact hlt))⟩⟩
  | noMore c k hk hf hin hph =>
    exact ⟨cov c k _ hk, .inl (tot_lt val_upd_none (mem c k hk)
      (by rw [val_upd, if_pos rfl, val_some hk]; simp [wIn]; omega))⟩
  | written c k m q hk hwr ho =>
    have hlt : wOut { k with outq := q } < wOut k := by simp [wOut, ho]
    exact ⟨cov c k _ hk, .inr ⟨tot_le (val_upd_le hk (Nat.le_refl _)), .inr ⟨tot_le (val_upd_le hk (Nat.le_refl _)),
      .inl (tot_lt (val_upd_le hk (Nat.le_of_lt hlt)) (mem c k hk)
        (by rw [val_some upd_eq, val_some hk]; exact hlt))⟩⟩⟩
  | writeFail c k m q hk hwr ho =>
    have hlt : wOut { k with outq := q, writer := false } < wOut k := by simp [wOut, ho]
    exact ⟨cov c k _ hk, .inr ⟨tot_le (val_upd_le hk (Nat.le_refl _)), .inr ⟨tot_le (val_upd_le hk (Nat.le_refl _)),
      .inl (tot_lt (val_upd_le hk (Nat.le_of_lt hlt)) (mem c k hk)
        (by rw [val_some upd_eq, val_some hk]; exact hlt))⟩⟩⟩
  | kick c k hk =>
    exact ⟨cov c k _ hk, .inl (tot_lt val_upd_none (mem c k hk)
      (by rw [val_upd, if_pos rfl, val_some hk]; simp [wIn]; omega))⟩
  | free m n l1 l2 hlv hh =>
    refine ⟨hcs, .inr ⟨Nat.le_refl _, .inr ⟨Nat.le_refl _, .inr ⟨Nat.le_refl _, ?_⟩⟩⟩⟩
    rw [wPool_release]
    simp [wPool, hlv]
  | cancel w q1 q2 hq hh =>
    refine ⟨hcs, .inr ⟨Nat.le_refl _, .inr ⟨Nat.le_refl _, .inr ⟨Nat.le_refl _, ?_⟩⟩⟩⟩
    rw [wPool_release]
    simp [wPool, hq]

theorem lex_of {a a' b b' c c' d d' : Nat}
    (h : a' < a ∨ a' ≤ a ∧ (b' < b ∨ b' ≤ b ∧ (c' < c ∨ c' ≤ c ∧ d' < d))) :
    Prod.Lex (· < ·) (Prod.Lex (· < ·) (Prod.Lex (· < ·) (· < ·))) (a', b', c', d') (a, b, c, d) := by
  by_cases ha : a' < a
  · exact .left _ _ ha
  · obtain rfl : a' = a := by omega
    refine .right _ ?_
    by_cases hb : b' < b
    · exact .left _ _ hb
    · obtain rfl : b' = b := by omega
      refine .right _ ?_
      by_cases hc : c' < c
      · exact .left _ _ hc
      · obtain rfl : c' = c := by omega
        refine .right _ ?_
        omega

/-- A step that is no new connection and no new message. -/
def Goes (s' s : St) : Prop := ∃ l, Step s l s' ∧ (∀ c, l ≠ .connect c) ∧ ∀ c n, l ≠ .header c n

theorem goes_acc (cs : List Nat) (s : St) (hcs : Covers cs s) : Acc Goes s :=
  .intro s fun s' h => goes_acc cs s' (by
    obtain ⟨l, h1, h2, h3⟩ := h
    exact (step_less hcs h1 h2 h3).1)
termination_by (tot wIn s.conn cs, tot wFwd s.conn cs, tot wOut s.conn cs, wPool s)
decreasing_by
  obtain ⟨l, h1, h2, h3⟩ := h
  exact lex_of (step_less hcs h1 h2 h3).2

theorem covers_run {s s' : St} {ls : List Label} (hr : Run s ls s') (h : ∃ cs, Covers cs s) : ∃ cs, Covers cs s' := by
  induction hr with
  | nil => exact h
  | cons hs _ ih =>
    refine ih ?_
    obtain ⟨cs, hcs⟩ := h
    have upd' : ∀ {s0 : St} (c : Nat) (o : Option Conn), Covers cs s0 → Covers (c :: cs) { s0 with conn := upd s0.conn c o } := by
      intro s0 c o h0 x hx
      by_cases e : x = c
      · simp [e]
      · simp only [upd_ne e] at hx; exact List.mem_cons_of_mem _ (h0 x hx)
    cases hs with
    | connect c hc => exact ⟨_, upd' c _ hcs⟩
    | header c n k hk hph hn hle => exact ⟨_, fun x hx => upd' c (some { k with phase := _ }) hcs x hx⟩
    | wait c n k hk hph hn hle => exact ⟨_, fun x hx => upd' c (some { k with phase := _ }) hcs x hx⟩
    | granted c k m hk hph hm => exact ⟨cs, (step_less hcs (.granted _ c k m hk hph hm) (by simp) (by simp)).1⟩
    | body c k m hk hph => exact ⟨cs, (step_less hcs (.body _ c k m hk hph) (by simp) (by simp)).1⟩
    | fail c k hk hph => exact ⟨cs, (step_less hcs (.fail _ c k hk hph) (by simp) (by simp)).1⟩
    | take c k m q n ds es hk hf hin hm hn ha hc =>
      exact ⟨cs, (step_less hcs (.take _ c k m q n ds es hk hf hin hm hn ha hc) (by simp) (by simp)).1⟩
    | bad c k m q hk hf hin => exact ⟨cs, (step_less hcs (.bad _ c k m q hk hf hin) (by simp) (by simp)).1⟩
    | send c k m d ds hk hf => exact ⟨cs, (step_less hcs (.send _ c k m d ds hk hf) (by simp) (by simp)).1⟩
    | sent c k m hk hf => exact ⟨cs, (step_less hcs (.sent _ c k m hk hf) (by simp) (by simp)).1⟩
    | noMore c k hk hf hin hph => exact ⟨cs, (step_less hcs (.noMore _ c k hk hf hin hph) (by simp) (by simp)).1⟩
    | written c k m q hk hwr ho => exact ⟨cs, (step_less hcs (.written _ c k m q hk hwr ho) (by simp) (by simp)).1⟩
    | writeFail c k m q hk hwr ho => exact ⟨cs, (step_less hcs (.writeFail _ c k m q hk hwr ho) (by simp) (by simp)).1⟩
    | kick c k hk => exact ⟨cs, (step_less hcs (.kick _ c k hk) (by simp) (by simp)).1⟩
    | free m n l1 l2 hlv hh => exact ⟨cs, hcs⟩
    | cancel w q1 q2 hq hh => exact ⟨cs, hcs⟩

/-- **C82 (part): it gets there.** A broker to which nobody connects and nobody sends anything more cannot go on for ever
with what it has. -/
theorem C82_comes_to_rest (n : Nat) (ls : List Label) (s : St) (hr : Run (start n) ls s) : Acc Goes s := by
  obtain ⟨cs, hcs⟩ := covers_run hr ⟨[], fun c h => absurd rfl h⟩
  exact goes_acc cs s hcs

/-- So it reaches a state in which it has done all it can do, to which `C82_served_partial` applies. -/
theorem C82_reaches_rest (n : Nat) (ls : List Label) (s : St) (hr : Run (start n) ls s) :
    ∃ ls' s', Run s ls' s' ∧ (∀ l ∈ ls', Own l) ∧ ∀ l s'', Own l → ¬ Step s' l s'' := by
  have hacc := C82_comes_to_rest n ls s hr
  clear hr
  induction hacc with
  | intro s _ ih =>
    by_cases h : ∃ l s', Own l ∧ Step s l s'
    · obtain ⟨l, s', h1, h2⟩ := h
      obtain ⟨ls', s'', h3, h4, h5⟩ := ih s' ⟨l, h2, by rintro c rfl; exact h1, by rintro c n rfl; exact h1⟩
      refine ⟨l :: ls', s'', .cons h2 h3, ?_, h5⟩
      intro x hx
      rcases List.mem_cons.1 hx with rfl | hx
      · exact h1
      · exact h4 x hx
    · exact ⟨[], s, .nil _, by simp, fun l s'' h1 h2 => h ⟨l, s'', h1, h2⟩⟩

/-! ### What frees the memory -/

/-- Either `d` is gone, or `c` (if it still is there) still has to send to `d`. -/
def Due (c d : Nat) (s : St) : Prop :=
  s.conn d = none ∨
    ((∃ k, s.conn d = some k ∧ k.writer = false ∧ k.authed = true) ∧
      ∀ k, s.conn c = some k → ∃ m ds, k.fwd = some (m, ds) ∧ d ∈ ds)

theorem Due.conn {c d : Nat} {s : St} (h : Due c d s) (s' : St)
    (hd : ∀ k', s'.conn d = some k' → ∃ k, s.conn d = some k ∧
      (k.writer = false → k'.writer = false) ∧ (k.authed = true → k'.authed = true))
    (hc : ∀ k', s'.conn c = some k' → ∃ k, s.conn c = some k ∧ ∀ p, k.fwd = some p → k'.fwd = some p) : Due c d s' := by
  cases hd' : s'.conn d with
  | none => exact .inl hd'
  | some k' =>
    obtain ⟨k, e1, e2, e3⟩ := hd k' hd'
    rcases h with h | ⟨⟨k2, f1, f2, f3⟩, h⟩
    · rw [h] at e1; cases e1
    · rw [e1] at f1; cases f1
      refine .inr ⟨⟨k', hd', e2 f2, e3 f3⟩, fun k'' hk'' => ?_⟩
      obtain ⟨k3, g1, g2⟩ := hc k'' hk''
      obtain ⟨m, ds, g3, g4⟩ := h k3 g1
      exact ⟨m, ds, g2 _ g3, g4⟩

theorem due_step {c d : Nat} {s s' : St} {l : Label} (h : Due c d s) (hs : Step s l s') (h1 : l ≠ .connect c)
    (h2 : l ≠ .connect d) : Due c d s' := by
  -- a step that changes one connection and nothing of what matters here
  have key : ∀ (x : Nat) (k : Conn) (o : Option Conn), s.conn x = some k →
      (∀ k', o = some k' → (k.writer = false → k'.writer = false) ∧ (k.authed = true → k'.authed = true) ∧
        ∀ p, k.fwd = some p → k'.fwd = some p) → ∀ t : St, t.conn = upd s.conn x o → Due c d t := by
    intro x k o hx ho t ht
    have gen : ∀ y k', t.conn y = some k' → ∃ k, s.conn y = some k ∧ (k.writer = false → k'.writer = false) ∧
        (k.authed = true → k'.authed = true) ∧ ∀ p, k.fwd = some p → k'.fwd = some p := by
      intro y k' hy
      rw [ht] at hy
      rcases upd_some hy with ⟨rfl, e⟩ | ⟨_, e⟩
      · exact ⟨k, hx, ho k' e⟩
      · exact ⟨k', e, id, id, fun _ => id⟩
    refine h.conn t (fun k' hk' => ?_) (fun k' hk' => ?_)
    · obtain ⟨k, e1, e2, e3, e4⟩ := gen d k' hk'; exact ⟨k, e1, e2, e3⟩
    · obtain ⟨k, e1, e2, e3, e4⟩ := gen c k' hk'; exact ⟨k, e1, e4⟩
  cases hs with
  | connect x hx =>
    have hxc : c ≠ x := fun e => h1 (by rw [e])
    have hxd : d ≠ x := fun e => h2 (by rw [e])
    exact h.conn _ (fun k' hk' => ⟨k', by simpa [upd_ne hxd] using hk', id, id⟩)
      (fun k' hk' => ⟨k', by simpa [upd_ne hxc] using hk', fun _ => id⟩)
  | header x n k hk hph hn hle => exact key x k _ hk (by rintro k' ⟨⟩; exact ⟨id, id, fun _ => id⟩) _ rfl
  | wait x n k hk hph hn hle => exact key x k _ hk (by rintro k' ⟨⟩; exact ⟨id, id, fun _ => id⟩) _ rfl
  | granted x k m hk hph hm => exact key x k _ hk (by rintro k' ⟨⟩; exact ⟨id, id, fun _ => id⟩) _ rfl
  | body x k m hk hph => exact key x k _ hk (by rintro k' ⟨⟩; exact ⟨id, id, fun _ => id⟩) _ rfl
  | fail x k hk hph => exact key x k _ hk (by rintro k' ⟨⟩; exact ⟨id, id, fun _ => id⟩) _ rfl
  | take x k m q n ds es hk hf hin hm hn ha hc =>
    have h3 := key x k (some { k with authed := true, inq := q, fwd := some (m, ds) }) hk
      (by rintro k' ⟨⟩; exact ⟨id, fun _ => rfl, by rw [hf]; simp⟩) { s with conn := upd s.conn x _ } rfl
    exact h3.conn _ (fun k' hk' => ⟨k', (dropAll_some hk').2, id, id⟩) (fun k' hk' => ⟨k', (dropAll_some hk').2, fun _ => id⟩)
  | bad x k m q hk hf hin => exact key x k _ hk (by rintro k' ⟨⟩) _ rfl
  | send x k m d' ds hk hf =>
    show Due c d { s with conn := sendTo (upd s.conn x (some { k with fwd := some (m, ds) })) m d' }
    cases hd' : sendTo (upd s.conn x (some { k with fwd := some (m, ds) })) m d' d with
    | none => exact .inl hd'
    | some kd =>
      -- `d` is there afterwards, so it was there and the message did not go there
      obtain ⟨kd', e1, e2⟩ := sendTo_some hd'
      have hd0 : ∃ k2, s.conn d = some k2 ∧ k2.writer = kd'.writer ∧ k2.authed = kd'.authed := by
        rcases upd_some e1 with ⟨rfl, e⟩ | ⟨_, e⟩
        · cases e; exact ⟨k, hk, rfl, rfl⟩
        · exact ⟨kd', e, rfl, rfl⟩
      obtain ⟨k2, g1, g2, g3⟩ := hd0
      rcases h with h | ⟨⟨k3, f1, f2, f3⟩, h⟩
      · rw [h] at g1; cases g1
      · rw [g1] at f1; cases f1
        rw [f2] at g2; rw [f3] at g3
        have hne : d' ≠ d := by
          rintro rfl
          unfold sendTo at hd'
          rw [e1] at hd'
          simp only [← g2, ← g3, if_true, Bool.false_eq_true, if_false, upd_eq] at hd'
          cases hd'
        have hkd : kd = kd' := by
          rcases e2 with e2 | ⟨e2, _⟩
          · exact e2
          · exact absurd e2.symm hne
        refine .inr ⟨⟨kd, hd', by rw [hkd, ← g2], by rw [hkd, ← g3]⟩, fun kc hkc => ?_⟩
        obtain ⟨kc', i1, i2⟩ := sendTo_some hkc
        have hfw : kc.fwd = kc'.fwd := by
          rcases i2 with i2 | ⟨_, _, _, i2⟩ <;> rw [i2]
        rcases upd_some i1 with ⟨rfl, e⟩ | ⟨_, e⟩
        · cases e
          obtain ⟨m', ds', j1, j2⟩ := h k hk
          rw [hf] at j1
          simp only [Option.some.injEq, Prod.mk.injEq] at j1
          obtain ⟨rfl, rfl⟩ := j1
          rcases List.mem_cons.1 j2 with j2 | j2
          · exact absurd j2.symm hne
          · exact ⟨m, ds, by rw [hfw], j2⟩
        · obtain ⟨m', ds', j1, j2⟩ := h kc' e
          exact ⟨m', ds', by rw [hfw]; exact j1, j2⟩
  | sent x k m hk hf =>
    by_cases hx : c = x
    · subst hx
      rcases h with h | ⟨_, h⟩
      · refine .inl ?_
        have : d ≠ c := by rintro rfl; rw [h] at hk; cases hk
        simpa [upd_ne this] using h
      · obtain ⟨m', ds', j1, j2⟩ := h k hk
        rw [hf] at j1
        simp only [Option.some.injEq, Prod.mk.injEq] at j1
        rw [← j1.2] at j2
        simp at j2
    · refine h.conn _ (fun k' hk' => ?_) (fun k' hk' => ⟨k', by simpa [upd_ne hx] using hk', fun _ => id⟩)
      rcases upd_some hk' with ⟨rfl, e⟩ | ⟨_, e⟩
      · cases e; exact ⟨k, hk, id, id⟩
      · exact ⟨k', e, id, id⟩
  | noMore x k hk hf hin hph => exact key x k _ hk (by rintro k' ⟨⟩) _ rfl
  | written x k m q hk hwr ho => exact key x k _ hk (by rintro k' ⟨⟩; exact ⟨id, id, fun _ => id⟩) _ rfl
  | writeFail x k m q hk hwr ho => exact key x k _ hk (by rintro k' ⟨⟩; exact ⟨fun _ => rfl, id, fun _ => id⟩) _ rfl
  | kick x k hk => exact key x k _ hk (by rintro k' ⟨⟩) _ rfl
  | free m n l1 l2 hlv hh => exact h
  | cancel w q1 q2 hq hh => exact h

/-- **C82 (part): the next message to that peer frees the memory.** If a message is handled that has among its destinations a
peer to which writing has failed, then, when the sender of the message has finished with it, that connection is gone (and
with it its channel: `C82_served_partial` says where memory can still be at rest). -/
theorem C82_next_send_removes_partial (s s' : St) (c d : Nat) (ds es : List Nat) (ls : List Label) (kd kc : Conn)
    (hd : s.conn d = some kd) (hw : kd.writer = false) (ha : kd.authed = true) (hmem : d ∈ ds)
    (hr : Run s (.take c ds es :: ls) s') (h1 : Label.connect c ∉ ls) (h2 : Label.connect d ∉ ls)
    (hc : s'.conn c = some kc) (hf : kc.fwd = none) : s'.conn d = none := by
  have hdue : ∀ (ls : List Label) (t t' : St), Run t ls t' → Label.connect c ∉ ls → Label.connect d ∉ ls → Due c d t →
      Due c d t' := by
    intro ls t t' hrun
    induction hrun with
    | nil => intro _ _ h; exact h
    | cons hs _ ih =>
      intro h1 h2 h
      exact ih (fun e => h1 (by simp [e])) (fun e => h2 (by simp [e]))
        (due_step h hs (fun e => h1 (by simp [e])) (fun e => h2 (by simp [e])))
  cases hr with
  | cons hs hr =>
    refine (hdue ls _ s' hr h1 h2 ?_).elim id ?_
    · cases hs with
      | take _ k m q n _ _ hk hf' hin hm hn hau hces =>
        by_cases hde : d ∈ es
        · exact .inl (by simp [dropAll, hde])
        · refine .inr ⟨?_, ?_⟩
          · by_cases e : d = c
            · subst e
              rw [hd] at hk; cases hk
              exact ⟨{ kd with authed := true, inq := q, fwd := some (m, ds) },
                by simp only [dropAll, hde, if_false, upd_eq], hw, rfl⟩
            · exact ⟨kd, by simp only [dropAll, hde, if_false, upd_ne e]; exact hd, hw, ha⟩
          · intro k' hk'
            obtain ⟨_, e⟩ := dropAll_some hk'
            rw [upd_eq] at e
            cases e
            exact ⟨m, ds, rfl, hmem⟩
    · rintro ⟨_, h⟩
      obtain ⟨m, ds', e, _⟩ := h kc hc
      rw [hf] at e; cases e

/-- Such a run: after the three messages, when writing the first has failed, the next message that still fits frees the
memory of the other two. -/
example : ∃ s0 s s' ls0 ls kd, Run (start 20) ls0 s0 ∧ Run s0 ls s ∧ s.conn 2 = some kd ∧ kd.writer = false ∧
    kd.outq = [3, 4] ∧ Run s [.take 1 [2] [], .send 1, .send 1] s' ∧ s'.conn 2 = none := by
  refine ⟨_, _, _, _, [.writeFail 2, .header 1 1, .body 1], _, (run_login 20 (by decide)).append
    ((run_publish _ _ 3 _ _ _ (by decide) (by decide) (by decide)).append
    ((run_publish _ _ 3 _ _ _ (by decide) (by decide) (by decide)).append
      (run_publish _ _ 3 _ _ _ (by decide) (by decide) (by decide)))),
    .cons (.writeFail _ 2 _ 2 [3, 4] rfl rfl rfl) (.cons (.header _ 1 1 _ rfl rfl (by decide) (by decide))
      (.cons (.body _ 1 _ 5 rfl rfl) (.nil _))), rfl, rfl, rfl,
    .cons (.take _ 1 _ 5 [] 1 [2] [] rfl rfl rfl (by decide) (by decide) (by decide) (by decide))
      (.cons (.send _ 1 _ 5 2 [] rfl rfl) (.cons (.sent _ 1 _ 5 rfl rfl) (.nil _))), rfl⟩

end Verif.Props.Backlog

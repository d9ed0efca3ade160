import Verif.Model.MeshTime
import Verif.Lemmas.Mesh

/-!
# Lemmas about a mesh with time
-/

set_option linter.unusedSectionVars false

namespace Verif.TNet
open Verif Verif.Conns Verif.MNet

variable {U B T H : Type} [DecidableEq U] [DecidableEq B] [DecidableEq T] [DecidableEq H]
  [LT B] [DecidableLT B]

/-! ## What a step does to the queues, tasks and pending syncs -/

theorem ch_act (n : MNet U B T H) (b : B) (op : Op U B T H) : (n.act b op).ch = n.ch := rfl

/-- Is `l` a new link between the two? -/
def Relink (x y : B) (l : MLabel U B T H) : Prop :=
  ∃ b b' c c', l = .linkUp b b' c c' ∧ (x = b ∧ y = b' ∨ x = b' ∧ y = b)

theorem forget (n : MNet U B T H) (b d : B) : (n.act b (.removeBroker d)).knows b d ≠ true := by
  rw [Ne, knows_iff, st_act_self]
  show ¬ ((n.st b).removeBroker d).brokers.get d ≠ none
  rw [removeBroker_brokers_get]; simp

/-- A queue is discarded (by a new link or because the receiver has forgotten the sender) or gets one more message, or
its first message is handled. -/
theorem ch_step (n : MNet U B T H) (l : MLabel U B T H) (x y : B) (hl : ∀ b b', l ≠ .deliver b b') :
    ((n.step l).ch x y = [] ∧ (Relink x y l ∨ (n.step l).knows y x ≠ true)) ∨ (n.step l).ch x y = n.ch x y ∨ ∃ m, (n.step l).ch x y = n.ch x y ++ [m] := by
  cases l with
  | connect => exact .inr (.inl rfl)
  | disconnect => exact .inr (.inl rfl)
  | subscribe => exact .inr (.inl rfl)
  | unsubscribe => exact .inr (.inl rfl)
  | startTopic b => simp only [MNet.step]; split <;> exact .inr (.inl rfl)
  | startUser b => simp only [MNet.step]; split <;> exact .inr (.inl rfl)
  | readDests i => simp only [MNet.step]; split <;> exact .inr (.inl rfl)
  | send i ok =>
    simp only [MNet.step]
    split
    · rename_i b m d ds _
      split
      · split
        · simp only [setCh]
          split
          · rename_i e; rw [e.1, e.2]; exact .inr (.inr ⟨m, rfl⟩)
          · exact .inr (.inl rfl)
        · simp only [setCh]
          split
          · rename_i e; rw [e.1, e.2]; exact .inl ⟨rfl, .inr (forget _ b d)⟩
          · exact .inr (.inl rfl)
      · exact .inr (.inl rfl)
    · exact .inr (.inl rfl)
  | linkUp b b' h h' =>
    simp only [MNet.step]
    split
    · exact .inr (.inl rfl)
    · simp only [setCh]
      split
      · rename_i e; exact .inl ⟨rfl, .inl ⟨b, b', h, h', rfl, .inr e⟩⟩
      · split
        · rename_i e; exact .inl ⟨rfl, .inl ⟨b, b', h, h', rfl, .inl e⟩⟩
        · exact .inr (.inl rfl)
  | fullTopic b b' =>
    simp only [MNet.step]
    split
    · split <;> exact .inr (.inl rfl)
    · exact .inr (.inl rfl)
  | fullUser b b' =>
    simp only [MNet.step]
    split
    · split <;> exact .inr (.inl rfl)
    · exact .inr (.inl rfl)
  | drop b b' =>
    simp only [MNet.step, setCh]
    split
    · rename_i e; rw [e.1, e.2]; exact .inl ⟨rfl, .inr (forget _ b b')⟩
    · exact .inr (.inl rfl)
  | deliver b b' => exact absurd rfl (hl b b')
  | restart b =>
    simp only [MNet.step]
    split
    · rename_i e; subst e
      refine .inl ⟨rfl, .inr ?_⟩
      rw [Ne, knows_iff]; simp [Conns.new]
    · exact .inr (.inl rfl)

theorem ch_deliver (n : MNet U B T H) (b b' x y : B) :
    (n.step (.deliver b b')).ch x y = n.ch x y ∨
    (x = b ∧ y = b' ∧ n.knows b' b = true ∧ ∃ m, n.ch b b' = m :: (n.step (.deliver b b')).ch b b') := by
  simp only [MNet.step]
  split
  · rename_i hk
    cases hq : n.ch b b' with
    | nil => exact .inl rfl
    | cons m rest =>
      by_cases e : x = b ∧ y = b'
      · right
        refine ⟨e.1, e.2, hk, m, ?_⟩
        cases m <;> simp [setCh]
      · left
        cases m <;> simp [setCh, e, ch_act]
  · exact .inl rfl

/-- Syncs are only added at the end, and go on. -/
theorem tasks_step (n : MNet U B T H) (l : MLabel U B T H) (hl : ∀ b, l ≠ .restart b) :
    ((n.step l).tasks.length = n.tasks.length ∨ (n.step l).tasks.length = n.tasks.length + 1) ∧
    ∀ (i : Nat) (τ : SyncTask U B T), i < n.tasks.length → (n.step l).tasks[i]? = some τ → τ.dests ≠ some [] →
      ∃ τ0, n.tasks[i]? = some τ0 ∧ τ0.dests ≠ some [] := by
  have hsame : ∀ n' : MNet U B T H, n'.tasks = n.tasks →
      (n'.tasks.length = n.tasks.length ∨ n'.tasks.length = n.tasks.length + 1) ∧
      ∀ (i : Nat) (τ : SyncTask U B T), i < n.tasks.length → n'.tasks[i]? = some τ → τ.dests ≠ some [] →
        ∃ τ0, n.tasks[i]? = some τ0 ∧ τ0.dests ≠ some [] := by
    intro n' e
    rw [e]
    exact ⟨.inl rfl, fun i τ _ h1 h2 => ⟨τ, h1, h2⟩⟩
  have hspawn : ∀ (n' : MNet U B T H) τ1, n'.tasks = n.tasks ++ [τ1] →
      (n'.tasks.length = n.tasks.length ∨ n'.tasks.length = n.tasks.length + 1) ∧
      ∀ (i : Nat) (τ : SyncTask U B T), i < n.tasks.length → n'.tasks[i]? = some τ → τ.dests ≠ some [] →
        ∃ τ0, n.tasks[i]? = some τ0 ∧ τ0.dests ≠ some [] := by
    intro n' τ1 e
    rw [e]
    refine ⟨.inr (by simp), fun i τ h0 h1 h2 => ⟨τ, ?_, h2⟩⟩
    rw [List.getElem?_append_left h0] at h1; exact h1
  have hset : ∀ (n' : MNet U B T H) j τ0 τ1, n'.tasks = n.tasks.set j τ1 → n.tasks[j]? = some τ0 →
      τ0.dests ≠ some [] →
      (n'.tasks.length = n.tasks.length ∨ n'.tasks.length = n.tasks.length + 1) ∧
      ∀ (i : Nat) (τ : SyncTask U B T), i < n.tasks.length → n'.tasks[i]? = some τ → τ.dests ≠ some [] →
        ∃ τ0, n.tasks[i]? = some τ0 ∧ τ0.dests ≠ some [] := by
    intro n' j τ0 τ1 e h3 h4
    rw [e]
    refine ⟨.inl (by simp), fun i τ h0 h1 h2 => ?_⟩
    by_cases hij : i = j
    · subst hij; exact ⟨τ0, h3, h4⟩
    · rw [List.getElem?_set_ne (Ne.symm hij)] at h1; exact ⟨τ, h1, h2⟩
  cases l with
  | connect => exact hsame _ rfl
  | disconnect => exact hsame _ rfl
  | subscribe => exact hsame _ rfl
  | unsubscribe => exact hsame _ rfl
  | startTopic b =>
    simp only [MNet.step]; split
    · exact hsame _ rfl
    · exact hspawn _ _ rfl
  | startUser b =>
    simp only [MNet.step]; split
    · exact hsame _ rfl
    · exact hspawn _ _ rfl
  | readDests i =>
    simp only [MNet.step]; split
    · rename_i hi; exact hset _ i _ _ rfl hi (by simp)
    · exact hsame _ rfl
  | send i ok =>
    simp only [MNet.step]
    split
    · rename_i b m d ds hi
      split
      · split
        · exact hset _ i _ _ rfl hi (by simp)
        · exact hset _ i _ _ rfl hi (by simp)
      · exact hset _ i _ _ rfl hi (by simp)
    · exact hsame _ rfl
  | linkUp b b' h h' =>
    simp only [MNet.step]
    split <;> exact hsame _ rfl
  | fullTopic b b' =>
    simp only [MNet.step]
    split
    · split
      · exact hsame _ rfl
      · exact hspawn _ _ rfl
    · exact hsame _ rfl
  | fullUser b b' =>
    simp only [MNet.step]
    split
    · split
      · exact hsame _ rfl
      · exact hspawn _ _ rfl
    · exact hsame _ rfl
  | drop b b' => exact hsame _ rfl
  | deliver b b' =>
    simp only [MNet.step]
    split
    · split <;> exact hsame _ rfl
    · exact hsame _ rfl
  | restart b => exact absurd rfl (hl b)

/-- A full topic sync is due only after a new link. -/
theorem fullT_step (n : MNet U B T H) (l : MLabel U B T H) (x y : B) (h : (x, y) ∈ (n.step l).fullT) :
    (x, y) ∈ n.fullT ∨ Relink x y l := by
  cases l with
  | connect => exact .inl h
  | disconnect => exact .inl h
  | subscribe => exact .inl h
  | unsubscribe => exact .inl h
  | startTopic b => simp only [MNet.step] at h; split at h <;> exact .inl h
  | startUser b => simp only [MNet.step] at h; split at h <;> exact .inl h
  | readDests i => simp only [MNet.step] at h; split at h <;> exact .inl h
  | send i ok =>
    simp only [MNet.step] at h
    split at h
    · split at h
      · split at h <;> exact .inl h
      · exact .inl h
    · exact .inl h
  | linkUp b b' c c' =>
    simp only [MNet.step] at h
    split at h
    · exact .inl h
    · rcases List.mem_cons.1 h with e | h
      · cases e; exact .inr ⟨_, _, c, c', rfl, .inl ⟨rfl, rfl⟩⟩
      · rcases List.mem_cons.1 h with e | h
        · cases e; exact .inr ⟨_, _, c, c', rfl, .inr ⟨rfl, rfl⟩⟩
        · exact .inl h
  | fullTopic b b' =>
    simp only [MNet.step] at h
    split at h
    · split at h <;> exact .inl (List.mem_of_mem_erase h)
    · exact .inl h
  | fullUser b b' =>
    simp only [MNet.step] at h
    split at h
    · split at h <;> exact .inl h
    · exact .inl h
  | drop b b' => exact .inl h
  | deliver b b' =>
    simp only [MNet.step] at h
    split at h
    · split at h <;> exact .inl h
    · exact .inl h
  | restart b => exact .inl (List.mem_filter.1 h).1

/-- A peer is registered only by a new link, and then nothing is in the queues. -/
theorem knows_step (n : MNet U B T H) (l : MLabel U B T H) (hidx : ∀ b, (n.st b).IndexInv) (x y : B)
    (h : (n.step l).knows y x = true) (h0 : n.knows y x ≠ true) : (n.step l).ch x y = [] := by
  have hsame : ∀ n' : MNet U B T H, n'.st = n.st → n'.knows y x = true → n'.ch x y = [] := by
    intro n' e h1
    exfalso; apply h0
    unfold knows at h1 ⊢; rw [e] at h1; exact h1
  have hact : ∀ (n' : MNet U B T H) b (op : Op U B T H), n'.st = (n.act b op).st →
      ((n.st b).step op).brokers.get x = (n.st b).brokers.get x →
      n'.knows y x = true → n'.ch x y = [] := by
    intro n' b op e h1 h2
    exfalso; apply h0
    rw [knows_iff] at h2 ⊢
    rw [e, st_act] at h2
    split at h2
    · rename_i e; subst e; rw [h1] at h2; exact h2
    · exact h2
  have hna : ∀ (n' : MNet U B T H) b (op : Op U B T H), n'.st = (n.act b op).st → NotAbout x op →
      n'.knows y x = true → n'.ch x y = [] :=
    fun n' b op e h1 h2 => hact n' b op e (notAbout_step _ x op (hidx b) h1).1 h2
  have hrem : ∀ (n' : MNet U B T H) b d, n'.st = (n.act b (.removeBroker d)).st →
      n'.knows y x = true → n'.ch x y = [] := by
    intro n' b d e h2
    exfalso; apply h0
    rw [knows_iff] at h2 ⊢
    rw [e, st_act] at h2
    split at h2
    · rename_i e; subst e
      have h3 : ((n.st y).removeBroker d).brokers.get x ≠ none := h2
      rw [removeBroker_brokers_get] at h3
      split at h3
      · exact absurd rfl h3
      · exact h3
    · exact h2
  cases l with
  | connect b u hd ts => exact hna _ b (.addUser u hd ts) rfl trivial h
  | disconnect b u => exact hna _ b (.removeUser u) rfl trivial h
  | subscribe b u ts => exact hna _ b (.subscribeUser u ts) rfl trivial h
  | unsubscribe b u ts => exact hna _ b (.unsubscribeUser u ts) rfl trivial h
  | startTopic b =>
    simp only [MNet.step] at h ⊢
    split at h <;> exact hna _ b .partialTopicSync rfl trivial h
  | startUser b =>
    simp only [MNet.step] at h ⊢
    split at h <;> exact hna _ b .partialUserSync rfl trivial h
  | readDests i =>
    simp only [MNet.step] at h ⊢
    split at h <;> exact hsame _ rfl h
  | send i ok =>
    simp only [MNet.step] at h ⊢
    split at h
    · rename_i b m d ds _
      split at h
      · split at h
        · rename_i h1 h2; rw [if_pos h1, if_pos h2]; exact hsame _ rfl h
        · rename_i h1 h2; rw [if_pos h1, if_neg h2]; exact hrem _ b d rfl h
      · rename_i h1; rw [if_neg h1]; exact hsame _ rfl h
    · exact hsame _ rfl h
  | linkUp b b' c c' =>
    by_cases hne : b = b'
    · simp only [MNet.step, if_pos hne] at h ⊢; exact hsame _ rfl h
    · by_cases e1 : x = b ∧ y = b' ∨ x = b' ∧ y = b
      · simp only [MNet.step, if_neg hne, setCh]
        rcases e1 with ⟨rfl, rfl⟩ | ⟨rfl, rfl⟩
        · split
          · rfl
          · rw [if_pos ⟨rfl, rfl⟩]
        · rw [if_pos ⟨rfl, rfl⟩]
      · exfalso; apply h0
        simp only [MNet.step, if_neg hne] at h
        have h1 : ((n.act b (.addBroker b' c)).act b' (.addBroker b c')).knows y x = true := h
        rw [knows_iff] at h1 ⊢
        rw [st_act] at h1
        by_cases ey : y = b'
        · subst ey
          rw [if_pos rfl, st_act_ne _ _ _ (Ne.symm hne)] at h1
          have h2 : ((n.st y).addBroker b c').brokers.get x ≠ none := h1
          rw [get_addBroker, if_neg (fun e => e1 (.inl ⟨e.symm, rfl⟩))] at h2
          exact h2
        · rw [if_neg ey, st_act] at h1
          split at h1
          · rename_i ey'; subst ey'
            have h2 : ((n.st y).addBroker b' c).brokers.get x ≠ none := h1
            rw [get_addBroker, if_neg (fun e => e1 (.inr ⟨e.symm, rfl⟩))] at h2
            exact h2
          · exact h1
  | fullTopic b b' =>
    simp only [MNet.step] at h ⊢
    split at h
    · rename_i h1; rw [if_pos h1]; split at h <;> exact hsame _ rfl h
    · rename_i h1; rw [if_neg h1]; exact hsame _ rfl h
  | fullUser b b' =>
    simp only [MNet.step] at h ⊢
    split at h
    · rename_i h1; rw [if_pos h1]; split at h <;> exact hsame _ rfl h
    · rename_i h1; rw [if_neg h1]; exact hsame _ rfl h
  | drop b b' => exact hrem _ b b' rfl h
  | deliver b b' =>
    exfalso; apply h0
    simp only [MNet.step] at h
    split at h
    · split at h
      · exact h
      · rename_i m rest _
        have h1 : (n.act b' (.applyUserSync m)).knows y x = true := h
        rw [knows_iff] at h1 ⊢
        rw [st_act] at h1
        split at h1
        · rename_i e; subst e
          rw [(notAbout_step _ x (.applyUserSync m) (hidx _) trivial).1] at h1; exact h1
        · exact h1
      · rename_i hk _ m rest _
        have h1 : (n.act b' (.applyTopicSync b m)).knows y x = true := h
        by_cases e : y = b' ∧ x = b
        · rw [e.1, e.2]; exact hk
        · rw [knows_iff] at h1 ⊢
          rw [st_act] at h1
          split at h1
          · rename_i e'; subst e'
            rw [(notAbout_step _ x (.applyTopicSync b m) (hidx _) (fun e' => e ⟨rfl, e'.symm⟩)).1] at h1; exact h1
          · exact h1
    · exact h
  | restart b =>
    exfalso; apply h0
    rw [knows_iff] at h ⊢
    have h1 : (if y = b then (Conns.new b : Conns U B T H) else n.st y).brokers.get x ≠ none := h
    split at h1
    · exact absurd rfl h1
    · exact h1

/-! ## Deadlines -/

/-- The lists of times go with the lists they are about; nothing is due later than the bounds allow; nothing is
overdue. -/
structure DInv (δ : Delays) (s : TNet U B T H) : Prop where
  len : s.taskDue.length = s.n.tasks.length
  chLen : ∀ b b', (s.chDue b b').length = (s.n.ch b b').length
  sync : ∀ b, s.syncDue b ≤ s.now + δ.sync
  usync : ∀ b, s.usyncDue b ≤ s.now + δ.sync
  full : ∀ b b', s.fullDue b b' ≤ s.now + δ.full
  task : ∀ e ∈ s.taskDue, e ≤ s.now + δ.send
  ch : ∀ b b', ∀ e ∈ s.chDue b b', e ≤ s.now + δ.link
  timely : s.InTime s.now

theorem dinv_start (δ : Delays) : DInv δ (start δ : TNet U B T H) := by
  refine ⟨rfl, fun _ _ => rfl, fun b => by simp [start], fun b => by simp [start], fun _ _ => by simp [start],
    by simp [start], by simp [start], ⟨fun b => by simp [start], fun b => by simp [start], by simp [start, MNet.start], by simp [start], by simp [start]⟩⟩

/-- Filtering two lists side by side. -/
theorem filter_zip {A C : Type} (p : A → Bool) (l : List A) (m : List C) (h : m.length = l.length) :
    (l.filter p).zip (((l.zip m).filter (fun q => p q.1)).map (·.2)) = (l.zip m).filter (fun q => p q.1) := by
  induction l generalizing m with
  | nil => simp
  | cons a l ih =>
    cases m with
    | nil => simp at h
    | cons c m =>
      have h' : m.length = l.length := by simpa using h
      by_cases hp : p a = true
      · simp [hp, ih m h']
      · simp [hp, ih m h']

theorem filter_zip_length {A C : Type} (p : A → Bool) (l : List A) (m : List C) (h : m.length = l.length) :
    (((l.zip m).filter (fun q => p q.1)).map (·.2)).length = (l.filter p).length := by
  induction l generalizing m with
  | nil => simp
  | cons a l ih =>
    cases m with
    | nil => simp at h
    | cons c m =>
      have h' : m.length = l.length := by simpa using h
      have := ih m h'
      by_cases hp : p a = true
      · simp [hp] at this ⊢; exact this
      · simp [hp] at this ⊢; exact this

theorem mem_requeue {old : List Nat} {len len' due e : Nat} (h : e ∈ requeue old len len' due) :
    e ∈ old ∨ e = due := by
  unfold requeue at h
  split at h
  · simp at h
  · rcases List.mem_append.1 h with h | h
    · exact .inl h
    · exact .inr (List.mem_replicate.1 h).2

theorem taskDue_after (δ : Delays) (s : TNet U B T H) (l : MLabel U B T H) (hl : ∀ b, l ≠ .restart b) :
    (s.after δ l).taskDue =
      s.taskDue ++ List.replicate ((s.n.step l).tasks.length - s.n.tasks.length) (s.now + δ.send) := by
  cases l <;> first | rfl | exact absurd rfl (hl _)

theorem chDue_after (δ : Delays) (s : TNet U B T H) (l : MLabel U B T H) (hl : ∀ b b', l ≠ .deliver b b') (x y : B) :
    (s.after δ l).chDue x y =
      requeue (s.chDue x y) (s.n.ch x y).length ((s.n.step l).ch x y).length (s.now + δ.link) := by
  cases l <;> first | rfl | exact absurd rfl (hl _ _)

theorem dinv_after {δ : Delays} {s : TNet U B T H} (h : DInv δ s) (hidx : ∀ b, (s.n.st b).IndexInv)
    (l : MLabel U B T H) : DInv δ (s.after δ l) := by
  have hchmem : ∀ x y e, e ∈ (s.after δ l).chDue x y → e ∈ s.chDue x y ∨ e = s.now + δ.link := by
    intro x y e he
    by_cases hd : ∃ b b', l = .deliver b b'
    · obtain ⟨b, b', rfl⟩ := hd
      exact .inl (List.mem_of_mem_drop he)
    · rw [chDue_after δ s l (fun b b' e => hd ⟨b, b', e⟩)] at he
      exact mem_requeue he
  have hchlen : ∀ x y, ((s.after δ l).chDue x y).length = ((s.n.step l).ch x y).length := by
    intro x y
    by_cases hd : ∃ b b', l = .deliver b b'
    · obtain ⟨b, b', rfl⟩ := hd
      show ((s.chDue x y).drop _).length = _
      rw [List.length_drop, h.chLen]
      rcases ch_deliver s.n b b' x y with e | ⟨rfl, rfl, _, m, e⟩
      · rw [e]; omega
      · have : (s.n.ch x y).length = ((s.n.step (.deliver x y)).ch x y).length + 1 := by rw [e]; rfl
        omega
    · rw [chDue_after δ s l (fun b b' e => hd ⟨b, b', e⟩)]
      unfold requeue
      rcases ch_step s.n l x y (fun b b' e => hd ⟨b, b', e⟩) with ⟨e, _⟩ | e | ⟨m, e⟩
      · rw [e]
        split
        · rfl
        · rename_i h1
          have : (s.n.ch x y).length = 0 := by simp at h1; simp [h1]
          simp [h.chLen, this]
      · rw [e, if_neg (by omega)]; simp [h.chLen]
      · rw [e, if_neg (by simp)]; simp [h.chLen]
  have htmem : ∀ e ∈ (s.after δ l).taskDue, e ∈ s.taskDue ∨ e = s.now + δ.send := by
    intro e he
    by_cases hd : ∃ b, l = .restart b
    · obtain ⟨b, rfl⟩ := hd
      obtain ⟨p, hp, rfl⟩ := List.mem_map.1 he
      exact .inl (List.of_mem_zip (List.mem_filter.1 hp).1).2
    · rw [taskDue_after δ s l (fun b e => hd ⟨b, e⟩)] at he
      rcases List.mem_append.1 he with he | he
      · exact .inl he
      · exact .inr (List.mem_replicate.1 he).2
  refine ⟨?_, hchlen, ?_, ?_, ?_, ?_, ?_, ⟨?_, ?_, ?_, ?_, ?_⟩⟩
  · by_cases hd : ∃ b, l = .restart b
    · obtain ⟨b, rfl⟩ := hd
      exact filter_zip_length (fun τ : SyncTask U B T => decide (τ.here ≠ b)) _ _ h.len
    · rw [taskDue_after δ s l (fun b e => hd ⟨b, e⟩), List.length_append, List.length_replicate, h.len]
      show _ = (s.n.step l).tasks.length
      rcases (tasks_step s.n l (fun b e => hd ⟨b, e⟩)).1 with e | e <;> omega
  · intro b
    have h1 := h.sync b
    show _ ≤ s.now + δ.sync
    cases l with
    | startTopic b' => show (if b = b' then _ else _) ≤ _; split <;> omega
    | restart b' => show (if b = b' then _ else _) ≤ _; split <;> omega
    | _ => exact h1
  · intro b
    have h1 := h.usync b
    show _ ≤ s.now + δ.sync
    cases l with
    | startUser b' => show (if b = b' then _ else _) ≤ _; split <;> omega
    | restart b' => show (if b = b' then _ else _) ≤ _; split <;> omega
    | _ => exact h1
  · intro b b'
    have h1 := h.full b b'
    show _ ≤ s.now + δ.full
    cases l with
    | linkUp x y _ _ =>
      show (if b = x ∧ b' = y ∨ b = y ∧ b' = x then s.now + δ.full else s.fullDue b b') ≤ _
      split <;> omega
    | _ => exact h1
  · intro e he
    show _ ≤ s.now + δ.send
    rcases htmem e he with h1 | h1
    · exact h.task e h1
    · omega
  · intro b b' e he
    show _ ≤ s.now + δ.link
    rcases hchmem b b' e he with h1 | h1
    · exact h.ch b b' e h1
    · omega
  · intro b
    have h1 := h.timely.sync b
    show s.now ≤ _
    cases l with
    | startTopic b' => show _ ≤ (if b = b' then _ else _); split <;> omega
    | restart b' => show _ ≤ (if b = b' then _ else _); split <;> omega
    | _ => exact h1
  · intro b
    have h1 := h.timely.usync b
    show s.now ≤ _
    cases l with
    | startUser b' => show _ ≤ (if b = b' then _ else _); split <;> omega
    | restart b' => show _ ≤ (if b = b' then _ else _); split <;> omega
    | _ => exact h1
  · intro b b' hm
    show s.now ≤ _
    rcases fullT_step s.n l b b' hm with h1 | ⟨x, y, c, c', rfl, h2⟩
    · have h2 := h.timely.full b b' h1
      cases l with
      | linkUp x y _ _ =>
        show _ ≤ (if b = x ∧ b' = y ∨ b = y ∧ b' = x then s.now + δ.full else s.fullDue b b')
        split <;> omega
      | _ => exact h2
    · show _ ≤ (if _ then _ else _)
      rw [if_pos h2]; omega
  · intro i τ e h1 h2 h3
    show s.now ≤ e
    by_cases hd : ∃ b, l = .restart b
    · obtain ⟨b, rfl⟩ := hd
      have h4 : (τ, e) ∈ ((s.n.step (.restart b)).tasks.zip (s.after δ (.restart b)).taskDue) :=
        List.mem_iff_getElem?.2 ⟨i, List.getElem?_zip_eq_some.2 ⟨h1, h3⟩⟩
      have h5 : (τ, e) ∈ (s.n.tasks.zip s.taskDue).filter (fun q => decide (q.1.here ≠ b)) := by
        rw [← filter_zip (fun τ : SyncTask U B T => decide (τ.here ≠ b)) _ _ h.len]
        exact h4
      obtain ⟨j, hj⟩ := List.mem_iff_getElem?.1 (List.mem_filter.1 h5).1
      rw [List.getElem?_zip_eq_some] at hj
      exact h.timely.task j τ e hj.1 h2 hj.2
    · have hd : ∀ b, l ≠ .restart b := fun b e => hd ⟨b, e⟩
      rw [taskDue_after δ s l hd] at h3
      rcases Nat.lt_or_ge i s.n.tasks.length with h4 | h4
      · obtain ⟨τ0, h5, h6⟩ := (tasks_step s.n l hd).2 i τ h4 h1 h2
        rw [List.getElem?_append_left (by rw [h.len]; exact h4)] at h3
        exact h.timely.task i τ0 e h5 h6 h3
      · rw [List.getElem?_append_right (by rw [h.len]; exact h4)] at h3
        have := (List.mem_replicate.1 (List.mem_of_getElem? h3)).2
        omega
  · intro b b' hk e he
    show s.now ≤ e
    by_cases hk0 : s.n.knows b' b = true
    · rcases hchmem b b' e he with h1 | h1
      · exact h.timely.ch b b' hk0 e h1
      · omega
    · have h1 := knows_step s.n l hidx b b' hk hk0
      have h2 := hchlen b b'
      rw [h1] at h2
      rw [List.length_eq_zero_iff.1 h2] at he
      simp at he

theorem dinv_step {δ : Delays} {s s' : TNet U B T H} {l : TLabel U B T H} (h : DInv δ s)
    (hidx : ∀ b, (s.n.st b).IndexInv) (hs : Step δ s l s') : DInv δ s' := by
  cases hs with
  | tick d ht =>
    have h1 := h.sync
    have h1' := h.usync
    have h2 := h.full
    have h3 := h.task
    have h4 := h.ch
    exact ⟨h.len, h.chLen, fun b => Nat.le_trans (h1 b) (by show _ ≤ s.now + d + _; omega),
      fun b => Nat.le_trans (h1' b) (by show _ ≤ s.now + d + _; omega),
      fun b b' => Nat.le_trans (h2 b b') (by show _ ≤ s.now + d + _; omega),
      fun e he => Nat.le_trans (h3 e he) (by show _ ≤ s.now + d + _; omega),
      fun b b' e he => Nat.le_trans (h4 b b' e he) (by show _ ≤ s.now + d + _; omega),
      ⟨ht.sync, ht.usync, ht.full, ht.task, ht.ch⟩⟩
  | ev l => exact dinv_after h hidx l

/-- The steps of the mesh in a timed run. -/
def events (ls : List (TLabel U B T H)) : List (MLabel U B T H) :=
  ls.filterMap (fun | .tick _ => none | .ev l => some l)

theorem run_net {δ : Delays} {s s' : TNet U B T H} {ls : List (TLabel U B T H)} (h : Run δ s ls s') :
    s'.n = s.n.run (events ls) := by
  induction h with
  | nil => rfl
  | snoc _ hs ih =>
    unfold events at ih ⊢
    rw [List.filterMap_append]
    unfold MNet.run at ih ⊢
    rw [List.foldl_append, ← ih]
    cases hs <;> rfl

theorem events_length (ls : List (TLabel U B T H)) : (events ls).length ≤ ls.length :=
  List.length_filterMap_le ..

/-- Both invariants in every run that is short enough. -/
theorem inv_timed {δ : Delays} {s : TNet U B T H} {ls : List (TLabel U B T H)}
    (h : Run δ (start δ) ls s) (hlen : 2 * ls.length < 2 ^ 64) : MNet.Inv s.n (2 * ls.length) ∧ DInv δ s := by
  generalize hs0 : (start δ : TNet U B T H) = s0 at h
  induction h with
  | nil => subst hs0; exact ⟨inv_start, dinv_start δ⟩
  | snoc h1 hs ih =>
    rw [List.length_append, List.length_singleton] at hlen ⊢
    obtain ⟨h2, h3⟩ := ih (by omega)
    refine ⟨?_, dinv_step h3 (fun b => (h2.own b).index) hs⟩
    cases hs with
    | tick d _ => exact h2.mono (by omega)
    | ev l => exact (inv_step h2 (by omega) l).mono (by omega)

/-! ## An announcement on its way -/

/-- The receiver keeps an entry that is current. -/
theorem has_step {n : MNet U B T H} {k : Nat} (h : MNet.Inv n k) (l : MLabel U B T H) (b b' : B) (t : T)
    (x : VV SubStatus) (h1 : (n.st b).brokers.get b' ≠ none) (h3 : ((n.step l).st b').brokers.get b ≠ none)
    (hnr : ¬ Relink b b' l) (hx : (n.S b).map.get t = some x)
    (hr : ∃ e, (n.st b').brokers.get b = some e ∧ e.topicSync.map.get t = some x) :
    ∃ e, ((n.step l).st b').brokers.get b = some e ∧ e.topicSync.map.get t = some x := by
  have hk : (n.st b').brokers.get b ≠ none := by obtain ⟨e, h1, _⟩ := hr; rw [h1]; simp
  have hne : b ≠ b' := by rintro rfl; exact hk (h.irrefl b)
  have hkeep : ∀ s' : Conns U B T H, s'.brokers.get b = (n.st b').brokers.get b →
      ∃ e, s'.brokers.get b = some e ∧ e.topicSync.map.get t = some x := by
    intro s' e; rw [e]; exact hr
  have hact : ∀ c (op : Op U B T H), NotAbout b op →
      ∃ e, ((n.act c op).st b').brokers.get b = some e ∧ e.topicSync.map.get t = some x := by
    intro c op hna
    rw [st_act]; split
    · rename_i e; subst e; exact hkeep _ (notAbout_step _ b op (h.own _).index hna).1
    · exact hr
  have hrem : ∀ c d, ((n.act c (.removeBroker d)).st b').brokers.get b ≠ none →
      ∃ e, ((n.act c (.removeBroker d)).st b').brokers.get b = some e ∧ e.topicSync.map.get t = some x := by
    intro c d hh
    by_cases hd : d = b
    · subst hd
      by_cases hc : b' = c
      · subst hc
        exact absurd ((knows_iff _ _ _).2 hh) (forget n b' d)
      · rw [st_act_ne _ _ _ hc]; exact hr
    · exact hact c _ hd
  cases l with
  | connect c u hd ts => exact hact c (.addUser u hd ts) trivial
  | disconnect c u => exact hact c (.removeUser u) trivial
  | subscribe c u ts => exact hact c (.subscribeUser u ts) trivial
  | unsubscribe c u ts => exact hact c (.unsubscribeUser u ts) trivial
  | startTopic c =>
    simp only [MNet.step]; split <;> exact hact c .partialTopicSync trivial
  | startUser c =>
    simp only [MNet.step]; split <;> exact hact c .partialUserSync trivial
  | readDests i =>
    simp only [MNet.step]; split <;> exact hr
  | send i ok =>
    simp only [MNet.step] at h3 ⊢
    split
    · rename_i c m d ds hi
      simp only [hi] at h3
      split
      · rename_i hc
        rw [if_pos hc] at h3
        split
        · exact hr
        · rename_i hok
          rw [if_neg hok] at h3
          exact hrem c d h3
      · exact hr
    · exact hr
  | linkUp c c' g g' =>
    by_cases hcc : c = c'
    · simp only [MNet.step, if_pos hcc]; exact hr
    · simp only [MNet.step, if_neg hcc]
      show ∃ e, (((n.act c (.addBroker c' g)).act c' (.addBroker c g')).st b').brokers.get b = some e ∧ _
      by_cases e1 : b' = c'
      · subst e1
        rw [st_act_self, st_act_ne _ _ _ (Ne.symm hcc)]
        refine hkeep _ ?_
        show ((n.st b').addBroker c g').brokers.get b = _
        rw [get_addBroker, if_neg (fun e => hnr ⟨c, b', g, g', rfl, .inl ⟨e.symm, rfl⟩⟩)]
      · rw [st_act_ne _ _ _ e1]
        by_cases e2 : b' = c
        · subst e2
          rw [st_act_self]
          refine hkeep _ ?_
          show ((n.st b').addBroker c' g).brokers.get b = _
          rw [get_addBroker, if_neg (fun e => hnr ⟨b', c', g, g', rfl, .inr ⟨e.symm, rfl⟩⟩)]
        · rw [st_act_ne _ _ _ e2]; exact hr
  | fullTopic c c' =>
    simp only [MNet.step]
    split
    · split <;> exact hr
    · exact hr
  | fullUser c c' =>
    simp only [MNet.step]
    split
    · split <;> exact hr
    · exact hr
  | drop c d => exact hrem c d h3
  | deliver c c' =>
    simp only [MNet.step]
    split
    · rename_i hkn
      split
      · exact hr
      · rename_i m rest _; exact hact c' (.applyUserSync m) trivial
      · rename_i m rest hq
        show ∃ e, ((n.act c' (.applyTopicSync c m)).st b').brokers.get b = some e ∧ _
        by_cases hcb : c = b
        · subst hcb
          by_cases hcb' : b' = c'
          · subst hcb'
            have ho := h.chOld c b' h1 hk (.topic m) (by rw [hq]; exact List.mem_cons_self ..)
            obtain ⟨r1, r2⟩ := rinv_apply (n.st b') c (n.S c) m (h.view c b' h1 hk) (ho m rfl).1 (ho m rfl).2
            obtain ⟨e1, he1, _⟩ := r1.view
            obtain ⟨e0, he0, h0⟩ := hr
            rw [st_act_self]
            exact ⟨e1, he1, r2 e0 e1 he0 he1 t x hx (.inl h0)⟩
          · rw [st_act_ne _ _ _ hcb']; exact hr
        · exact hact c' (.applyTopicSync c m) hcb
    · exact hr
  | restart c =>
    by_cases e : b' = c
    · subst e
      have h4 : (if b' = b' then (Conns.new b' : Conns U B T H) else n.st b').brokers.get b ≠ none := h3
      rw [if_pos rfl] at h4
      exact absurd rfl h4
    · show ∃ e, (if b' = c then (Conns.new c : Conns U B T H) else n.st b').brokers.get b = some e ∧ _
      rw [if_neg e]; exact hr

/-- `b'` has entry `x` of `b` about `t`, or is being told, and this will be over by `L`. -/
def TCov (δ : Delays) (s : TNet U B T H) (b b' : B) (t : T) (x : VV SubStatus) (L : Nat) : Prop :=
  (∃ e, (s.n.st b').brokers.get b = some e ∧ e.topicSync.map.get t = some x) ∨
  ((b, b') ∈ s.n.fullT ∧ s.fullDue b b' + δ.send + δ.link ≤ L) ∨
  (∃ τ e, (τ, e) ∈ s.n.tasks.zip s.taskDue ∧ τ.here = b ∧ Says τ.msg t x ∧
    (∀ ds, τ.dests = some ds → b' ∈ ds) ∧ e + δ.link ≤ L) ∨
  ∃ m e, (m, e) ∈ (s.n.ch b b').zip (s.chDue b b') ∧ Says m t x ∧ e ≤ L

theorem mem_zip {A C : Type} {l : List A} {m : List C} {a : A} {c : C} :
    (a, c) ∈ l.zip m ↔ ∃ i : Nat, l[i]? = some a ∧ m[i]? = some c := by
  rw [List.mem_iff_getElem?]
  simp only [List.getElem?_zip_eq_some]

/-- What is covered at all is covered in time. -/
theorem tcov_of_cov {δ : Delays} {s : TNet U B T H} (hd : DInv δ s) {b b' : B} {t : T} {x : VV SubStatus}
    (h : MNet.Covered s.n b b' t x) : TCov δ s b b' t x (s.now + δ.full + δ.send + δ.link) := by
  rcases h with h | h | ⟨i, τ, h1, h2, h3, h4⟩ | ⟨m, h1, h2⟩
  · exact .inl h
  · have := hd.full b b'
    exact .inr (.inl ⟨h, by omega⟩)
  · have hlt : i < s.taskDue.length := by
      rw [hd.len]; exact (List.getElem?_eq_some_iff.1 h1).1
    have h5 := hd.task _ (List.getElem_mem hlt)
    exact .inr (.inr (.inl ⟨τ, s.taskDue[i], mem_zip.2 ⟨i, h1, List.getElem?_eq_getElem hlt⟩, h2, h3, h4, by omega⟩))
  · obtain ⟨i, hi⟩ := List.mem_iff_getElem?.1 h1
    have hlt : i < (s.chDue b b').length := by
      rw [hd.chLen]; exact (List.getElem?_eq_some_iff.1 hi).1
    have h5 := hd.ch b b' _ (List.getElem_mem hlt)
    exact .inr (.inr (.inr ⟨m, (s.chDue b b')[i], mem_zip.2 ⟨i, hi, List.getElem?_eq_getElem hlt⟩, h2, by omega⟩))

/-- After the time, `b'` has it. -/
theorem tcov_over {δ : Delays} {s : TNet U B T H} (hd : DInv δ s) {b b' : B} {t : T} {x : VV SubStatus} {L : Nat}
    (hk : s.n.knows b' b = true) (h : TCov δ s b b' t x L) (hL : L < s.now) :
    ∃ e, (s.n.st b').brokers.get b = some e ∧ e.topicSync.map.get t = some x := by
  rcases h with h | ⟨h1, h2⟩ | ⟨τ, e, h1, _, _, h2, h3⟩ | ⟨m, e, h1, _, h3⟩
  · exact h
  · have := hd.timely.full b b' h1; omega
  · obtain ⟨i, hi, hi'⟩ := mem_zip.1 h1
    have := hd.timely.task i τ e hi (fun e => by have := h2 _ e; simp at this) hi'
    omega
  · have := hd.timely.ch b b' hk e (List.of_mem_zip h1).2; omega

theorem fullT_keep (n : MNet U B T H) (l : MLabel U B T H) (x y : B) (h : (x, y) ∈ n.fullT) :
    (x, y) ∈ (n.step l).fullT ∨ l = .fullTopic x y ∨ l = .restart x := by
  cases l with
  | connect => exact .inl h
  | disconnect => exact .inl h
  | subscribe => exact .inl h
  | unsubscribe => exact .inl h
  | startTopic b => simp only [MNet.step]; split <;> exact .inl h
  | startUser b => simp only [MNet.step]; split <;> exact .inl h
  | readDests i => simp only [MNet.step]; split <;> exact .inl h
  | send i ok =>
    simp only [MNet.step]
    split
    · split
      · split <;> exact .inl h
      · exact .inl h
    · exact .inl h
  | linkUp b b' c c' =>
    simp only [MNet.step]
    split
    · exact .inl h
    · exact .inl (List.mem_cons_of_mem _ (List.mem_cons_of_mem _ h))
  | fullTopic b b' =>
    by_cases e : (x, y) = (b, b')
    · cases e; exact .inr (.inl rfl)
    · left
      simp only [MNet.step]
      split
      · split <;> exact (List.mem_erase_of_ne e).2 h
      · exact h
  | fullUser b b' =>
    simp only [MNet.step]
    split
    · split <;> exact .inl h
    · exact .inl h
  | drop b b' => exact .inl h
  | deliver b b' =>
    simp only [MNet.step]
    split
    · split <;> exact .inl h
    · exact .inl h
  | restart b =>
    by_cases e : x = b
    · subst e; exact .inr (.inr rfl)
    · exact .inl (List.mem_filter.2 ⟨h, by simpa using e⟩)

theorem task_keep (n : MNet U B T H) (l : MLabel U B T H) (hl : ∀ b, l ≠ .restart b) (i : Nat) (τ : SyncTask U B T)
    (h : n.tasks[i]? = some τ) :
    (n.step l).tasks[i]? = some τ ∨ l = .readDests i ∨ ∃ ok, l = .send i ok := by
  have hspawn : ∀ (n' : MNet U B T H) τ1, n'.tasks = n.tasks ++ [τ1] → n'.tasks[i]? = some τ := by
    intro n' τ1 e; rw [e]; exact getElem?_append_of_some h
  have hset : ∀ (n' : MNet U B T H) j τ1, i ≠ j → n'.tasks = n.tasks.set j τ1 → n'.tasks[i]? = some τ := by
    intro n' j τ1 hij e; rw [e, List.getElem?_set_ne (Ne.symm hij)]; exact h
  cases l with
  | connect => exact .inl h
  | disconnect => exact .inl h
  | subscribe => exact .inl h
  | unsubscribe => exact .inl h
  | startTopic b =>
    left; simp only [MNet.step]; split
    · exact h
    · exact hspawn _ _ rfl
  | startUser b =>
    left; simp only [MNet.step]; split
    · exact h
    · exact hspawn _ _ rfl
  | readDests j =>
    by_cases hij : i = j
    · subst hij; exact .inr (.inl rfl)
    · left; simp only [MNet.step]; split
      · exact hset _ j _ hij rfl
      · exact h
  | send j ok =>
    by_cases hij : i = j
    · subst hij; exact .inr (.inr ⟨ok, rfl⟩)
    · left; simp only [MNet.step]; split
      · split
        · split <;> exact hset _ j _ hij rfl
        · exact hset _ j _ hij rfl
      · exact h
  | linkUp b b' c c' => left; simp only [MNet.step]; split <;> exact h
  | fullTopic b b' =>
    left; simp only [MNet.step]; split
    · split
      · exact h
      · exact hspawn _ _ rfl
    · exact h
  | fullUser b b' =>
    left; simp only [MNet.step]; split
    · split
      · exact h
      · exact hspawn _ _ rfl
    · exact h
  | drop b b' => exact .inl h
  | deliver b b' =>
    left; simp only [MNet.step]; split
    · split <;> exact h
    · exact h
  | restart b => exact absurd rfl (hl b)

theorem fullDue_after (δ : Delays) (s : TNet U B T H) (l : MLabel U B T H) (b b' : B) (hnr : ¬ Relink b b' l) :
    (s.after δ l).fullDue b b' = s.fullDue b b' := by
  cases l with
  | linkUp x y c c' =>
    show (if b = x ∧ b' = y ∨ b = y ∧ b' = x then s.now + δ.full else s.fullDue b b') = _
    rw [if_neg (fun e => hnr ⟨x, y, c, c', rfl, e⟩)]
  | _ => rfl

/-- What is on its way goes on, in time. -/
theorem tcov_after {δ : Delays} {s : TNet U B T H} {k : Nat} (hI : MNet.Inv s.n k) (hd : DInv δ s)
    (l : MLabel U B T H) {b b' : B} {t : T} {x : VV SubStatus} {L : Nat}
    (h1 : (s.n.st b).brokers.get b' ≠ none) (h2 : (s.n.st b').brokers.get b ≠ none)
    (h1' : ((s.n.step l).st b).brokers.get b' ≠ none) (h2' : ((s.n.step l).st b').brokers.get b ≠ none)
    (hnr : ¬ Relink b b' l) (hx : (s.n.S b).map.get t = some x) (h : TCov δ s b b' t x L) :
    TCov δ (s.after δ l) b b' t x L := by
  have hrb : l ≠ .restart b := by
    rintro rfl
    have h4 : (if b = b then (Conns.new b : Conns U B T H) else s.n.st b).brokers.get b' ≠ none := h1'
    rw [if_pos rfl] at h4
    exact absurd rfl h4
  rcases h with h | ⟨h3, h4⟩ | ⟨τ, e, h3, h4, h5, h6, h7⟩ | ⟨m, e, h3, h4, h5⟩
  · exact .inl (has_step hI l b b' t x h1 h2' hnr hx h)
  · rcases fullT_keep s.n l b b' h3 with h5 | rfl | rfl
    · exact .inr (.inl ⟨h5, by rw [fullDue_after δ s l b b' hnr]; exact h4⟩)
    · -- the full sync
      have h5 := hd.timely.full b b' h3
      cases hf : (s.n.st b).getFullTopicSync with
      | none =>
        exfalso
        unfold getFullTopicSync at hf
        split at hf
        · rename_i he
          rw [AMap.isEmpty_iff] at he
          have hx' : (s.n.st b).topicSync.map.get t = some x := hx
          rw [he t] at hx'; simp at hx'
        · simp at hf
      | some m =>
        have hm : m = s.n.S b := by
          unfold getFullTopicSync at hf
          split at hf
          · simp at hf
          · exact (Option.some.inj hf).symm
        have ht : (s.n.step (.fullTopic b b')).tasks = s.n.tasks ++ [⟨b, .topic m, some [b']⟩] := by
          simp only [MNet.step, if_pos h3, hf]; rfl
        refine .inr (.inr (.inl ⟨⟨b, .topic m, some [b']⟩, s.now + δ.send, ?_, rfl, ⟨m, rfl, by rw [hm]; exact hx⟩,
          by rintro ds ⟨⟩; simp, by omega⟩))
        refine mem_zip.2 ⟨s.n.tasks.length, ?_, ?_⟩
        · show (s.n.step (.fullTopic b b')).tasks[_]? = _
          rw [ht]; simp
        · rw [taskDue_after δ s _ (by simp), ht, List.length_append, ← hd.len]; simp
    · exact absurd rfl hrb
  · obtain ⟨i, hi, hi'⟩ := mem_zip.1 h3
    have hnow : s.now ≤ e := hd.timely.task i τ e hi (fun e => by have := h6 _ e; simp at this) hi'
    by_cases hr : ∃ c, l = .restart c
    · obtain ⟨c, rfl⟩ := hr
      have hc : τ.here ≠ c := by rw [h4]; rintro rfl; exact hrb rfl
      refine .inr (.inr (.inl ⟨τ, e, ?_, h4, h5, h6, h7⟩))
      show (τ, e) ∈ (s.n.tasks.filter (fun τ => decide (τ.here ≠ c))).zip
        (((s.n.tasks.zip s.taskDue).filter (fun p => decide (p.1.here ≠ c))).map (·.2))
      rw [filter_zip (fun τ : SyncTask U B T => decide (τ.here ≠ c)) _ _ hd.len]
      exact List.mem_filter.2 ⟨h3, by simpa using hc⟩
    · have hr : ∀ c, l ≠ .restart c := fun c e => hr ⟨c, e⟩
      have hdue : (s.after δ l).taskDue[i]? = some e := by
        rw [taskDue_after δ s l hr, List.getElem?_append_left (List.getElem?_eq_some_iff.1 hi').1]; exact hi'
      rcases task_keep s.n l hr i τ hi with h8 | rfl | ⟨ok, rfl⟩
      · exact .inr (.inr (.inl ⟨τ, e, mem_zip.2 ⟨i, h8, hdue⟩, h4, h5, h6, h7⟩))
      · obtain ⟨here, msg, dests⟩ := τ
        dsimp only at h4 h5 h6
        subst h4
        have hlt := (List.getElem?_eq_some_iff.1 hi).1
        cases dests with
        | some ds =>
          refine .inr (.inr (.inl ⟨⟨here, msg, some ds⟩, e, mem_zip.2 ⟨i, ?_, hdue⟩, rfl, h5, h6, h7⟩))
          show (s.n.step (.readDests i)).tasks[i]? = _
          simp only [MNet.step, hi]
        | none =>
          refine .inr (.inr (.inl ⟨⟨here, msg, some (s.n.st here).allBrokers⟩, e, mem_zip.2 ⟨i, ?_, hdue⟩, rfl, h5, ?_, h7⟩))
          · show (s.n.step (.readDests i)).tasks[i]? = _
            simp only [MNet.step, hi]
            exact List.getElem?_set_self hlt
          · rintro ds ⟨⟩
            exact AMap.mem_keys.2 (Option.isSome_iff_ne_none.2 h1)
      · obtain ⟨here, msg, dests⟩ := τ
        dsimp only at h4 h5 h6
        subst h4
        have hlt := (List.getElem?_eq_some_iff.1 hi).1
        rcases dests with _ | _ | ⟨d, ds⟩
        · refine .inr (.inr (.inl ⟨⟨here, msg, none⟩, e, mem_zip.2 ⟨i, ?_, hdue⟩, rfl, h5, h6, h7⟩))
          show (s.n.step (.send i ok)).tasks[i]? = _
          simp only [MNet.step, hi]
        · have := h6 _ rfl; simp at this
        · have hmem := h6 _ rfl
          have htask : (s.n.step (.send i ok)).tasks[i]? = some ⟨here, msg, some ds⟩ := by
            simp only [MNet.step, hi]
            split
            · split <;> exact List.getElem?_set_self hlt
            · exact List.getElem?_set_self hlt
          rcases List.mem_cons.1 hmem with e1 | e1
          · subst e1
            have hk : s.n.knows here b' = true := (knows_iff _ _ _).2 h1
            cases ok with
            | false =>
              exfalso
              refine absurd ((knows_iff _ _ _).2 h1') ?_
              simp only [MNet.step, hi, if_pos hk, Bool.false_eq_true, if_false]
              exact forget _ here b'
            | true =>
              have hch : (s.n.step (.send i true)).ch here b' = s.n.ch here b' ++ [msg] := by
                simp only [MNet.step, hi, if_pos hk, if_true, setCh, and_self]
              refine .inr (.inr (.inr ⟨msg, s.now + δ.link, mem_zip.2 ⟨(s.n.ch here b').length, ?_, ?_⟩, h5, by omega⟩))
              · show ((s.n.step (.send i true)).ch here b')[_]? = _
                rw [hch]; simp
              · rw [chDue_after δ s _ (by simp), hch]
                unfold requeue
                rw [if_neg (by simp), List.length_append, ← hd.chLen]; simp
          · exact .inr (.inr (.inl ⟨_, e, mem_zip.2 ⟨i, htask, hdue⟩, rfl, h5, by rintro ds' ⟨⟩; exact e1, h7⟩))
  · obtain ⟨i, hi, hi'⟩ := mem_zip.1 h3
    by_cases hdl : ∃ c c', l = .deliver c c'
    · obtain ⟨c, c', rfl⟩ := hdl
      rcases ch_deliver s.n c c' b b' with hc | ⟨rfl, rfl, hk, m0, hc⟩
      · refine .inr (.inr (.inr ⟨m, e, ?_, h4, h5⟩))
        show (m, e) ∈ ((s.n.step (.deliver c c')).ch b b').zip ((s.chDue b b').drop _)
        rw [hc, Nat.sub_self, List.drop_zero]; exact h3
      · rw [hc] at hi
        cases i with
        | zero =>
          cases hi
          obtain ⟨m', rfl, hm'⟩ := h4
          left
          have ho := hI.chOld b b' h1 h2 (.topic m') (by rw [hc]; exact List.mem_cons_self ..)
          have := (inv_applyTopic hI b b' m' h2 (fun _ => ho)).2 h1 t x hm' hx
          show ∃ e, ((s.n.step (.deliver b b')).st b').brokers.get b = some e ∧ _
          obtain ⟨rest, hq⟩ : ∃ rest, s.n.ch b b' = .topic m' :: rest := ⟨_, hc⟩
          clear hc
          simp only [MNet.step, if_pos hk, hq]
          exact this
        | succ i =>
          refine .inr (.inr (.inr ⟨m, e, ?_, h4, h5⟩))
          show (m, e) ∈ ((s.n.step (.deliver b b')).ch b b').zip ((s.chDue b b').drop _)
          have hlen : (s.n.ch b b').length - ((s.n.step (.deliver b b')).ch b b').length = 1 := by
            have : (s.n.ch b b').length = ((s.n.step (.deliver b b')).ch b b').length + 1 := by
              rw [hc]; rfl
            omega
          rw [hlen]
          refine mem_zip.2 ⟨i, by simpa using hi, ?_⟩
          rw [List.getElem?_drop, Nat.add_comm]; exact hi'
    · have hdl : ∀ c c', l ≠ .deliver c c' := fun c c' e => hdl ⟨c, c', e⟩
      rcases ch_step s.n l b b' hdl with ⟨_, hc | hc⟩ | hc | ⟨m1, hc⟩
      · exact absurd hc hnr
      · exact absurd ((knows_iff _ _ _).2 h2') hc
      · refine .inr (.inr (.inr ⟨m, e, ?_, h4, h5⟩))
        rw [chDue_after δ s l hdl]
        show (m, e) ∈ ((s.n.step l).ch b b').zip _
        rw [hc]; unfold requeue
        rw [if_neg (by omega), Nat.sub_self]; simpa using h3
      · refine .inr (.inr (.inr ⟨m, e, ?_, h4, h5⟩))
        rw [chDue_after δ s l hdl]
        show (m, e) ∈ ((s.n.step l).ch b b').zip _
        rw [hc]; unfold requeue
        rw [if_neg (by simp)]
        refine mem_zip.2 ⟨i, getElem?_append_of_some hi, ?_⟩
        rw [List.getElem?_append_left (List.getElem?_eq_some_iff.1 hi').1]; exact hi'

end Verif.TNet

import Verif.Lemmas.MeshTime
import Verif.Props.Mesh

/-!
# Property C98: how soon brokers know each other's topics
-/

set_option linter.unusedSectionVars false

namespace Verif.Props.MeshTime
open Verif Verif.Conns Verif.MNet Verif.TNet Verif.Props.Connections Verif.Props.Mesh

section
variable {U B T H : Type} [DecidableEq U] [DecidableEq B] [DecidableEq T] [DecidableEq H]
  [LT B] [DecidableLT B]

/-! ## Specification -/

/-- A new link between `b` and `b'`, which takes the place of the one they have. -/
def NewLink (b b' : B) : TLabel U B T H → Prop
  | .ev (.linkUp x y _ _) => (b = x ∧ b' = y) ∨ (b = y ∧ b' = x)
  | _ => False

/-- Steps during which `Q` holds all the time, the first and the last state included, and `b` and `b'` keep their
link. -/
inductive While (δ : Delays) (b b' : B) (Q : TNet U B T H → Prop) :
    TNet U B T H → List (TLabel U B T H) → TNet U B T H → Prop
  | nil (s : TNet U B T H) (h : Linked s.n b b') (hQ : Q s) : While δ b b' Q s [] s
  | snoc {s s' s'' : TNet U B T H} {ls : List (TLabel U B T H)} {l : TLabel U B T H} (h : While δ b b' Q s ls s')
      (hs : Step δ s' l s'') (hl : ¬ NewLink b b' l) (hk : Linked s''.n b b') (hQ : Q s'') :
      While δ b b' Q s (ls ++ [l]) s''

/-- Some user of `b` is subscribed to `t`. -/
def Wanted (b : B) (t : T) (s : TNet U B T H) : Prop := TopicSync.Subscribed (s.n.st b) t

/-- `b'` forwards messages on `t` to `b`. -/
def Forwards (b' b : B) (t : T) (s : TNet U B T H) : Prop := b ∈ ((s.n.st b').getInterestedByTopic [t] false).1

/-- The time it takes: until the next periodic sync, or until the full sync for a new link, whichever is later, and
until the message has been sent and handled. -/
def delay (δ : Delays) : Nat := max δ.sync δ.full + δ.send + δ.link

/-! ## Proof -/

theorem S_step (n : MNet U B T H) (l : MLabel U B T H) (b : B) (h1 : l ≠ .startTopic b) (h2 : l ≠ .restart b) :
    (n.step l).S b = n.S b := by
  cases l with
  | connect c u hd ts => exact S_act_quiet n c (.addUser u hd ts) (by simp) b
  | disconnect c u => exact S_act_quiet n c (.removeUser u) (by simp) b
  | subscribe c u ts => exact S_act_quiet n c (.subscribeUser u ts) (by simp) b
  | unsubscribe c u ts => exact S_act_quiet n c (.unsubscribeUser u ts) (by simp) b
  | startTopic c =>
    have hne : b ≠ c := by rintro rfl; exact h1 rfl
    have : (n.step (.startTopic c)).st b = n.st b := by
      simp only [MNet.step]; split <;> exact st_act_ne _ _ _ hne
    unfold S; rw [this]
  | startUser c => simp only [MNet.step]; split <;> exact S_act_quiet n c .partialUserSync (by simp) b
  | readDests i => simp only [MNet.step]; split <;> rfl
  | send i ok =>
    simp only [MNet.step]
    split
    · rename_i c m d ds _
      split
      · split
        · rfl
        · exact S_act_quiet _ c (.removeBroker d) (by simp) b
      · rfl
    · rfl
  | linkUp c c' g g' =>
    simp only [MNet.step]
    split
    · rfl
    · exact (S_act_quiet _ c' (.addBroker c g') (by simp) b).trans (S_act_quiet n c (.addBroker c' g) (by simp) b)
  | fullTopic c c' =>
    simp only [MNet.step]; split
    · split <;> rfl
    · rfl
  | fullUser c c' =>
    simp only [MNet.step]; split
    · split <;> rfl
    · rfl
  | drop c c' => exact S_act_quiet n c (.removeBroker c') (by simp) b
  | deliver c c' =>
    simp only [MNet.step]; split
    · split
      · rfl
      · rename_i m _ _; exact S_act_quiet n c' (.applyUserSync m) (by simp) b
      · rename_i m _ _; exact S_act_quiet n c' (.applyTopicSync c m) (by simp) b
    · rfl
  | restart c =>
    have hne : b ≠ c := by rintro rfl; exact h2 rfl
    unfold S
    show (if b = c then (Conns.new c : Conns U B T H) else n.st b).topicSync = _
    rw [if_neg hne]

theorem syncDue_after (δ : Delays) (s : TNet U B T H) (l : MLabel U B T H) (b : B) (h1 : l ≠ .startTopic b)
    (h2 : l ≠ .restart b) : (s.after δ l).syncDue b = s.syncDue b := by
  cases l with
  | startTopic c =>
    have hne : b ≠ c := by rintro rfl; exact h1 rfl
    show (if b = c then s.now + δ.sync else s.syncDue b) = _
    rw [if_neg hne]
  | restart c =>
    have hne : b ≠ c := by rintro rfl; exact h2 rfl
    show (if b = c then s.now + δ.sync else s.syncDue b) = _
    rw [if_neg hne]
  | _ => rfl

theorem usyncDue_after (δ : Delays) (s : TNet U B T H) (l : MLabel U B T H) (b : B) (h1 : l ≠ .startUser b)
    (h2 : l ≠ .restart b) : (s.after δ l).usyncDue b = s.usyncDue b := by
  cases l with
  | startUser c =>
    have hne : b ≠ c := by rintro rfl; exact h1 rfl
    show (if b = c then s.now + δ.sync else s.usyncDue b) = _
    rw [if_neg hne]
  | restart c =>
    have hne : b ≠ c := by rintro rfl; exact h2 rfl
    show (if b = c then s.now + δ.sync else s.usyncDue b) = _
    rw [if_neg hne]
  | _ => rfl

theorem startTopic_st (n : MNet U B T H) (b : B) :
    (n.step (.startTopic b)).st b = (n.st b).getPartialTopicSync.1 := by
  simp only [MNet.step]
  split <;> exact st_act_self n b .partialTopicSync

theorem While.run {δ : Delays} {b b' : B} {Q : TNet U B T H → Prop} {s s' : TNet U B T H}
    {ls : List (TLabel U B T H)} (h : While δ b b' Q s ls s') : Run δ s ls s' := by
  induction h with
  | nil => exact .nil _
  | snoc _ hs _ _ _ ih => exact .snoc ih hs

theorem While.last {δ : Delays} {b b' : B} {Q : TNet U B T H → Prop} {s s' : TNet U B T H}
    {ls : List (TLabel U B T H)} (h : While δ b b' Q s ls s') : Linked s'.n b b' ∧ Q s' := by
  cases h with
  | nil h hQ => exact ⟨h, hQ⟩
  | snoc _ _ _ hk hQ => exact ⟨hk, hQ⟩

theorem run_append_timed {δ : Delays} {s s' s'' : TNet U B T H} {l1 l2 : List (TLabel U B T H)}
    (h1 : Run δ s l1 s') (h2 : Run δ s' l2 s'') : Run δ s (l1 ++ l2) s'' := by
  induction h2 with
  | nil => rw [List.append_nil]; exact h1
  | snoc _ hs ih => rw [← List.append_assoc]; exact .snoc ih hs

/-- What is known during the time: no sync of `b` has started yet, or `b` has announced what is wanted and it is on its
way, in time. -/
theorem while_inv {δ : Delays} {b b' : B} {t : T} {w : Prop} {s0 s s' : TNet U B T H} {ls ls' : List (TLabel U B T H)}
    (hs0 : s0 = start δ) (h0 : Run δ s0 ls s) (hw : While δ b b' (fun s => Wanted b t s ↔ w) s ls' s')
    (hlen : 2 * (ls.length + ls'.length) < 2 ^ 64) :
    s'.fullDue b b' = s.fullDue b b' ∧
    (s'.syncDue b = s.syncDue b ∨
      ((s'.n.S b).get t = some .subscribed ↔ w) ∧
      ∀ x, (s'.n.S b).map.get t = some x → TCov δ s' b b' t x (s.now + delay δ)) := by
  induction hw with
  | nil => exact ⟨rfl, .inl rfl⟩
  | @snoc s1 s2 ls1 l h hs hl hk hQ ih =>
    rw [List.length_append, List.length_singleton] at hlen
    obtain ⟨ih1, ih2⟩ := ih (by omega)
    have hI0 := inv_timed (hs0 ▸ h0) (by omega)
    have hrun1 := run_append_timed (hs0 ▸ h0) h.run
    have hI1 := inv_timed hrun1 (by rw [List.length_append]; omega)
    have hI2 := inv_timed (.snoc hrun1 hs) (by simp only [List.length_append, List.length_singleton]; omega)
    obtain ⟨hlk, hw1⟩ := h.last
    have k1 := (knows_iff _ _ _).1 hlk.1
    have k2 := (knows_iff _ _ _).1 hlk.2
    have k1' := (knows_iff _ _ _).1 hk.1
    have k2' := (knows_iff _ _ _).1 hk.2
    cases hs with
    | tick d ht => exact ⟨ih1, ih2⟩
    | ev l =>
      have hnr : ¬ Relink b b' l := by
        rintro ⟨x, y, c, c', rfl, e⟩
        exact hl e
      have hrb : l ≠ .restart b := by
        rintro rfl
        have h4 : (if b = b then (Conns.new b : Conns U B T H) else s1.n.st b).brokers.get b' ≠ none := k1'
        rw [if_pos rfl] at h4
        exact absurd rfl h4
      refine ⟨(fullDue_after δ s1 l b b' hnr).trans ih1, ?_⟩
      by_cases hst : l = .startTopic b
      · subst hst
        right
        obtain ⟨p1, _, _, _, p5, _⟩ := partialTopicSync_spec (s1.n.st b) (hI1.1.own b).index (hI1.1.own b).clean
        have hS : ((s1.after δ (.startTopic b)).n.S b) = (s1.n.st b).getPartialTopicSync.1.topicSync := by
          unfold S
          show ((s1.n.step (.startTopic b)).st b).topicSync = _
          rw [startTopic_st]
        have hprev := (hI2.1.own b).prev t
        have hstb : (s1.after δ (.startTopic b)).n.st b = (s1.n.st b).getPartialTopicSync.1 := startTopic_st _ _
        rw [hstb] at hprev
        have hloc : (s1.n.st b).LocalTopic t ↔ w := by
          rw [← TopicSync.subscribed_iff]; exact hw1
        refine ⟨?_, ?_⟩
        · rw [hS, hprev, p1 t, hloc]
        · intro x hx
          rcases ih2 with ih2 | ⟨ih2, ih3⟩
          · have h5 := hI2.1.cov b b' k1' k2' t x hx
            have h6 := hI1.2.timely.sync b
            have h7 := hI0.2.sync b
            have h8 := hI0.2.full b b'
            rcases tcov_of_cov hI2.2 h5 with h9 | ⟨h9, _⟩ | ⟨τ, e, g1, g2, g3, g4, _⟩ | ⟨m, e, g1, g2, _⟩
            · exact .inl h9
            · refine .inr (.inl ⟨h9, ?_⟩)
              rw [fullDue_after δ s1 _ b b' hnr, ih1]
              unfold delay; omega
            · refine .inr (.inr (.inl ⟨τ, e, g1, g2, g3, g4, ?_⟩))
              have := hI2.2.task e (List.of_mem_zip g1).2
              have hnow : (s1.after δ (.startTopic b)).now = s1.now := rfl
              unfold delay; omega
            · refine .inr (.inr (.inr ⟨m, e, g1, g2, ?_⟩))
              have := hI2.2.ch b b' e (List.of_mem_zip g1).2
              have hnow : (s1.after δ (.startTopic b)).now = s1.now := rfl
              unfold delay; omega
          · have hprev1 := (hI1.1.own b).prev t
            have hsame : (s1.n.S b).map.get t = some x := by
              rw [hS, p5 t] at hx
              have : (t ∈ (s1.n.st b).prev ↔ (s1.n.st b).LocalTopic t) := by
                rw [hloc, ← hprev1]; exact ih2
              rw [if_neg (fun e => e.2 (this.2 e.1)), if_neg (fun e => e.2 (this.1 e.1))] at hx
              exact hx
            exact tcov_after hI1.1 hI1.2 _ k1 k2 k1' k2' hnr hsame (ih3 x hsame)
      · have hS : (s1.after δ l).n.S b = s1.n.S b := S_step s1.n l b hst hrb
        rcases ih2 with ih2 | ⟨ih2, ih3⟩
        · left; rw [syncDue_after δ s1 l b hst hrb]; exact ih2
        · right
          rw [hS]
          exact ⟨ih2, fun x hx => tcov_after hI1.1 hI1.2 l k1 k2 k1' k2' hnr hx (ih3 x hx)⟩

/-- Both directions at once. -/
theorem settled_view {δ : Delays} {b b' : B} {t : T} {w : Prop} {s s' : TNet U B T H} {ls ls' : List (TLabel U B T H)}
    (h0 : Run δ (start δ) ls s) (hw : While δ b b' (fun s => Wanted b t s ↔ w) s ls' s')
    (hlen : 2 * (ls.length + ls'.length) < 2 ^ 64) (hnow : s.now + delay δ < s'.now) :
    Forwards b' b t s' ↔ w := by
  have hI0 := inv_timed h0 (by omega)
  have hI := inv_timed (run_append_timed h0 hw.run) (by rw [List.length_append]; omega)
  obtain ⟨hlk, _⟩ := hw.last
  obtain ⟨_, h | ⟨h1, h2⟩⟩ := while_inv rfl h0 hw hlen
  · have h3 := hI.2.timely.sync b
    have h4 := hI0.2.sync b
    unfold delay at hnow
    omega
  · have k1 := (knows_iff _ _ _).1 hlk.1
    have k2 := (knows_iff _ _ _).1 hlk.2
    obtain ⟨_, e, he, hpast, hval, hbwd⟩ := hI.1.view b b' k1 k2
    unfold Forwards
    rw [(mem_interested _ [t] false).2.1 b]
    simp only [true_and, List.mem_singleton, exists_eq_left]
    rw [hbwd t, ← h1]
    have hsame : e.topicSync.map.get t = (s'.n.S b).map.get t := by
      cases hs : (s'.n.S b).map.get t with
      | some x =>
        obtain ⟨e', h3, h4⟩ := tcov_over hI.2 hlk.2 (h2 x hs) hnow
        rw [he] at h3; cases h3; exact h4
      | none =>
        cases hl : e.topicSync.map.get t with
        | none => rfl
        | some y =>
          obtain ⟨z, hz, _⟩ := hpast t y hl
          rw [hs] at hz; simp at hz
    simp only [VMap.get, hsame]

/-! ## C98 -/

/-- **C98.** Brokers that start a topic sync at least every `δ.sync` (ten seconds) and whose syncs and links are not slower
than `δ` says; apart from that everything as in C71: users come, go, subscribe and unsubscribe, links come up and fail,
brokers crash, syncs run concurrently. As long as `b` and `b'` keep their link and `b` keeps a user subscribed to `t`, `b'`
forwards messages on `t` to `b` from `delay δ` on. It need not be the same user all the time. -/
theorem C98_known_in_time {δ : Delays} {b b' : B} {t : T} {s s' : TNet U B T H} {ls ls' : List (TLabel U B T H)}
    (h0 : Run δ (start δ) ls s) (hw : While δ b b' (Wanted b t) s ls' s')
    (hlen : 2 * (ls.length + ls'.length) < 2 ^ 64) (hnow : s.now + delay δ < s'.now) : Forwards b' b t s' := by
  refine (settled_view (w := True) h0 (ls' := ls') ?_ hlen hnow).2 trivial
  clear hlen hnow
  induction hw with
  | nil h hQ => exact .nil _ h (by simpa using hQ)
  | snoc _ hs hl hk hQ ih => exact .snoc ih hs hl hk (by simpa using hQ)

/-- **C98**, the other direction: with nobody subscribed at `b`, `b'` stops forwarding to `b`. -/
theorem C98_forgotten_in_time {δ : Delays} {b b' : B} {t : T} {s s' : TNet U B T H} {ls ls' : List (TLabel U B T H)}
    (h0 : Run δ (start δ) ls s) (hw : While δ b b' (fun s => ¬ Wanted b t s) s ls' s')
    (hlen : 2 * (ls.length + ls'.length) < 2 ^ 64) (hnow : s.now + delay δ < s'.now) : ¬ Forwards b' b t s' := by
  intro hf
  refine (settled_view (w := False) h0 (ls' := ls') ?_ hlen hnow).1 hf
  clear hlen hnow hf
  induction hw with
  | nil h hQ => exact .nil _ h (by simpa using hQ)
  | snoc _ hs hl hk hQ ih => exact .snoc ih hs hl hk (by simpa using hQ)

/-! ### After a sync -/

/-- The second part of `while_inv` by itself. -/
theorem while_told {δ : Delays} {b b' : B} {t : T} {w : Prop} {s0 s s' : TNet U B T H} {ls ls' : List (TLabel U B T H)}
    {L : Nat} (hs0 : s0 = start δ) (h0 : Run δ s0 ls s) (hw : While δ b b' (fun s => Wanted b t s ↔ w) s ls' s')
    (hlen : 2 * (ls.length + ls'.length) < 2 ^ 64)
    (h : ((s.n.S b).get t = some .subscribed ↔ w) ∧ ∀ x, (s.n.S b).map.get t = some x → TCov δ s b b' t x L) :
    ((s'.n.S b).get t = some .subscribed ↔ w) ∧ ∀ x, (s'.n.S b).map.get t = some x → TCov δ s' b b' t x L := by
  induction hw with
  | nil => exact h
  | @snoc s1 s2 ls1 l h' hs hl hk hQ ih =>
    rw [List.length_append, List.length_singleton] at hlen
    obtain ⟨ih2, ih3⟩ := ih (by omega)
    have hrun1 := run_append_timed (hs0 ▸ h0) h'.run
    have hI1 := inv_timed hrun1 (by rw [List.length_append]; omega)
    have hI2 := inv_timed (.snoc hrun1 hs) (by simp only [List.length_append, List.length_singleton]; omega)
    obtain ⟨hlk, hw1⟩ := h'.last
    have k1 := (knows_iff _ _ _).1 hlk.1
    have k2 := (knows_iff _ _ _).1 hlk.2
    have k1' := (knows_iff _ _ _).1 hk.1
    have k2' := (knows_iff _ _ _).1 hk.2
    cases hs with
    | tick d ht => exact ⟨ih2, ih3⟩
    | ev l =>
      have hnr : ¬ Relink b b' l := by
        rintro ⟨x, y, c, c', rfl, e⟩
        exact hl e
      have hrb : l ≠ .restart b := by
        rintro rfl
        have h4 : (if b = b then (Conns.new b : Conns U B T H) else s1.n.st b).brokers.get b' ≠ none := k1'
        rw [if_pos rfl] at h4
        exact absurd rfl h4
      have hget : ((s1.after δ l).n.S b).map.get t = (s1.n.S b).map.get t := by
        by_cases hst : l = .startTopic b
        · subst hst
          obtain ⟨_, _, _, _, p5, _⟩ := partialTopicSync_spec (s1.n.st b) (hI1.1.own b).index (hI1.1.own b).clean
          have hloc : (s1.n.st b).LocalTopic t ↔ w := by
            rw [← TopicSync.subscribed_iff]; exact hw1
          have hprev1 := (hI1.1.own b).prev t
          have this : (t ∈ (s1.n.st b).prev ↔ (s1.n.st b).LocalTopic t) := by
            rw [hloc, ← hprev1]; exact ih2
          show ((s1.n.step (.startTopic b)).st b).topicSync.map.get t = _
          rw [startTopic_st, p5 t, if_neg (fun e => e.2 (this.2 e.1)), if_neg (fun e => e.2 (this.1 e.1))]
        · have hS : (s1.after δ l).n.S b = s1.n.S b := S_step s1.n l b hst hrb
          rw [hS]
      refine ⟨?_, fun x hx => ?_⟩
      · rw [← ih2]; simp only [VMap.get, hget]
      · rw [hget] at hx
        exact tcov_after hI1.1 hI1.2 l k1 k2 k1' k2' hnr hx (ih3 x hx)

/-- **C98**, after a sync: from when a topic sync of `b` starts it takes only the time of sending and handling (and of the
full sync for a link that has just come up). With `strong-consistency`, on by default, a broker starts one for every user
that connects (`tasks/user/handler.rs:79-90`), so this is how soon the topics of a new user are known. -/
theorem C98_known_after_sync {δ : Delays} {b b' : B} {t : T} {s s' : TNet U B T H} {ls ls' : List (TLabel U B T H)}
    (h0 : Run δ (start δ) ls s) (hs : Wanted b t s)
    (hw : While δ b b' (Wanted b t) (s.after δ (.startTopic b)) ls' s')
    (hlen : 2 * (ls.length + 1 + ls'.length) < 2 ^ 64) (hnow : s.now + δ.full + δ.send + δ.link < s'.now) :
    Forwards b' b t s' := by
  have hI0 := inv_timed h0 (by omega)
  have h1 : Run δ (start δ) (ls ++ [.ev (.startTopic b)]) (s.after δ (.startTopic b)) := .snoc h0 (.ev _ _)
  have hI1 := inv_timed h1 (by rw [List.length_append, List.length_singleton]; omega)
  have hI := inv_timed (run_append_timed h1 hw.run) (by
    simp only [List.length_append, List.length_singleton]; omega)
  have hlk1 : Linked (s.after δ (.startTopic b)).n b b' := by
    clear hnow hlen hI
    induction hw with
    | nil h => exact h
    | snoc _ _ _ _ _ ih => exact ih
  have hw' : While δ b b' (fun s => Wanted b t s ↔ True) (s.after δ (.startTopic b)) ls' s' := by
    clear hnow hlen hI
    induction hw with
    | nil h hQ => exact .nil _ h (by simpa using hQ)
    | snoc _ hs hl hk hQ ih => exact .snoc ih hs hl hk (by simpa using hQ)
  obtain ⟨hlk, _⟩ := hw.last
  obtain ⟨p1, _⟩ := partialTopicSync_spec (s.n.st b) (hI0.1.own b).index (hI0.1.own b).clean
  have hstb : (s.after δ (.startTopic b)).n.st b = (s.n.st b).getPartialTopicSync.1 := startTopic_st _ _
  have hprev := (hI1.1.own b).prev t
  rw [hstb, p1 t, ← TopicSync.subscribed_iff] at hprev
  obtain ⟨h2, h3⟩ := while_told (L := s.now + δ.full + δ.send + δ.link) rfl h1 hw' (by
      rw [List.length_append, List.length_singleton]; omega) ⟨by
      unfold S; rw [hstb, hprev]; exact ⟨fun _ => trivial, fun _ => hs⟩, fun x hx =>
        tcov_of_cov hI1.2 (hI1.1.cov b b' ((knows_iff _ _ _).1 hlk1.1) ((knows_iff _ _ _).1 hlk1.2) t x hx)⟩
  obtain ⟨_, e, he, _, _, hbwd⟩ := hI.1.view b b' ((knows_iff _ _ _).1 hlk.1) ((knows_iff _ _ _).1 hlk.2)
  unfold Forwards
  rw [(mem_interested _ [t] false).2.1 b]
  simp only [true_and, List.mem_singleton, exists_eq_left]
  rw [hbwd t]
  have h4 := h2.2 trivial
  cases hx : (s'.n.S b).map.get t with
  | none => simp [VMap.get, hx] at h4
  | some x =>
    obtain ⟨e', h5, h6⟩ := tcov_over hI.2 hlk.2 (h3 x hx) hnow
    rw [he] at h5; cases h5
    simp only [VMap.get, hx] at h4
    simp only [VMap.get, h6]; exact h4

/-! ### Time can always go on -/

/-- Syncs neither add nor remove brokers. -/
theorem knows_sync (n : MNet U B T H) (l : MLabel U B T H) (hl : SyncOnly l) (hidx : ∀ b, (n.st b).IndexInv) :
    (∀ b, ((n.step l).st b).IndexInv) ∧ ∀ x y, (n.step l).knows x y = n.knows x y := by
  have hsame : ∀ n' : MNet U B T H, n'.st = n.st →
      (∀ b, (n'.st b).IndexInv) ∧ ∀ x y, n'.knows x y = n.knows x y := by
    intro n' e
    unfold knows
    rw [e]; exact ⟨hidx, fun _ _ => rfl⟩
  have hact : ∀ (n' : MNet U B T H) c (op : Op U B T H), n'.st = (n.act c op).st →
      (∀ y, ((n.st c).step op).brokers.get y ≠ none ↔ (n.st c).brokers.get y ≠ none) →
      (∀ b, (n'.st b).IndexInv) ∧ ∀ x y, n'.knows x y = n.knows x y := by
    intro n' c op e hg
    refine ⟨fun b => ?_, fun x y => ?_⟩
    · rw [e, st_act]; split
      · exact indexInv_step _ _ (hidx c)
      · exact hidx b
    · rw [Bool.eq_iff_iff, knows_iff, knows_iff, e, st_act]
      split
      · rename_i e'; subst e'; exact hg y
      · rfl
  cases l with
  | startTopic c =>
    simp only [MNet.step]
    split <;> exact hact _ c .partialTopicSync rfl
      (fun y => by rw [(notAbout_step _ y .partialTopicSync (hidx c) trivial).1])
  | startUser c =>
    simp only [MNet.step]
    split <;> exact hact _ c .partialUserSync rfl
      (fun y => by rw [(notAbout_step _ y .partialUserSync (hidx c) trivial).1])
  | readDests i => simp only [MNet.step]; split <;> exact hsame _ rfl
  | send i ok =>
    have hok : ok = true := hl
    subst hok
    simp only [MNet.step]
    split
    · split <;> exact hsame _ rfl
    · exact hsame _ rfl
  | fullTopic c c' =>
    simp only [MNet.step]; split
    · split <;> exact hsame _ rfl
    · exact hsame _ rfl
  | deliver c c' =>
    simp only [MNet.step]; split
    · rename_i hk
      split
      · exact hsame _ rfl
      · rename_i m _ _
        exact hact _ c' (.applyUserSync m) rfl
          (fun y => by rw [(notAbout_step _ y (.applyUserSync m) (hidx c') trivial).1])
      · rename_i m _ _
        exact hact _ c' (.applyTopicSync c m) rfl
          (fun y => applyTopicSync_known _ _ _ ((knows_iff _ _ _).1 hk) y)
    · exact hsame _ rfl
  | _ => exact absurd hl (by simp [SyncOnly])

theorem knows_syncs (ls : List (MLabel U B T H)) (n : MNet U B T H) (hl : ∀ l ∈ ls, SyncOnly l)
    (hidx : ∀ b, (n.st b).IndexInv) :
    (∀ b, ((n.run ls).st b).IndexInv) ∧ ∀ x y, (n.run ls).knows x y = n.knows x y := by
  induction ls generalizing n with
  | nil => exact ⟨hidx, fun _ _ => rfl⟩
  | cons l ls ih =>
    obtain ⟨h1, h2⟩ := knows_sync n l (hl l (by simp)) hidx
    obtain ⟨h3, h4⟩ := ih (n.step l) (fun l' hl' => hl l' (by simp [hl'])) h1
    exact ⟨h3, fun x y => (h4 x y).trans (h2 x y)⟩

/-- All full topic syncs are started. -/
theorem start_all (k : Nat) (n : MNet U B T H) (hk : n.fullT.length = k) :
    ∃ ls : List (MLabel U B T H), (∀ l ∈ ls, SyncOnly l) ∧ (n.run ls).fullT = [] := by
  induction k generalizing n with
  | zero => exact ⟨[], by simp, List.length_eq_zero_iff.1 hk⟩
  | succ k ih =>
    obtain ⟨⟨x, y⟩, hm⟩ : ∃ p, p ∈ n.fullT := by
      cases hf : n.fullT with
      | nil => rw [hf] at hk; simp at hk
      | cons p r => exact ⟨p, by simp⟩
    have h1 : (n.step (.fullTopic x y)).fullT = n.fullT.erase (x, y) := by
      simp only [MNet.step, if_pos hm]; split <;> rfl
    obtain ⟨ls, h2, h3⟩ := ih (n.step (.fullTopic x y)) (by rw [h1, List.length_erase_of_mem hm]; omega)
    refine ⟨.fullTopic x y :: ls, ?_, h3⟩
    intro l hl
    rcases List.mem_cons.1 hl with rfl | hl
    · trivial
    · exact h2 l hl

theorem deliver_rest (n : MNet U B T H) (b b' : B) :
    (n.step (.deliver b b')).tasks = n.tasks ∧ (n.step (.deliver b b')).fullT = n.fullT := by
  simp only [MNet.step]; split
  · split <;> exact ⟨rfl, rfl⟩
  · exact ⟨rfl, rfl⟩

/-- Everything queued from `x` to `y` is handled. -/
theorem drain_one (x y : B) (k : Nat) (n : MNet U B T H) (hidx : ∀ b, (n.st b).IndexInv)
    (hkn : n.knows y x = true) (hk : (n.ch x y).length = k) :
    ∃ ls : List (MLabel U B T H), (∀ l ∈ ls, SyncOnly l) ∧ (n.run ls).tasks = n.tasks ∧
      (n.run ls).fullT = n.fullT ∧ (n.run ls).ch x y = [] ∧
      ∀ z w, ¬ (z = x ∧ w = y) → (n.run ls).ch z w = n.ch z w := by
  induction k generalizing n with
  | zero => exact ⟨[], by simp, rfl, rfl, List.length_eq_zero_iff.1 hk, fun _ _ _ => rfl⟩
  | succ k ih =>
    obtain ⟨h1, h2⟩ := knows_sync n (.deliver x y) trivial hidx
    obtain ⟨d1, d2⟩ := deliver_rest n x y
    have hlen : ((n.step (.deliver x y)).ch x y).length = k := by
      cases hq : n.ch x y with
      | nil => rw [hq] at hk; simp at hk
      | cons m r =>
        rw [hq] at hk
        simp only [MNet.step, if_pos hkn, hq]
        cases m <;> simpa [setCh] using hk
    obtain ⟨ls, g1, g2, g3, g4, g5⟩ := ih (n.step (.deliver x y)) h1 ((h2 y x).trans hkn) hlen
    refine ⟨.deliver x y :: ls, ?_, g2.trans d1, g3.trans d2, g4, ?_⟩
    · intro l hl
      rcases List.mem_cons.1 hl with rfl | hl
      · trivial
      · exact g1 l hl
    · intro z w hzw
      refine (g5 z w hzw).trans ?_
      rcases ch_deliver n x y z w with e | ⟨e1, e2, _⟩
      · exact e
      · exact absurd ⟨e1, e2⟩ hzw

theorem drain_all (ps : List (B × B)) (n : MNet U B T H) (hidx : ∀ b, (n.st b).IndexInv) :
    ∃ ls : List (MLabel U B T H), (∀ l ∈ ls, SyncOnly l) ∧ (n.run ls).tasks = n.tasks ∧
      (n.run ls).fullT = n.fullT ∧
      (∀ p ∈ ps, n.knows p.2 p.1 = true → (n.run ls).ch p.1 p.2 = []) ∧
      ∀ z w, n.ch z w = [] → (n.run ls).ch z w = [] := by
  induction ps generalizing n with
  | nil => exact ⟨[], by simp, rfl, rfl, by simp, fun _ _ h => h⟩
  | cons p ps ih =>
    obtain ⟨x, y⟩ := p
    by_cases hk : n.knows y x = true
    · obtain ⟨l1, a1, a2, a3, a4, a5⟩ := drain_one x y _ n hidx hk rfl
      obtain ⟨k1, k2⟩ := knows_syncs l1 n a1 hidx
      obtain ⟨l2, c1, c2, c3, c4, c5⟩ := ih (n.run l1) k1
      refine ⟨l1 ++ l2, ?_, ?_, ?_, ?_, ?_⟩
      · intro l hl
        rcases List.mem_append.1 hl with hl | hl
        · exact a1 l hl
        · exact c1 l hl
      · rw [Mesh.run_append, c2, a2]
      · rw [Mesh.run_append, c3, a3]
      · intro p hp hkp
        rw [Mesh.run_append]
        rcases List.mem_cons.1 hp with rfl | hp
        · exact c5 _ _ a4
        · exact c4 p hp ((k2 _ _).trans hkp)
      · intro z w hzw
        rw [Mesh.run_append]
        apply c5
        by_cases e : z = x ∧ w = y
        · rw [e.1, e.2]; exact a4
        · rw [a5 z w e]; exact hzw
    · obtain ⟨l2, c1, c2, c3, c4, c5⟩ := ih n hidx
      refine ⟨l2, c1, c2, c3, ?_, c5⟩
      intro p hp hkp
      rcases List.mem_cons.1 hp with rfl | hp
      · exact absurd hkp hk
      · exact c4 p hp hkp

/-- Several things happen at the same time. -/
def afters (δ : Delays) (s : TNet U B T H) (ls : List (MLabel U B T H)) : TNet U B T H := ls.foldl (after δ) s

theorem afters_n (δ : Delays) (ls : List (MLabel U B T H)) (s : TNet U B T H) :
    (afters δ s ls).n = s.n.run ls ∧ (afters δ s ls).now = s.now := by
  induction ls generalizing s with
  | nil => exact ⟨rfl, rfl⟩
  | cons l ls ih => exact ih (s.after δ l)

theorem afters_append (δ : Delays) (s : TNet U B T H) (l1 l2 : List (MLabel U B T H)) :
    afters δ s (l1 ++ l2) = afters δ (afters δ s l1) l2 := List.foldl_append

theorem afters_snoc (δ : Delays) (s : TNet U B T H) (ls : List (MLabel U B T H)) (l : MLabel U B T H) :
    afters δ s (ls ++ [l]) = (afters δ s ls).after δ l := by rw [afters_append]; rfl

/-- Once a sync has been started, the next one is due a full interval later. -/
theorem afters_syncDue (δ : Delays) (ls : List (MLabel U B T H)) (s : TNet U B T H) (b : B)
    (h : s.syncDue b = s.now + δ.sync ∨ .startTopic b ∈ ls) : (afters δ s ls).syncDue b = s.now + δ.sync := by
  induction ls generalizing s with
  | nil =>
    rcases h with h | h
    · exact h
    · simp at h
  | cons l ls ih =>
    refine ih (s.after δ l) ?_
    show (s.after δ l).syncDue b = s.now + δ.sync ∨ _
    by_cases h1 : l = .startTopic b
    · subst h1
      left; show (if b = b then _ else _) = _; rw [if_pos rfl]
    · by_cases h2 : l = .restart b
      · subst h2
        left; show (if b = b then _ else _) = _; rw [if_pos rfl]
      · rcases h with h | h
        · left; rw [syncDue_after δ s l b h1 h2]; exact h
        · right
          rcases List.mem_cons.1 h with e | h
          · exact absurd e.symm h1
          · exact h

theorem afters_usyncDue (δ : Delays) (ls : List (MLabel U B T H)) (s : TNet U B T H) (b : B)
    (h : s.usyncDue b = s.now + δ.sync ∨ .startUser b ∈ ls) : (afters δ s ls).usyncDue b = s.now + δ.sync := by
  induction ls generalizing s with
  | nil =>
    rcases h with h | h
    · exact h
    · simp at h
  | cons l ls ih =>
    refine ih (s.after δ l) ?_
    show (s.after δ l).usyncDue b = s.now + δ.sync ∨ _
    by_cases h1 : l = .startUser b
    · subst h1
      left; show (if b = b then _ else _) = _; rw [if_pos rfl]
    · by_cases h2 : l = .restart b
      · subst h2
        left; show (if b = b then _ else _) = _; rw [if_pos rfl]
      · rcases h with h | h
        · left; rw [usyncDue_after δ s l b h1 h2]; exact h
        · right
          rcases List.mem_cons.1 h with e | h
          · exact absurd e.symm h1
          · exact h

theorem while_afters (δ : Delays) (b b' : B) (s : TNet U B T H) (ls : List (MLabel U B T H))
    (hs : ∀ l ∈ ls, SyncOnly l) (hidx : ∀ b, (s.n.st b).IndexInv) (hlk : Linked s.n b b') (ls0 : List (MLabel U B T H))
    (hpre : ∃ r, ls = ls0 ++ r) :
    While δ b b' (fun _ => True) s (ls0.map .ev) (afters δ s ls0) := by
  obtain ⟨m, hm⟩ : ∃ m, ls0.length = m := ⟨_, rfl⟩
  induction m generalizing ls0 with
  | zero => rw [List.length_eq_zero_iff.1 hm]; exact .nil _ hlk trivial
  | succ m ih =>
    obtain ⟨l1, l, rfl⟩ : ∃ l1 l, ls0 = l1 ++ [l] := by
      rcases List.eq_nil_or_concat ls0 with h | ⟨l1, l, h⟩
      · rw [h] at hm; simp at hm
      · exact ⟨l1, l, by simpa using h⟩
    obtain ⟨r, hr⟩ := hpre
    have hin : ∀ x ∈ l1 ++ [l], SyncOnly x := fun x hx => hs x (by rw [hr]; exact List.mem_append_left _ hx)
    rw [afters_snoc, List.map_append]
    refine .snoc (ih l1 ⟨[l] ++ r, by rw [hr]; simp⟩ (by simpa using hm)) (.ev _ l) ?_ ?_ trivial
    · have := hin l (by simp)
      cases l <;> first | exact fun h => h | exact absurd this (by simp [SyncOnly])
    · have h1 := knows_syncs (l1 ++ [l]) s.n hin hidx
      have h2 : ((afters δ s l1).after δ l).n = s.n.run (l1 ++ [l]) := by
        rw [← afters_snoc]; exact (afters_n δ _ s).1
      unfold Linked
      rw [h2, h1.2, h1.2]; exact hlk

/-- With finitely many brokers all that is due can be done at once. -/
theorem sync_round {δ : Delays} (bs : List B) (hbs : ∀ b, b ∈ bs)
    {s : TNet U B T H} {ls : List (TLabel U B T H)} (h0 : Run δ (start δ) ls s) (hlen : 2 * ls.length < 2 ^ 64) :
    ∃ L : List (MLabel U B T H), (∀ l ∈ L, SyncOnly l) ∧ (afters δ s L).InTime (s.now + δ.sync) := by
  obtain ⟨hI, hD⟩ := inv_timed h0 hlen
  have hidx : ∀ b, (s.n.st b).IndexInv := fun b => (hI.own b).index
  let l0 : List (MLabel U B T H) := bs.map .startTopic ++ bs.map .startUser
  have a0 : ∀ l ∈ l0, SyncOnly l := by
    intro l hl
    rcases List.mem_append.1 hl with hl | hl <;> obtain ⟨c, _, rfl⟩ := List.mem_map.1 hl <;> trivial
  obtain ⟨k0, _⟩ := knows_syncs l0 s.n a0 hidx
  obtain ⟨l1, a1, f1⟩ := start_all _ (s.n.run l0) rfl
  obtain ⟨k1, _⟩ := knows_syncs l1 _ a1 k0
  obtain ⟨l2, a2, s2, f2, n2, t2⟩ := finish_all ((s.n.run l0).run l1) _ (Nat.le_refl _)
  obtain ⟨k2, _⟩ := knows_syncs l2 _ a2 k1
  obtain ⟨l3, a3, t3, f3, c3, _⟩ := drain_all (bs.flatMap (fun x => bs.map (fun y => (x, y))))
    (((s.n.run l0).run l1).run l2) k2
  let L := l0 ++ l1 ++ l2 ++ l3
  have aL : ∀ l ∈ L, SyncOnly l := by
    intro l hl
    simp only [L, List.mem_append] at hl
    rcases hl with ((hl | hl) | hl) | hl
    · exact a0 l hl
    · exact a1 l hl
    · exact a2 l hl
    · exact a3 l hl
  have hrun : s.n.run L = (((s.n.run l0).run l1).run l2).run l3 := by
    simp only [L, Mesh.run_append]
  have hn : (afters δ s L).n = (((s.n.run l0).run l1).run l2).run l3 := (afters_n δ L s).1.trans hrun
  have hD' : ∀ (ms : List (MLabel U B T H)) (s : TNet U B T H), (∀ l ∈ ms, SyncOnly l) → (∀ b, (s.n.st b).IndexInv) →
      DInv δ s → DInv δ (afters δ s ms) := by
    intro ms
    induction ms with
    | nil => intro s _ _ h; exact h
    | cons l ms ih =>
      intro s ha hx h
      exact ih (s.after δ l) (fun l' hl' => ha l' (by simp [hl'])) (knows_sync s.n l (ha l (by simp)) hx).1
        (dinv_after h hx l)
  have hDL := hD' L s aL hidx hD
  have hnow : (afters δ s L).now = s.now := (afters_n δ L s).2
  rw [← hnow]
  refine ⟨L, aL, ⟨?_, ?_, ?_, ?_, ?_⟩⟩
  · intro c
    rw [hnow, afters_syncDue δ L s c (.inr ?_)]
    · omega
    · simp only [L, l0, List.mem_append, List.mem_map]
      exact .inl (.inl (.inl (.inl ⟨c, hbs c, rfl⟩)))
  · intro c
    rw [hnow, afters_usyncDue δ L s c (.inr ?_)]
    · omega
    · simp only [L, l0, List.mem_append, List.mem_map]
      exact .inl (.inl (.inl (.inr ⟨c, hbs c, rfl⟩)))
  · intro x y hm
    rw [hn, f3, f2, f1] at hm
    simp at hm
  · intro i τ e hi hne
    rw [hn, t3] at hi
    exact absurd (t2 i τ (by rw [← n2]; exact (List.getElem?_eq_some_iff.1 hi).1) hi) hne
  · intro x y hk e he
    have hk2 : (((s.n.run l0).run l1).run l2).knows y x = true := by
      rw [hn, (knows_syncs l3 _ a3 k2).2] at hk; exact hk
    have h3 := c3 (x, y) (by
      simp only [List.mem_flatMap, List.mem_map]
      exact ⟨x, hbs x, y, hbs y, rfl⟩) hk2
    have h4 := hDL.chLen x y
    rw [hn, h3] at h4
    rw [List.length_eq_zero_iff.1 h4] at he
    simp at he

/-- **C98**, the premises can be met: with finitely many brokers time goes on in every reachable state, by syncs alone,
with all brokers in time and `b` and `b'` linked as they were; nothing has to be put off. -/
theorem C98_time_goes_on {δ : Delays} (bs : List B) (hbs : ∀ b, b ∈ bs) {b b' : B}
    {s : TNet U B T H} {ls : List (TLabel U B T H)} (h0 : Run δ (start δ) ls s) (hlen : 2 * ls.length < 2 ^ 64)
    (hlk : Linked s.n b b') :
    ∃ ls' s', While δ b b' (fun _ => True) s ls' s' ∧ s'.now = s.now + δ.sync := by
  obtain ⟨L, aL, hin⟩ := sync_round bs hbs h0 hlen
  have hnow : (afters δ s L).now = s.now := (afters_n δ L s).2
  have hw := while_afters δ b b' s L aL (fun b => ((inv_timed h0 hlen).1.own b).index) hlk L ⟨[], by simp⟩
  refine ⟨L.map .ev ++ [.tick δ.sync], _, .snoc hw (.tick _ δ.sync (by rw [hnow]; exact hin)) (by intro h; exact h)
    ?_ trivial, ?_⟩
  · exact hw.last.1
  · show (afters δ s L).now + δ.sync = _
    rw [hnow]

end

/-! ### A case -/

section Case

/-- Ten seconds between syncs; small delays for the rest. -/
def δ0 : Delays := ⟨10000, 100, 50, 200⟩

abbrev Net2 := TNet Nat (Fin 2) Nat Nat

section
variable {k : Nat} {U T H : Type} [DecidableEq U] [DecidableEq T] [DecidableEq H]

/-- `InTime`, computed. -/
def inTime (s : TNet U (Fin k) T H) (t : Nat) : Bool :=
  decide (∀ b, t ≤ s.syncDue b) && decide (∀ b, t ≤ s.usyncDue b) && decide (∀ b b', (b, b') ∈ s.n.fullT → t ≤ s.fullDue b b') &&
    (s.n.tasks.zip s.taskDue).all (fun p => decide (p.1.dests = some []) || decide (t ≤ p.2)) &&
    decide (∀ b b', s.n.knows b' b = true → ∀ e ∈ s.chDue b b', t ≤ e)

theorem inTime_spec {s : TNet U (Fin k) T H} {t : Nat} (h : inTime s t = true) : s.InTime t := by
  simp only [inTime, Bool.and_eq_true, decide_eq_true_eq] at h
  obtain ⟨⟨⟨⟨h1, h1'⟩, h2⟩, h3⟩, h4⟩ := h
  refine ⟨h1, h1', h2, ?_, h4⟩
  intro i τ e hi hne he
  have := List.all_eq_true.1 h3 (τ, e) (mem_zip.2 ⟨i, hi, he⟩)
  simp only [Bool.or_eq_true, decide_eq_true_eq] at this
  exact this.resolve_left hne

/-- One step, computed; `none`: something would be overdue. -/
def next (s : TNet U (Fin k) T H) : TLabel U (Fin k) T H → Option (TNet U (Fin k) T H)
  | .tick d => if inTime s (s.now + d) then some { s with now := s.now + d } else none
  | .ev l => some (s.after δ0 l)

theorem next_spec {s s' : TNet U (Fin k) T H} {l : TLabel U (Fin k) T H} (h : next s l = some s') : Step δ0 s l s' := by
  cases l with
  | tick d =>
    simp only [next] at h
    split at h
    · cases h; exact .tick s d (inTime_spec (by assumption))
    · cases h
  | ev l => cases h; exact .ev s l

def run? (s : TNet U (Fin k) T H) : List (TLabel U (Fin k) T H) → Option (TNet U (Fin k) T H)
  | [] => some s
  | l :: ls => (next s l).bind (run? · ls)

theorem run?_spec {ls : List (TLabel U (Fin k) T H)} {s0 s s' : TNet U (Fin k) T H} {l0 : List (TLabel U (Fin k) T H)}
    (h0 : Run δ0 s0 l0 s) (h : run? s ls = some s') : Run δ0 s0 (l0 ++ ls) s' := by
  induction ls generalizing s l0 with
  | nil => cases h; rw [List.append_nil]; exact h0
  | cons l ls ih =>
    simp only [run?, Option.bind_eq_some_iff] at h
    obtain ⟨s1, h1, h2⟩ := h
    have := ih (.snoc h0 (next_spec h1)) h2
    rwa [List.append_assoc] at this

end

/-- Broker 0 and broker 1 come up and are linked; broker 0 has just synced when user 5 subscribes to topic 7. -/
def before : List (TLabel Nat (Fin 2) Nat Nat) :=
  [.ev (.linkUp 0 1 0 0), .ev (.fullTopic 0 1), .ev (.fullTopic 1 0), .ev (.connect 0 5 50 []), .tick 1000,
   .ev (.startUser 0), .ev (.startTopic 0), .ev (.startUser 1), .ev (.startTopic 1), .ev (.readDests 0), .ev (.send 0 true),
   .ev (.deliver 0 1), .ev (.subscribe 0 5 [7])]

/-- The next sync, as late as can be. -/
def then_ : List (TLabel Nat (Fin 2) Nat Nat) :=
  [.tick 10000, .ev (.startUser 0), .ev (.startUser 1), .ev (.startTopic 0), .ev (.startTopic 1), .tick 50,
   .ev (.readDests 1), .ev (.send 1 true), .tick 200]

/-- The message is handled, and time goes on. -/
def last_ : List (TLabel Nat (Fin 2) Nat Nat) := [.ev (.deliver 0 1), .tick 1]

/-- The two are linked, and user 5 of broker 0 is subscribed to topic 7. -/
def wants (s : Net2) : Bool :=
  s.n.knows 0 1 && s.n.knows 1 0 && decide (5 ∈ ((s.n.st 0).getInterestedByTopic [7] true).2)

theorem wants_spec {s : Net2} (h : wants s = true) : Linked s.n 0 1 ∧ Wanted 0 7 s := by
  simp only [wants, Bool.and_eq_true, decide_eq_true_eq] at h
  exact ⟨h.1, 5, h.2⟩

def isLinkUp : TLabel Nat (Fin 2) Nat Nat → Bool
  | .ev (.linkUp ..) => true
  | _ => false

def while? (s : Net2) : List (TLabel Nat (Fin 2) Nat Nat) → Option Net2
  | [] => if wants s then some s else none
  | l :: ls => if wants s && !isLinkUp l then (next s l).bind (while? · ls) else none

theorem while?_spec {ls : List (TLabel Nat (Fin 2) Nat Nat)} {s0 s s' : Net2} {l0 : List (TLabel Nat (Fin 2) Nat Nat)}
    (h0 : While δ0 0 1 (Wanted 0 7) s0 l0 s) (h : while? s ls = some s') :
    While δ0 0 1 (Wanted 0 7) s0 (l0 ++ ls) s' := by
  induction ls generalizing s l0 with
  | nil =>
    simp only [while?] at h
    split at h
    · cases h; rw [List.append_nil]; exact h0
    · cases h
  | cons l ls ih =>
    simp only [while?] at h
    split at h
    · rename_i hw
      simp only [Bool.and_eq_true, Bool.not_eq_true'] at hw
      simp only [Option.bind_eq_some_iff] at h
      obtain ⟨s1, h1, h2⟩ := h
      have hw1 : wants s1 = true := by
        cases ls with
        | nil => simp only [while?] at h2; split at h2 <;> first | assumption | cases h2
        | cons l' ls =>
          simp only [while?] at h2
          split at h2
          · rename_i hh; exact ((Bool.and_eq_true _ _).mp hh).1
          · cases h2
      have hl : ¬ NewLink 0 1 l := by
        intro hn
        cases l with
        | tick => exact hn
        | ev l => cases l <;> first | exact hn | exact absurd hw.2 (by simp [isLinkUp])
      have := ih (.snoc h0 (next_spec h1) hl (wants_spec hw1).1 (wants_spec hw1).2) h2
      rwa [List.append_assoc] at this
    · cases h

def s1 : Net2 := (run? (start δ0) before).getD (start δ0)
def s2 : Net2 := (while? s1 then_).getD s1
def s3 : Net2 := (while? s2 last_).getD s2

theorem run_before : Run δ0 (start δ0) before s1 := by
  have h : (run? (start δ0) before).isSome = true := by decide +kernel
  obtain ⟨x, hx⟩ := Option.isSome_iff_exists.1 h
  have e : s1 = x := by unfold s1; rw [hx]; rfl
  rw [e]; exact run?_spec (l0 := []) (.nil _) hx

theorem while_then : While δ0 0 1 (Wanted 0 7) s1 then_ s2 := by
  have h : (while? s1 then_).isSome = true := by decide +kernel
  have hw : wants s1 = true := by decide +kernel
  obtain ⟨x, hx⟩ := Option.isSome_iff_exists.1 h
  have e : s2 = x := by unfold s2; rw [hx]; rfl
  rw [e]; exact while?_spec (l0 := []) (.nil _ (wants_spec hw).1 (wants_spec hw).2) hx

theorem while_last : While δ0 0 1 (Wanted 0 7) s1 (then_ ++ last_) s3 := by
  have h : (while? s2 last_).isSome = true := by decide +kernel
  obtain ⟨x, hx⟩ := Option.isSome_iff_exists.1 h
  have e : s3 = x := by unfold s3; rw [hx]; rfl
  rw [e]; exact while?_spec while_then hx

/-- **C98**, the bound is reached: ten seconds and a quarter after user 5 has subscribed, broker 1 does not yet
forward messages on their topic to broker 0. -/
theorem C98_bound_reached : Run δ0 (start δ0) before s1 ∧ While δ0 0 1 (Wanted 0 7) s1 then_ s2 ∧
    s2.now = s1.now + delay δ0 ∧ delay δ0 = 10250 ∧ ¬ Forwards 1 0 7 s2 :=
  ⟨run_before, while_then, by decide +kernel, by decide +kernel, by unfold Forwards; decide +kernel⟩

/-- A millisecond later it does: C98 applies. -/
example : Forwards 1 0 7 s3 :=
  C98_known_in_time run_before while_last (by decide +kernel) (by decide +kernel)

def s4 : Net2 := (run? (start δ0) (before ++ then_.take 3)).getD (start δ0)
def s5 : Net2 := (while? (s4.after δ0 (.startTopic 0)) (then_.drop 4 ++ [.ev (.deliver 0 1), .tick 101])).getD s4

/-- Counted from the sync it is about a third of a second. -/
example : Forwards 1 0 7 s5 ∧ s5.now = s4.now + 351 := by
  refine ⟨?_, by decide +kernel⟩
  have h1 : Run δ0 (start δ0) (before ++ then_.take 3) s4 := by
    have h : (run? (start δ0) (before ++ then_.take 3)).isSome = true := by decide +kernel
    obtain ⟨x, hx⟩ := Option.isSome_iff_exists.1 h
    have e : s4 = x := by unfold s4; rw [hx]; rfl
    rw [e]; exact run?_spec (l0 := []) (.nil _) hx
  have hw4 : wants s4 = true := by decide +kernel
  have h2 : While δ0 0 1 (Wanted 0 7) (s4.after δ0 (.startTopic 0))
      (then_.drop 4 ++ [.ev (.deliver 0 1), .tick 101]) s5 := by
    have h : (while? (s4.after δ0 (.startTopic 0)) (then_.drop 4 ++ [.ev (.deliver 0 1), .tick 101])).isSome = true := by
      decide +kernel
    have hw : wants (s4.after δ0 (.startTopic 0)) = true := by decide +kernel
    obtain ⟨x, hx⟩ := Option.isSome_iff_exists.1 h
    have e : s5 = x := by unfold s5; rw [hx]; rfl
    rw [e]; exact while?_spec (l0 := []) (.nil _ (wants_spec hw).1 (wants_spec hw).2) hx
  exact C98_known_after_sync h1 (wants_spec hw4).2 h2 (by decide +kernel) (by decide +kernel)

end Case

end Verif.Props.MeshTime

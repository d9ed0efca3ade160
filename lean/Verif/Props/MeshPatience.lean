import Verif.Props.MeshTime
import Verif.Props.MeshTurn

/-!
# Property C99: users who wait before they move are found
-/

set_option linter.unusedSectionVars false

namespace Verif.Props.MeshPatience
open Verif Verif.Conns Verif.MNet Verif.TNet Verif.Props.Mesh Verif.Props.MeshUsers Verif.Props.MeshTurn Verif.Props.MeshTime

section
variable {U B T H : Type} [DecidableEq U] [DecidableEq B] [DecidableEq T] [DecidableEq H]
  [LT B] [DecidableLT B]

/-! ## Specification -/

/-- `u` connects to a broker, or leaves the broker that believes to have them. -/
def Change (u : U) (n : MNet U B T H) : MLabel U B T H → Prop
  | .connect _ u' _ _ => u' = u
  | .disconnect b u' => u' = u ∧ (n.st b).getBrokerOfUser u = some b
  | _ => False

/-- No link comes or goes, no broker is restarted, no send fails. -/
def Steady : MLabel U B T H → Prop
  | .linkUp _ _ _ _ | .drop _ _ | .restart _ => False
  | .send _ ok => ok = true
  | _ => True

/-- Steps during which links are steady and any two changes of `u` are more than `w` apart. The last argument is the
time of the last change of `u`. -/
inductive Patient (δ : Delays) (w : Nat) (u : U) (s0 : TNet U B T H) :
    List (TLabel U B T H) → TNet U B T H → Option Nat → Prop
  | nil : Patient δ w u s0 [] s0 none
  | tick {s s' : TNet U B T H} {ls : List (TLabel U B T H)} {t : Option Nat} {d : Nat} (h : Patient δ w u s0 ls s t)
      (hs : Step δ s (.tick d) s') : Patient δ w u s0 (ls ++ [.tick d]) s' t
  | other {s s' : TNet U B T H} {ls : List (TLabel U B T H)} {t : Option Nat} {l : MLabel U B T H}
      (h : Patient δ w u s0 ls s t) (hs : Step δ s (.ev l) s') (hl : Steady l) (hc : ¬ Change u s.n l) :
      Patient δ w u s0 (ls ++ [.ev l]) s' t
  | change {s s' : TNet U B T H} {ls : List (TLabel U B T H)} {t : Option Nat} {l : MLabel U B T H}
      (h : Patient δ w u s0 ls s t) (hs : Step δ s (.ev l) s') (hc : Change u s.n l)
      (hw : ∀ t0, t = some t0 → t0 + w < s.now) : Patient δ w u s0 (ls ++ [.ev l]) s' (some s.now)

/-- The time to wait: until the next periodic sync, and until the message has been sent and handled. -/
def wait (δ : Delays) : Nat := δ.sync + δ.send + δ.link

/-! ## Proof -/

theorem unann_iff (u : U) (n : MNet U B T H) (x : B) :
    Unannounced u n x ↔ (UNet.view (n.st x) u).m = true := by
  unfold Unannounced UNet.view; simp

theorem Patient.run {δ : Delays} {w : Nat} {u : U} {s0 s : TNet U B T H} {ls : List (TLabel U B T H)} {t : Option Nat}
    (h : Patient δ w u s0 ls s t) : Run δ s0 ls s := by
  induction h with
  | nil => exact .nil _
  | tick _ hs ih => exact .snoc ih hs
  | other _ hs _ _ ih => exact .snoc ih hs
  | change _ hs _ _ ih => exact .snoc ih hs

/-- A delivery does not make a broker have something to announce. -/
theorem deliver_m {n : MNet U B T H} {u : U} {loc : Option B} {k : Nat} (h : UserSync.Inv u (ghost n) loc k)
    (b b' : B) (m : DirectMap U B) (rest : List (SyncMsg U B T)) (hq : n.ch b b' = .user m :: rest)
    (hm : (UNet.view ((n.st b').applyUserSync m) u).m = true) : (UNet.view (n.st b') u).m = true := by
  cases hg : m.map.get u with
  | none => rw [UNet.view_apply_none _ u m hg] at hm; exact hm
  | some x =>
    by_cases ht : VMap.takes (n.st b').direct.ident m.ident (UNet.view (n.st b') u).e x
    · exfalso
      have hcu : ∃ r, UserSync.chU u (ghost n) b b' = x :: r := by
        rw [chU_ghost, hq, List.filterMap_cons]
        simp only [entryOf, hg]
        exact ⟨_, rfl⟩
      obtain ⟨r, hcu⟩ := hcu
      obtain ⟨h0, base, ed, e, h | h⟩ := h
      · rw [h.chans] at hcu; simp at hcu
      · have hbed : b = ed ∧ b' ≠ ed := by
          apply Classical.byContradiction
          intro hne
          have : b ≠ ed ∨ b' = ed := by
            by_cases h1 : b = ed
            · by_cases h2 : b' = ed
              · exact Or.inr h2
              · exact absurd ⟨h1, h2⟩ hne
            · exact Or.inl h1
          rw [h.chans b b' this] at hcu; simp at hcu
        obtain ⟨rfl, hb'⟩ := hbed
        obtain ⟨hm', h1⟩ := h.others b' hb'
        rcases h1.symm with h1 | h1
        · rw [h1.1] at hcu; simp at hcu
        · obtain ⟨hc1, he1, hst1⟩ := h1
          rw [hc1] at hcu
          injection hcu with hx hrest
          subst hx
          have hne : e.value ≠ some (n.st b').identity := by
            rw [show (n.st b').identity = b' from h0 b', h.core.val]
            rcases h.core.here with h2 | h2
            · rw [h2]; simp
            · rw [h2]; intro h3; exact hb' (Option.some.inj h3).symm
          have hm0 : (UNet.view (n.st b') u).m = false := hm'
          rw [UNet.view_apply_taken _ u m e hg ht hne (by rw [hm0]; simp)] at hm
          simp at hm
    · rw [UNet.view_apply_lost _ u m x hg ht] at hm; exact hm

/-- Only a change of `u` gives a broker something to announce, and a sync announces it. -/
theorem unann_step {n : MNet U B T H} {u : U} {loc : Option B} {k : Nat} (h : UserSync.Inv u (ghost n) loc k)
    (hs : Stable n u) (l : MLabel U B T H) (hl : Steady l) (hc : ¬ Change u n l) (x : B)
    (hu : Unannounced u (n.step l) x) : Unannounced u n x ∧ l ≠ .startUser x := by
  rw [unann_iff] at hu ⊢
  have hsame : ∀ n' : MNet U B T H, n'.st = n.st → (UNet.view (n'.st x) u).m = true → (UNet.view (n.st x) u).m = true := by
    intro n' e h1; rw [e] at h1; exact h1
  have hact : ∀ (n' : MNet U B T H) b (op : Op U B T H), n'.st = (n.act b op).st → UNet.Unrelated u op →
      (UNet.view (n'.st x) u).m = true → (UNet.view (n.st x) u).m = true := by
    intro n' b op e hun h1
    rw [e, st_act] at h1
    split at h1
    · rename_i e; subst e; rw [UNet.view_unrelated _ _ _ hun] at h1; exact h1
    · exact h1
  cases l with
  | connect b u' hd ts => exact ⟨hact _ b (.addUser u' hd ts) rfl hc hu, by simp⟩
  | disconnect b u' =>
    refine ⟨?_, by simp⟩
    by_cases e : u' = u
    · subst e
      have h1 : (UNet.view ((n.act b (.removeUser u')).st x) u').m = true := hu
      rw [st_act] at h1
      split at h1
      · rename_i e; subst e
        have h2 : (UNet.view ((n.st x).removeUser u') u').m = true := h1
        rw [UNet.view_removeUser, UNet.remV, if_neg] at h2
        · exact h2
        · intro e; exact hc ⟨rfl, by rw [hs.ident] at e; exact e⟩
      · exact h1
    · exact hact _ b (.removeUser u') rfl e hu
  | subscribe b u' ts => exact ⟨hact _ b (.subscribeUser u' ts) rfl trivial hu, by simp⟩
  | unsubscribe b u' ts => exact ⟨hact _ b (.unsubscribeUser u' ts) rfl trivial hu, by simp⟩
  | startTopic b =>
    refine ⟨?_, by simp⟩
    simp only [MNet.step] at hu
    split at hu <;> exact hact _ b .partialTopicSync rfl trivial hu
  | startUser b =>
    have h1 : (UNet.view ((n.act b .partialUserSync).st x) u).m = true := by
      simp only [MNet.step] at hu
      split at hu <;> exact hu
    rw [st_act] at h1
    split at h1
    · rename_i e; subst e
      have h2 : (UNet.view (n.st x).getPartialUserSync.1 u).m = true := h1
      rw [UNet.view_sync] at h2
      simp at h2
    · rename_i e
      exact ⟨h1, fun e' => by cases e'; exact e rfl⟩
  | readDests i =>
    refine ⟨?_, by simp⟩
    simp only [MNet.step] at hu
    split at hu <;> exact hsame _ rfl hu
  | send i ok =>
    refine ⟨?_, by simp⟩
    have : ok = true := hl
    subst this
    simp only [MNet.step] at hu
    split at hu
    · split at hu <;> exact hsame _ rfl hu
    · exact hsame _ rfl hu
  | linkUp => exact absurd hl id
  | fullTopic b b' =>
    refine ⟨?_, by simp⟩
    simp only [MNet.step] at hu
    split at hu
    · split at hu <;> exact hsame _ rfl hu
    · exact hsame _ rfl hu
  | fullUser b b' =>
    refine ⟨?_, by simp⟩
    simp only [MNet.step] at hu
    split at hu
    · split at hu <;> exact hsame _ rfl hu
    · exact hsame _ rfl hu
  | drop => exact absurd hl id
  | restart => exact absurd hl id
  | deliver b b' =>
    refine ⟨?_, by simp⟩
    simp only [MNet.step] at hu
    split at hu
    · split at hu
      · exact hsame _ rfl hu
      · rename_i m rest hq
        have h1 : (UNet.view ((n.act b' (.applyUserSync m)).st x) u).m = true := hu
        rw [st_act] at h1
        split at h1
        · rename_i e; subst e; exact deliver_m h b x m rest hq h1
        · exact h1
      · rename_i m rest hq
        exact hact _ b' (.applyTopicSync b m) rfl trivial hu
    · exact hsame _ rfl hu

/-- A sync that says something about `u` is an earlier one going on, or has just been started for an unannounced
change. -/
theorem task_step {n : MNet U B T H} {u : U} (hs : Stable n u) (l : MLabel U B T H) (hl : Steady l) (i : Nat)
    (τ : SyncTask U B T) (hi : (n.step l).tasks[i]? = some τ) (hm : entryOf u τ.msg ≠ none) (hd : τ.dests ≠ some []) :
    (i < n.tasks.length ∧ ∃ τ0, n.tasks[i]? = some τ0 ∧ entryOf u τ0.msg ≠ none ∧ τ0.dests ≠ some []) ∨
    (n.tasks.length ≤ i ∧ ∃ b, l = .startUser b ∧ Unannounced u n b) := by
  have hsame : ∀ n' : MNet U B T H, n'.tasks = n.tasks → n'.tasks[i]? = some τ →
      (i < n.tasks.length ∧ ∃ τ0, n.tasks[i]? = some τ0 ∧ entryOf u τ0.msg ≠ none ∧ τ0.dests ≠ some []) := by
    intro n' e h1
    rw [e] at h1
    exact ⟨(List.getElem?_eq_some_iff.1 h1).1, τ, h1, hm, hd⟩
  have hspawn : ∀ (n' : MNet U B T H) τ1, n'.tasks = n.tasks ++ [τ1] → n'.tasks[i]? = some τ →
      (i < n.tasks.length ∧ ∃ τ0, n.tasks[i]? = some τ0 ∧ entryOf u τ0.msg ≠ none ∧ τ0.dests ≠ some []) ∨
      (n.tasks.length ≤ i ∧ τ = τ1) := by
    intro n' τ1 e h1
    rw [e] at h1
    rcases Nat.lt_or_ge i n.tasks.length with h2 | h2
    · rw [List.getElem?_append_left h2] at h1
      exact .inl ⟨h2, τ, h1, hm, hd⟩
    · rw [List.getElem?_append_right h2] at h1
      have := List.mem_of_getElem? h1
      exact .inr ⟨h2, by simpa using this⟩
  have hset : ∀ (n' : MNet U B T H) j τ0 τ1, n'.tasks = n.tasks.set j τ1 → n.tasks[j]? = some τ0 →
      τ0.dests ≠ some [] → n'.tasks[i]? = some τ → τ1.msg = τ0.msg →
      (i < n.tasks.length ∧ ∃ τ0, n.tasks[i]? = some τ0 ∧ entryOf u τ0.msg ≠ none ∧ τ0.dests ≠ some []) := by
    intro n' j τ0 τ1 e h3 h4 h1 h5
    rw [e] at h1
    have hlt : i < n.tasks.length := by
      have := (List.getElem?_eq_some_iff.1 h1).1
      simpa using this
    refine ⟨hlt, ?_⟩
    by_cases hij : i = j
    · subst hij
      rw [List.getElem?_set_self hlt] at h1
      cases h1
      exact ⟨τ0, h3, by rw [← h5]; exact hm, h4⟩
    · rw [List.getElem?_set_ne (Ne.symm hij)] at h1; exact ⟨τ, h1, hm, hd⟩
  cases l with
  | connect => exact .inl (hsame _ rfl hi)
  | disconnect => exact .inl (hsame _ rfl hi)
  | subscribe => exact .inl (hsame _ rfl hi)
  | unsubscribe => exact .inl (hsame _ rfl hi)
  | startTopic b =>
    simp only [MNet.step] at hi; split at hi
    · exact .inl (hsame _ rfl hi)
    · rcases hspawn _ _ rfl hi with h1 | ⟨_, h1⟩
      · exact .inl h1
      · exfalso; rw [h1] at hm; exact hm rfl
  | startUser b =>
    simp only [MNet.step] at hi; split at hi
    · exact .inl (hsame _ rfl hi)
    · rename_i m hq
      rcases hspawn _ _ rfl hi with h1 | ⟨h2, h1⟩
      · exact .inl h1
      · refine .inr ⟨h2, b, rfl, ?_⟩
        rw [unann_iff]
        have h3 := UNet.sync_msg (n.st b) u
        rw [hq] at h3
        rw [h1] at hm
        apply Classical.byContradiction
        intro hf
        rw [if_neg hf] at h3
        exact hm h3
  | readDests j =>
    simp only [MNet.step] at hi; split at hi
    · rename_i hj; exact .inl (hset _ j _ ⟨_, _, some _⟩ rfl hj (by simp) hi rfl)
    · exact .inl (hsame _ rfl hi)
  | send j ok =>
    have : ok = true := hl
    subst this
    simp only [MNet.step] at hi
    split at hi
    · rename_i b m d ds hj
      split at hi
      · rw [if_pos trivial] at hi
        exact .inl (hset _ j _ ⟨b, m, some ds⟩ rfl hj (by simp) hi rfl)
      · exact .inl (hset _ j _ ⟨b, m, some ds⟩ rfl hj (by simp) hi rfl)
    · exact .inl (hsame _ rfl hi)
  | linkUp => exact absurd hl id
  | fullTopic b b' =>
    simp only [MNet.step] at hi
    split at hi
    · split at hi
      · exact .inl (hsame _ rfl hi)
      · rcases hspawn _ _ rfl hi with h1 | ⟨_, h1⟩
        · exact .inl h1
        · exfalso; rw [h1] at hm; exact hm rfl
    · exact .inl (hsame _ rfl hi)
  | fullUser b b' =>
    simp only [MNet.step] at hi
    rw [if_neg (by rw [hs.initial]; simp)] at hi
    exact .inl (hsame _ rfl hi)
  | drop => exact absurd hl id
  | restart => exact absurd hl id
  | deliver b b' =>
    simp only [MNet.step] at hi
    split at hi
    · split at hi <;> exact .inl (hsame _ rfl hi)
    · exact .inl (hsame _ rfl hi)

/-- A queue gets one more message, from a sync, or its first message is handled. -/
theorem queue_step (n : MNet U B T H) (l : MLabel U B T H) (hl : Steady l) (x y : B) (hnd : ∀ b b', l ≠ .deliver b b') :
    (n.step l).ch x y = n.ch x y ∨
    ∃ (i : Nat) (τ : SyncTask U B T), n.tasks[i]? = some τ ∧ τ.dests ≠ some [] ∧ (n.step l).ch x y = n.ch x y ++ [τ.msg] := by
  cases l with
  | connect => exact .inl rfl
  | disconnect => exact .inl rfl
  | subscribe => exact .inl rfl
  | unsubscribe => exact .inl rfl
  | startTopic b => simp only [MNet.step]; split <;> exact .inl rfl
  | startUser b => simp only [MNet.step]; split <;> exact .inl rfl
  | readDests i => simp only [MNet.step]; split <;> exact .inl rfl
  | send i ok =>
    have : ok = true := hl
    subst this
    simp only [MNet.step]
    split
    · rename_i b m d ds hi
      split
      · rw [if_pos trivial]
        simp only [setCh]
        split
        · rename_i e; rw [e.1, e.2]; exact .inr ⟨i, _, hi, by simp, rfl⟩
        · exact .inl rfl
      · exact .inl rfl
    · exact .inl rfl
  | linkUp => exact absurd hl id
  | fullTopic b b' =>
    simp only [MNet.step]
    split
    · split <;> exact .inl rfl
    · exact .inl rfl
  | fullUser b b' =>
    simp only [MNet.step]
    split
    · split <;> exact .inl rfl
    · exact .inl rfl
  | drop => exact absurd hl id
  | restart => exact absurd hl id
  | deliver b b' => exact absurd rfl (hnd b b')

/-- Everything about `u` is done soon after the last change at `t`. -/
structure Soon (δ : Delays) (u : U) (t : Nat) (s : TNet U B T H) : Prop where
  sync : ∀ b, Unannounced u s.n b → s.usyncDue b ≤ t + δ.sync
  task : ∀ (i : Nat) (τ : SyncTask U B T) (e : Nat), s.n.tasks[i]? = some τ → s.taskDue[i]? = some e →
    entryOf u τ.msg ≠ none → τ.dests ≠ some [] → e ≤ t + δ.sync + δ.send
  ch : ∀ b b' (i : Nat) (m : SyncMsg U B T) (e : Nat), (s.n.ch b b')[i]? = some m → (s.chDue b b')[i]? = some e →
    entryOf u m ≠ none → e ≤ t + δ.sync + δ.send + δ.link

theorem soon_other {δ : Delays} {u : U} {t : Nat} {s : TNet U B T H} {loc : Option B} {k : Nat}
    (h : UserSync.Inv u (ghost s.n) loc k) (hs : Stable s.n u) (hD : DInv δ s) (hw : Soon δ u t s) (l : MLabel U B T H)
    (hl : Steady l) (hc : ¬ Change u s.n l) : Soon δ u t (s.after δ l) := by
  have hnr : ∀ b, l ≠ .restart b := by rintro b rfl; exact hl
  refine ⟨?_, ?_, ?_⟩
  · intro b hb
    obtain ⟨h1, h2⟩ := unann_step h hs l hl hc b hb
    rw [usyncDue_after δ s l b h2 (hnr b)]
    exact hw.sync b h1
  · intro i τ e hi he hm hd
    rw [taskDue_after δ s l hnr] at he
    rcases task_step hs l hl i τ hi hm hd with ⟨h1, τ0, h2, h3, h4⟩ | ⟨h1, b, rfl, h2⟩
    · rw [List.getElem?_append_left (by rw [hD.len]; exact h1)] at he
      exact hw.task i τ0 e h2 he h3 h4
    · rw [List.getElem?_append_right (by rw [hD.len]; exact h1)] at he
      have h3 := (List.mem_replicate.1 (List.mem_of_getElem? he)).2
      have h4 := hw.sync b h2
      have h5 := hD.timely.usync b
      omega
  · intro b b' i m e hi he hm
    by_cases hdel : ∃ c c', l = .deliver c c'
    · obtain ⟨c, c', rfl⟩ := hdel
      have he' : ((s.chDue b b').drop ((s.n.ch b b').length - ((s.n.step (.deliver c c')).ch b b').length))[i]? =
        some e := he
      have hi' : ((s.n.step (.deliver c c')).ch b b')[i]? = some m := hi
      rcases ch_deliver s.n c c' b b' with h1 | ⟨rfl, rfl, _, m1, h1⟩
      · rw [h1] at hi' he'
        rw [Nat.sub_self, List.drop_zero] at he'
        exact hw.ch b b' i m e hi' he' hm
      · have hlen : (s.n.ch b b').length - ((s.n.step (.deliver b b')).ch b b').length = 1 := by rw [h1]; simp
        rw [hlen, List.getElem?_drop] at he'
        refine hw.ch b b' (1 + i) m e ?_ he' hm
        rw [h1, Nat.add_comm 1 i, List.getElem?_cons_succ]; exact hi'
    · have hnd : ∀ c c', l ≠ .deliver c c' := fun c c' e => hdel ⟨c, c', e⟩
      rw [chDue_after δ s l hnd] at he
      have hi' : ((s.n.step l).ch b b')[i]? = some m := hi
      rcases queue_step s.n l hl b b' hnd with h1 | ⟨j, τ, h1, h2, h3⟩
      · rw [h1] at hi'
        rw [h1, requeue, if_neg (by omega), Nat.sub_self] at he
        simp only [List.replicate_zero, List.append_nil] at he
        exact hw.ch b b' i m e hi' he hm
      · rw [h3] at hi'
        rw [h3, requeue, if_neg (by simp)] at he
        rcases Nat.lt_or_ge i (s.n.ch b b').length with h4 | h4
        · rw [List.getElem?_append_left h4] at hi'
          rw [List.getElem?_append_left (by rw [hD.chLen]; exact h4)] at he
          exact hw.ch b b' i m e hi' he hm
        · rw [List.getElem?_append_right h4] at hi'
          rw [List.getElem?_append_right (by rw [hD.chLen]; exact h4)] at he
          have h5 := (List.mem_replicate.1 (List.mem_of_getElem? he)).2
          have h6 : m = τ.msg := by simpa using List.mem_of_getElem? hi'
          subst h6
          have hlt : j < s.taskDue.length := by rw [hD.len]; exact (List.getElem?_eq_some_iff.1 h1).1
          have h7 := hD.timely.task j τ _ h1 h2 (List.getElem?_eq_getElem hlt)
          have h8 := hw.task j τ _ h1 (List.getElem?_eq_getElem hlt) hm h2
          omega

/-- Once the time to wait is over, nothing about `u` is under way or unannounced. -/
theorem quiet {δ : Delays} {u : U} {t : Nat} {s : TNet U B T H} {loc : Option B} {k : Nat}
    (h : UserSync.Inv u (ghost s.n) loc k) (hs : Stable s.n u) (hD : DInv δ s) (hw : Soon δ u t s)
    (ht : t + wait δ < s.now) : NothingUnderWay u s.n ∧ ∀ b, ¬ Unannounced u s.n b := by
  unfold wait at ht
  refine ⟨⟨?_, ?_⟩, ?_⟩
  · intro b b' m hm
    apply Classical.byContradiction
    intro hne
    by_cases hbb : b = b'
    · subst hbb
      have h1 : UserSync.chU u (ghost s.n) b b = [] := by
        obtain ⟨_, base, ed, e, h | h⟩ := h
        · exact h.chans b b
        · exact h.chans b b ((Classical.em (b = ed)).elim .inr .inl)
      rw [chU_ghost, List.append_eq_nil_iff, List.filterMap_eq_nil_iff] at h1
      exact hne (h1.1 m hm)
    · obtain ⟨i, hi⟩ := List.mem_iff_getElem?.1 hm
      have hlt : i < (s.chDue b b').length := by rw [hD.chLen]; exact (List.getElem?_eq_some_iff.1 hi).1
      have h1 := hw.ch b b' i m _ hi (List.getElem?_eq_getElem hlt) hne
      have h2 := hD.timely.ch b b' ((knows_iff _ _ _).2 ((hs.links b' b).2 (Ne.symm hbb))) _ (List.getElem_mem hlt)
      omega
  · intro τ hτ
    apply Classical.byContradiction
    intro hne
    have hne : entryOf u τ.msg ≠ none ∧ τ.dests ≠ some [] := ⟨fun e => hne (.inl e), fun e => hne (.inr e)⟩
    obtain ⟨i, hi⟩ := List.mem_iff_getElem?.1 hτ
    have hlt : i < s.taskDue.length := by rw [hD.len]; exact (List.getElem?_eq_some_iff.1 hi).1
    have h1 := hw.task i τ _ hi (List.getElem?_eq_getElem hlt) hne.1 hne.2
    have h2 := hD.timely.task i τ _ hi hne.2 (List.getElem?_eq_getElem hlt)
    omega
  · intro b hb
    have h1 := hw.sync b hb
    have h2 := hD.timely.usync b
    omega

/-- A change made when nothing is under way. -/
theorem soon_change {δ : Delays} {u : U} {s : TNet U B T H} (hq : NothingUnderWay u s.n)
    (l : MLabel U B T H) (hc : Change u s.n l) (hD' : DInv δ (s.after δ l)) : Soon δ u s.now (s.after δ l) := by
  have hrest : (s.n.step l).tasks = s.n.tasks ∧ (s.n.step l).ch = s.n.ch := by
    cases l <;> first | exact ⟨rfl, rfl⟩ | exact absurd hc id
  refine ⟨fun b _ => hD'.usync b, ?_, ?_⟩
  · intro i τ e hi _ hm hd
    exfalso
    have hi' : (s.n.step l).tasks[i]? = some τ := hi
    rw [hrest.1] at hi'
    rcases hq.2 τ (List.mem_of_getElem? hi') with h1 | h1
    · exact hm h1
    · exact hd h1
  · intro b b' i m e hi _ hm
    exfalso
    have hi' : ((s.n.step l).ch b b')[i]? = some m := hi
    rw [hrest.2] at hi'
    exact hm (hq.1 b b' m (List.mem_of_getElem? hi'))

theorem inTurn_snoc (u : U) (ls : List (MLabel U B T H)) (n : MNet U B T H) (l : MLabel U B T H) (h : InTurn u n ls)
    (hl : InTurn u (n.run ls) [l]) : InTurn u n (ls ++ [l]) := by
  induction ls generalizing n with
  | nil => exact hl
  | cons l1 ls ih => exact ⟨h.1, ih (n.step l1) h.2 hl⟩

theorem whereabouts_snoc (u : U) (ls : List (MLabel U B T H)) (l : MLabel U B T H) (loc : Option B) :
    whereabouts u (ls ++ [l]) loc = whereabouts u [l] (whereabouts u ls loc) := by
  induction ls generalizing loc with
  | nil => rfl
  | cons l1 ls ih => rw [List.cons_append, whereabouts_cons, ih, ← whereabouts_cons u l1 ls]

theorem inTurn_other {u : U} {n : MNet U B T H} {l : MLabel U B T H} (hl : Steady l) (hc : ¬ Change u n l) :
    InTurn u n [l] := by
  refine ⟨?_, trivial⟩
  cases l with
  | connect b u' hd ts => intro e; exact absurd e hc
  | disconnect b u' => intro e e2; exact absurd ⟨e, e2⟩ hc
  | send i ok => exact hl
  | linkUp => exact hl
  | drop => exact hl
  | restart => exact hl
  | _ => trivial

theorem inTurn_change {u : U} {n : MNet U B T H} {l : MLabel U B T H} (hc : Change u n l)
    (hq : NothingUnderWay u n ∧ ∀ b, ¬ Unannounced u n b) : InTurn u n [l] := by
  refine ⟨?_, trivial⟩
  cases l with
  | connect b u' hd ts => exact fun _ => ⟨hq.1, fun b' _ => hq.2 b'⟩
  | disconnect b u' => exact fun _ _ => ⟨hq.1, fun b' _ => hq.2 b'⟩
  | _ => exact absurd hc id

theorem events_snoc_ev (ls : List (TLabel U B T H)) (l : MLabel U B T H) :
    events (ls ++ [.ev l]) = events ls ++ [l] := by
  unfold events; rw [List.filterMap_append]; rfl

theorem events_snoc_tick (ls : List (TLabel U B T H)) (d : Nat) : events (ls ++ [.tick d]) = events ls := by
  unfold events; rw [List.filterMap_append]; simp

/-- What holds after waiting. -/
def Waited (δ : Delays) (u : U) (s : TNet U B T H) : Option Nat → Prop
  | none => Unknown s.n u
  | some t => Soon δ u t s

theorem waited_quiet {δ : Delays} {u : U} {t : Option Nat} {s : TNet U B T H} {loc : Option B} {k : Nat}
    (h : UserSync.Inv u (ghost s.n) loc k) (hs : Stable s.n u) (hD : DInv δ s) (hw : Waited δ u s t)
    (ht : ∀ t0, t = some t0 → t0 + wait δ < s.now) : NothingUnderWay u s.n ∧ ∀ b, ¬ Unannounced u s.n b := by
  cases t with
  | none =>
    refine ⟨⟨hw.ch, fun τ hτ => .inl (hw.task τ hτ)⟩, fun b => ?_⟩
    rw [unann_iff, hw.tab]; simp
  | some t0 => exact quiet h hs hD hw (ht t0 rfl)

theorem patient_inv {δ : Delays} {u : U} {s1 s : TNet U B T H} {ls1 ls : List (TLabel U B T H)} {t : Option Nat}
    (h1 : Run δ (TNet.start δ) ls1 s1) (hno : ∀ l ∈ events ls1, ¬ Connects u l)
    (hlinks : ∀ b b', b ≠ b' → Linked s1.n b b') (hinit : s1.n.fullU = [])
    (hp : Patient δ (wait δ) u s1 ls s t) (hlen : 2 * (ls1.length + ls.length) + 2 < 2 ^ 64) (b : B) :
    InTurn u s1.n (events ls) ∧
    UserSync.Inv u (ghost s.n) (whereabouts u (events ls) none) (events ls).length ∧ Stable s.n u ∧ DInv δ s ∧
    Waited δ u s t := by
  have hn1 : s1.n = (start : MNet U B T H).run (events ls1) := run_net h1
  have hl1 := events_length ls1
  induction hp with
  | nil =>
    have h2 := turn_start u (events ls1) [] hno (by rw [← hn1]; exact hlinks) (by rw [← hn1]; exact hinit) trivial
      (by omega) (by simp) b
    rw [List.append_nil, ← hn1] at h2
    refine ⟨trivial, h2.1, h2.2, (inv_timed h1 (by omega)).2, ?_⟩
    show Unknown s1.n u
    rw [hn1]
    exact unknown_run _ _ (unknown_start u) hno
  | @tick s s' ls t d hp hs ih =>
    rw [List.length_append, List.length_singleton] at hlen
    obtain ⟨a1, a2, a3, a4, a5⟩ := ih (by omega)
    have hidx := (inv_timed (run_append_timed h1 hp.run) (by rw [List.length_append]; omega)).1
    have hD' := dinv_step a4 (fun b => (hidx.own b).index) hs
    rw [events_snoc_tick]
    cases hs with
    | tick d _ =>
      refine ⟨a1, a2, a3, hD', ?_⟩
      cases t with
      | none => exact a5
      | some t0 => exact ⟨a5.sync, a5.task, a5.ch⟩
  | @other s s' ls t l hp hs hl hc ih =>
    rw [List.length_append, List.length_singleton] at hlen
    obtain ⟨a1, a2, a3, a4, a5⟩ := ih (by omega)
    have hidx := (inv_timed (run_append_timed h1 hp.run) (by rw [List.length_append]; omega)).1
    have hD' := dinv_step a4 (fun b => (hidx.own b).index) hs
    rw [events_snoc_ev, whereabouts_snoc, List.length_append, List.length_singleton]
    have ht := inTurn_other hl hc
    have hev := events_length ls
    cases hs with
    | ev l =>
      refine ⟨inTurn_snoc u _ _ _ a1 (by rw [← run_net hp.run]; exact ht), turn_step a2 a3 l ht (by omega),
        stable_step a3 l ht, hD', ?_⟩
      cases t with
      | none =>
        refine unknown_step a5 l ?_
        intro hcon
        cases l <;> first | exact hc hcon | exact hcon
      | some t0 => exact soon_other a2 a3 a4 a5 l hl hc
  | @change s s' ls t l hp hs hc hw ih =>
    rw [List.length_append, List.length_singleton] at hlen
    obtain ⟨a1, a2, a3, a4, a5⟩ := ih (by omega)
    have hidx := (inv_timed (run_append_timed h1 hp.run) (by rw [List.length_append]; omega)).1
    have hD' := dinv_step a4 (fun b => (hidx.own b).index) hs
    rw [events_snoc_ev, whereabouts_snoc, List.length_append, List.length_singleton]
    have hq := waited_quiet a2 a3 a4 a5 hw
    have ht := inTurn_change hc hq
    have hev := events_length ls
    cases hs with
    | ev l =>
      exact ⟨inTurn_snoc u _ _ _ a1 (by rw [← run_net hp.run]; exact ht), turn_step a2 a3 l ht (by omega),
        stable_step a3 l ht, hD', soon_change hq.1 l hc hD'⟩

/-! ## C99 -/

/-- **C99.** First anything happens but that `u` connects, until every two brokers are linked and have started the user
syncs for each other; then links are steady. If any two changes of `u` are more than the time of a sync apart, then at
any time later than that after the last one every broker routes `u` to the broker `u` is connected to (or to none), and
exactly that broker has `u` connected. -/
theorem C99_found_after_waiting {δ : Delays} {u : U} {s1 s : TNet U B T H} {ls1 ls : List (TLabel U B T H)}
    {t : Option Nat} (h1 : Run δ (TNet.start δ) ls1 s1) (hno : ∀ l ∈ events ls1, ¬ Connects u l)
    (hlinks : ∀ b b', b ≠ b' → Linked s1.n b b') (hinit : s1.n.fullU = [])
    (hp : Patient δ (wait δ) u s1 ls s t) (hlen : 2 * (ls1.length + ls.length) + 2 < 2 ^ 64)
    (ht : ∀ t0, t = some t0 → t0 + wait δ < s.now) (b : B) :
    (s.n.st b).getBrokerOfUser u = whereabouts u (events ls) none ∧
    (At s.n b u ↔ whereabouts u (events ls) none = some b) := by
  obtain ⟨a1, a2, a3, a4, a5⟩ := patient_inv h1 hno hlinks hinit hp hlen b
  obtain ⟨q1, q2⟩ := waited_quiet a2 a3 a4 a5 ht
  have hn1 : s1.n = (start : MNet U B T H).run (events ls1) := run_net h1
  have hn : s.n = (start : MNet U B T H).run (events ls1 ++ events ls) := by
    rw [Mesh.run_append, ← hn1]; exact run_net hp.run
  have hl1 := events_length ls1
  have hl2 := events_length ls
  rw [hn] at q1 q2 ⊢
  rw [hn1] at hlinks hinit a1
  exact C74_in_turn_partial u _ _ hno hlinks hinit a1 (by omega) (by omega) q1 q2 b

theorem patient_afters {δ : Delays} {w : Nat} {u : U} {s0 s : TNet U B T H} {ls : List (TLabel U B T H)} {t : Option Nat}
    (h : Patient δ w u s0 ls s t) (L : List (MLabel U B T H)) (hL : ∀ l ∈ L, SyncOnly l) :
    Patient δ w u s0 (ls ++ L.map .ev) (afters δ s L) t := by
  induction L generalizing s ls with
  | nil => rw [List.map_nil, List.append_nil]; exact h
  | cons l L ih =>
    have hl := hL l (by simp)
    have h1 : Patient δ w u s0 (ls ++ [.ev l]) (s.after δ l) t := by
      refine .other h (.ev _ _) ?_ ?_
      · cases l <;> first | trivial | exact hl
      · intro hc; cases l <;> first | exact hc | exact hl
    have := ih h1 (fun l' hl' => hL l' (by simp [hl']))
    rw [List.append_assoc] at this
    exact this

/-- **C99**, the premises can be met: with finitely many brokers the user can always wait longer. -/
theorem C99_time_goes_on {δ : Delays} {w : Nat} {u : U} (bs : List B) (hbs : ∀ b, b ∈ bs) {s1 s : TNet U B T H}
    {ls1 ls : List (TLabel U B T H)} {t : Option Nat} (h1 : Run δ (TNet.start δ) ls1 s1)
    (hp : Patient δ w u s1 ls s t) (hlen : 2 * (ls1.length + ls.length) < 2 ^ 64) :
    ∃ ls' s', Patient δ w u s1 (ls ++ ls') s' t ∧ s'.now = s.now + δ.sync := by
  obtain ⟨L, aL, hin⟩ := sync_round bs hbs (run_append_timed h1 hp.run) (by rw [List.length_append]; omega)
  have hnow : (afters δ s L).now = s.now := (afters_n δ L s).2
  have h2 := Patient.tick (patient_afters hp L aL) (.tick _ δ.sync (by rw [hnow]; exact hin))
  rw [List.append_assoc] at h2
  refine ⟨_, _, h2, ?_⟩
  show (afters δ s L).now + δ.sync = _
  rw [hnow]

end

/-! ## Direct messages -/

section
open Verif.Props.Network Verif.Broker Verif.Net
variable {B H σ : Type} [DecidableEq B] [DecidableEq H] [LT B] [DecidableLT B]

/-- **C99**, direct messages: if all users wait in this way, then a direct message published once, at any broker, at a
time when nobody has just connected or left, is in the end received exactly once by its recipient, if connected, and by
nobody else. -/
theorem C99_direct_after_waiting (cfg : Cfg B σ) (hT : Transparent cfg) {δ : Delays}
    {s1 s : TNet Bytes B Topic H} {ls1 ls2 : List (TLabel Bytes B Topic H)} {t : Bytes → Option Nat}
    (h1 : TNet.Run δ (TNet.start δ) ls1 s1) (hno : ∀ u, ∀ l ∈ events ls1, ¬ Connects u l)
    (hlinks : ∀ b b', b ≠ b' → Linked s1.n b b') (hinit : s1.n.fullU = [])
    (hp : ∀ u, Patient δ (wait δ) u s1 ls2 s (t u)) (hlen : 2 * (ls1.length + ls2.length) + 2 < 2 ^ 64)
    (ht : ∀ u t0, t u = some t0 → t0 + wait δ < s.now)
    (hook : B → Dest B → σ) (ls : List (Label B H)) (hl : ∀ l ∈ ls, Static cfg l) (k : Nat) (b : B)
    (a raw r payload : Bytes) (hd : cfg.decode raw = some (.direct r payload))
    (honce : ls.filter (publishes k) = [.publish b a k raw]) (u : Bytes) :
    let n := (Net.start s.n.st hook).run cfg ls
    copiesReceived n u k ≤ 1 ∧
    (¬ (u = r ∧ whereabouts r (events ls2) none ≠ none) → copiesReceived n u k = 0) ∧
    (Quiescent n → u = r → whereabouts r (events ls2) none ≠ none → copiesReceived n u k = 1) := by
  have hn1 : s1.n = (MNet.start : MNet Bytes B Topic H).run (events ls1) := run_net h1
  have hn : s.n = (MNet.start : MNet Bytes B Topic H).run (events ls1 ++ events ls2) := by
    rw [Mesh.run_append, ← hn1]; exact run_net (hp []).run
  have hl1 := events_length ls1
  have hl2 := events_length ls2
  have hI := fun u => patient_inv h1 (hno u) hlinks hinit (hp u) hlen b
  have hq := fun u => waited_quiet (hI u).2.1 (hI u).2.2.1 (hI u).2.2.2.1 (hI u).2.2.2.2 (ht u)
  rw [hn] at hq
  rw [hn]
  rw [hn1] at hlinks hinit
  exact C75_direct_after_moves cfg hT (events ls1) (events ls2) hno hlinks hinit
    (fun u => by rw [← hn1]; exact (hI u).1) (by rw [List.length_append]; omega) (fun u => (hq u).1)
    (fun u => (hq u).2) hook ls hl k b a raw r payload hd honce u

end

/-! ### A case -/

section Case

section
variable {k : Nat} {U T H : Type} [DecidableEq U] [DecidableEq T] [DecidableEq H]

/-- `Change`, computed. -/
def changeB (u : U) (n : MNet U (Fin k) T H) : MLabel U (Fin k) T H → Bool
  | .connect _ u' _ _ => decide (u' = u)
  | .disconnect b u' => decide (u' = u) && decide ((n.st b).getBrokerOfUser u = some b)
  | _ => false

theorem changeB_iff (u : U) (n : MNet U (Fin k) T H) (l : MLabel U (Fin k) T H) :
    changeB u n l = true ↔ Change u n l := by
  cases l <;> simp [changeB, Change]

def steadyB : MLabel U (Fin k) T H → Bool
  | .linkUp _ _ _ _ | .drop _ _ | .restart _ => false
  | .send _ ok => ok
  | _ => true

theorem steadyB_spec (l : MLabel U (Fin k) T H) (h : steadyB l = true) : Steady l := by
  cases l <;> first | trivial | exact h | exact absurd h (by simp [steadyB])

/-- A run with changes of `u` more than `w` apart, computed. -/
def patient? (w : Nat) (u : U) (s : TNet U (Fin k) T H) (t : Option Nat) : List (TLabel U (Fin k) T H) → Option (TNet U (Fin k) T H × Option Nat)
  | [] => some (s, t)
  | .tick d :: ls => (next s (.tick d)).bind (patient? w u · t ls)
  | .ev l :: ls =>
    if changeB u s.n l then
      if t.all (fun t0 => decide (t0 + w < s.now)) then patient? w u (s.after δ0 l) (some s.now) ls else none
    else if steadyB l then patient? w u (s.after δ0 l) t ls else none

theorem patient?_spec {w : Nat} {u : U} {ls : List (TLabel U (Fin k) T H)} {s0 s s' : TNet U (Fin k) T H} {t t' : Option Nat}
    {l0 : List (TLabel U (Fin k) T H)} (h0 : Patient δ0 w u s0 l0 s t) (h : patient? w u s t ls = some (s', t')) :
    Patient δ0 w u s0 (l0 ++ ls) s' t' := by
  induction ls generalizing s t l0 with
  | nil => cases h; rw [List.append_nil]; exact h0
  | cons l ls ih =>
    cases l with
    | tick d =>
      simp only [patient?, Option.bind_eq_some_iff] at h
      obtain ⟨s1, h1, h2⟩ := h
      have := ih (.tick h0 (next_spec h1)) h2
      rwa [List.append_assoc] at this
    | ev l =>
      simp only [patient?] at h
      split at h
      · rename_i hc
        split at h
        · rename_i hw
          have := ih (.change h0 (.ev _ l) ((changeB_iff ..).1 hc) (by
            rintro t0 rfl; simpa using hw)) h
          rwa [List.append_assoc] at this
        · cases h
      · rename_i hc
        split at h
        · rename_i hl
          have := ih (.other h0 (.ev _ l) (steadyB_spec l hl) (fun h' => hc ((changeB_iff ..).2 h'))) h
          rwa [List.append_assoc] at this
        · cases h

end

/-- Two brokers come up and are linked; both have just synced. -/
def up : List (TLabel Nat (Fin 2) Nat Nat) :=
  [.ev (.linkUp 0 1 0 0), .ev (.fullTopic 0 1), .ev (.fullUser 0 1), .ev (.fullTopic 1 0), .ev (.fullUser 1 0), .tick 1000,
   .ev (.startUser 0), .ev (.startTopic 0), .ev (.startUser 1), .ev (.startTopic 1)]

/-- Both brokers sync, as late as can be; their message to each other is sent and is to be handled. -/
def round (i : Nat) : List (TLabel Nat (Fin 2) Nat Nat) :=
  [.tick 10000, .ev (.startUser 0), .ev (.startTopic 0), .ev (.startUser 1), .ev (.startTopic 1), .tick 50,
   .ev (.readDests i), .ev (.send i true), .tick 200]

/-- User 5 connects to broker 1, waits, and connects to broker 0. -/
def moves : List (TLabel Nat (Fin 2) Nat Nat) :=
  [.ev (.connect 1 5 50 [])] ++ round 0 ++ [.ev (.deliver 1 0), .tick 1, .ev (.connect 0 5 51 [])] ++
  [.tick 9749, .ev (.startUser 0), .ev (.startTopic 0), .ev (.startUser 1), .ev (.startTopic 1), .tick 50,
   .ev (.readDests 1), .ev (.send 1 true), .tick 200, .ev (.deliver 0 1), .tick 252]

/-- The same, but user 5 waits a millisecond less. -/
def hasty : List (TLabel Nat (Fin 2) Nat Nat) :=
  [.ev (.connect 1 5 50 [])] ++ round 0 ++ [.ev (.connect 0 5 51 []), .ev (.deliver 1 0), .tick 9750, .ev (.startUser 0),
   .ev (.startTopic 0), .ev (.startUser 1), .ev (.startTopic 1), .tick 10000]

def p1 : Net2 := (run? (TNet.start δ0) up).getD (TNet.start δ0)
def p2 : Net2 × Option Nat := (patient? (wait δ0) 5 p1 none moves).getD (p1, none)
def p3 : Net2 × Option Nat := (patient? (wait δ0 - 1) 5 p1 none hasty).getD (p1, none)

theorem run_up : TNet.Run δ0 (TNet.start δ0) up p1 := by
  have h : (run? (TNet.start δ0) up).isSome = true := by decide +kernel
  obtain ⟨x, hx⟩ := Option.isSome_iff_exists.1 h
  have e : p1 = x := by unfold p1; rw [hx]; rfl
  rw [e]; exact run?_spec (l0 := []) (.nil _) hx

theorem up_ready : (∀ l ∈ events up, ¬ Connects 5 l) ∧ (∀ b b' : Fin 2, b ≠ b' → Linked p1.n b b') ∧ p1.n.fullU = [] := by
  refine ⟨?_, by unfold Linked; decide +kernel, by decide +kernel⟩
  intro l hl
  simp only [events, up, List.filterMap_cons, List.filterMap_nil, List.mem_cons, List.not_mem_nil, or_false] at hl
  rcases hl with rfl | rfl | rfl | rfl | rfl | rfl | rfl | rfl | rfl <;> exact id

theorem patient_moves : Patient δ0 (wait δ0) 5 p1 moves p2.1 p2.2 := by
  have h : (patient? (wait δ0) 5 p1 none moves).isSome = true := by decide +kernel
  obtain ⟨x, hx⟩ := Option.isSome_iff_exists.1 h
  have e : p2 = x := by unfold p2; rw [hx]; rfl
  rw [e]; exact patient?_spec (l0 := []) .nil hx

theorem patient_hasty : Patient δ0 (wait δ0 - 1) 5 p1 hasty p3.1 p3.2 := by
  have h : (patient? (wait δ0 - 1) 5 p1 none hasty).isSome = true := by decide +kernel
  obtain ⟨x, hx⟩ := Option.isSome_iff_exists.1 h
  have e : p3 = x := by unfold p3; rw [hx]; rfl
  rw [e]; exact patient?_spec (l0 := []) .nil hx

/-- C99 applies: both brokers route user 5 to broker 0. -/
example : (p2.1.n.st 0).getBrokerOfUser 5 = some 0 ∧ (p2.1.n.st 1).getBrokerOfUser 5 = some 0 ∧ At p2.1.n 0 5 ∧
    ¬ At p2.1.n 1 5 := by
  have hw : whereabouts 5 (events moves) none = some (0 : Fin 2) := by decide +kernel
  have ht : ∀ t0, p2.2 = some t0 → t0 + wait δ0 < p2.1.now := by
    have e : p2.2 = some 11251 ∧ p2.1.now = 21502 := by decide +kernel
    rw [e.1, e.2]; rintro _ ⟨⟩; decide
  have h := C99_found_after_waiting run_up up_ready.1 up_ready.2.1 up_ready.2.2 patient_moves (by decide +kernel) ht
  rw [hw] at h
  exact ⟨(h 0).1, (h 1).1, (h 0).2.2 rfl, fun h1 => absurd ((h 1).2.1 h1) (by decide)⟩

/-- **C99**, the wait is needed: a user who waits a millisecond less is connected to broker 0 and thrown out by it; ten
seconds after everything has settled both brokers route the user's messages to broker 1, which they left. -/
theorem C99_wait_needed : Run δ0 (TNet.start δ0) up p1 ∧ (∀ b b' : Fin 2, b ≠ b' → Linked p1.n b b') ∧ p1.n.fullU = [] ∧
    Patient δ0 (wait δ0 - 1) 5 p1 hasty p3.1 p3.2 ∧ (∀ t0, p3.2 = some t0 → t0 + wait δ0 < p3.1.now) ∧
    whereabouts 5 (events hasty) none = some (0 : Fin 2) ∧ NothingUnderWay 5 p3.1.n ∧
    (∀ b, ¬ Unannounced 5 p3.1.n b) ∧ ¬ At p3.1.n 0 5 ∧ ∀ b, (p3.1.n.st b).getBrokerOfUser 5 = some 1 := by
  refine ⟨run_up, up_ready.2.1, up_ready.2.2, patient_hasty, ?_, by decide +kernel, ⟨?_, ?_⟩, ?_, ?_, ?_⟩
  · have e : p3.2 = some 11250 ∧ p3.1.now = 31000 := by decide +kernel
    rw [e.1, e.2]; rintro _ ⟨⟩; decide
  · have h : ∀ b b', (p3.1.n.ch b b').all (fun m => (entryOf 5 m).isNone) = true := by decide +kernel
    intro b b' m hm
    exact Option.isNone_iff_eq_none.1 (List.all_eq_true.1 (h b b') m hm)
  · have h : p3.1.n.tasks.all (fun τ => (entryOf 5 τ.msg).isNone || τ.dests == some []) = true := by decide +kernel
    intro τ hτ
    simpa using List.all_eq_true.1 h τ hτ
  · unfold Unannounced; decide +kernel
  · unfold At; decide +kernel
  · decide +kernel

end Case

end Verif.Props.MeshPatience

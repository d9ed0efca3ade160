import Verif.Props.MeshHistorySettles
import Verif.Props.MeshPatience

/-!
# Property C128: how soon a broker linked to the user's knows them

`Verif.Props.MeshHistory` says that a broker which has been told everything by the user's broker routes the user there. Here time
passes, and the claim is how long that takes, whatever happens to the other links and brokers meanwhile.
-/

set_option linter.unusedSectionVars false

namespace Verif.Props.MeshHistoryTime
open Verif Verif.Conns Verif.MNet Verif.TNet Verif.Props.Mesh Verif.Props.MeshUsers Verif.Props.MeshEpochs Verif.Props.MeshHistory
  Verif.Props.MeshFailover Verif.Props.MeshBack
open Verif.Props.MeshTime (NewLink While usyncDue_after)
open Verif.Props.MeshPatience (wait)
open Verif.Props.MeshTurn (whereabouts)

section
variable {U B T H : Type} [DecidableEq U] [DecidableEq B] [DecidableEq T] [DecidableEq H]
  [LT B] [DecidableLT B]

/-! ## Proof -/

/-- While the user stays, no new change of theirs appears at their broker; an announcement starts at the next periodic sync. -/
theorem unann_known {n : MNet U B T H} {y : B} {u : U} {v : Nat} (h : Known n y u v) (l : MLabel U B T H)
    (hc : ¬ Connects u l) (hd : l ≠ .disconnect y u) (hr : l ≠ .restart y)
    (hu : (UNet.view ((n.step l).st y) u).m = true) : (UNet.view (n.st y) u).m = true ∧ l ≠ .startUser y := by
  have hact : ∀ (n0 n' : MNet U B T H) b (op : Op U B T H), n'.st = (n0.act b op).st → UNet.Unrelated u op →
      (UNet.view (n'.st y) u).m = true → (UNet.view (n0.st y) u).m = true := by
    intro n0 n' b op e h1 h2
    rw [e, st_act] at h2
    split at h2
    · rename_i e; subst e
      rw [UNet.view_unrelated _ u op h1] at h2; exact h2
    · exact h2
  have hsame : ∀ n' : MNet U B T H, n'.st = n.st → (UNet.view (n'.st y) u).m = true → (UNet.view (n.st y) u).m = true := by
    intro n' e h1; rw [e] at h1; exact h1
  cases l with
  | connect b u' hd' ts => exact ⟨hact n _ b (.addUser u' hd' ts) rfl hc hu, by simp⟩
  | disconnect b u' =>
    refine ⟨?_, by simp⟩
    by_cases e : u' = u
    · subst e
      have hby : y ≠ b := by rintro rfl; exact hd rfl
      have h1 : (UNet.view ((n.act b (.removeUser u')).st y) u').m = true := hu
      rw [st_act_ne _ _ _ hby] at h1; exact h1
    · exact hact n _ b (.removeUser u') rfl e hu
  | subscribe b u' ts => exact ⟨hact n _ b (.subscribeUser u' ts) rfl trivial hu, by simp⟩
  | unsubscribe b u' ts => exact ⟨hact n _ b (.unsubscribeUser u' ts) rfl trivial hu, by simp⟩
  | startTopic b =>
    refine ⟨?_, by simp⟩
    simp only [MNet.step] at hu
    split at hu <;> exact hact n _ b .partialTopicSync rfl trivial hu
  | startUser b =>
    have h1 : (UNet.view ((n.act b .partialUserSync).st y) u).m = true := by
      simp only [MNet.step] at hu
      split at hu <;> exact hu
    rw [st_act] at h1
    split at h1
    · rename_i e; subst e
      have h2 : (UNet.view (n.st y).getPartialUserSync.1 u).m = true := h1
      rw [UNet.view_sync] at h2
      simp at h2
    · rename_i e
      exact ⟨h1, fun e' => by cases e'; exact e rfl⟩
  | readDests i =>
    refine ⟨?_, by simp⟩
    simp only [MNet.step] at hu
    split at hu <;> exact hsame _ rfl hu
  | send i ok =>
    refine ⟨?_, by simp⟩
    simp only [MNet.step] at hu
    split at hu
    · rename_i b m d ds hi
      split at hu
      · split at hu
        · exact hsame _ rfl hu
        · exact hact n _ b (.removeBroker d) rfl trivial hu
      · exact hsame _ rfl hu
    · exact hsame _ rfl hu
  | linkUp b b' c c' =>
    refine ⟨?_, by simp⟩
    simp only [MNet.step] at hu
    split at hu
    · exact hu
    · exact hact n _ b (.addBroker b' c) rfl trivial (hact (n.act b (.addBroker b' c)) _ b' (.addBroker b c') rfl trivial hu)
  | fullTopic b b' =>
    refine ⟨?_, by simp⟩
    simp only [MNet.step] at hu
    split at hu
    · split at hu <;> exact hsame _ rfl hu
    · exact hsame _ rfl hu
  | fullUser b b' =>
    refine ⟨?_, by simp⟩
    simp only [MNet.step] at hu
    split at hu
    · split at hu <;> exact hsame _ rfl hu
    · exact hsame _ rfl hu
  | drop b b' => exact ⟨hact n _ b (.removeBroker b') rfl trivial hu, by simp⟩
  | restart b =>
    refine ⟨?_, by simp⟩
    have hby : y ≠ b := by rintro rfl; exact hr rfl
    simp only [MNet.step, if_neg hby] at hu
    exact hu
  | deliver b b' =>
    refine ⟨?_, by simp⟩
    simp only [MNet.step] at hu
    split at hu
    · split at hu
      · exact hsame _ rfl hu
      · rename_i m rest hq
        have h1 : (UNet.view ((n.act b' (.applyUserSync m)).st y) u).m = true := hu
        rw [st_act] at h1
        split at h1
        · rename_i e; subst e
          have hhead : SyncMsg.user m ∈ n.ch b y := by rw [hq]; exact List.mem_cons_self ..
          obtain ⟨mm, h2⟩ := h.atY
          rcases h.ch b y _ hhead with h3 | ⟨h3, h4⟩
          · have h1' : (UNet.view ((n.st y).applyUserSync m) u).m = true := h1
            rw [UNet.view_apply_none _ u m h3] at h1'; exact h1'
          · have hG : ¬ y < m.ident := h4.resolve_right (fun e => e rfl)
            have h1' : (UNet.view ((n.st y).applyUserSync m) u).m = true := h1
            rw [UNet.view_apply_lost _ u m _ h3 (by
              rw [h2, h.dident]
              rintro (h5 | ⟨_, h5⟩)
              · exact absurd h5 (Nat.lt_irrefl _)
              · exact hG h5)] at h1'
            exact h1'
        · exact h1
      · rename_i m rest hq
        exact hact n _ b' (.applyTopicSync b m) rfl trivial hu
    · exact hsame _ rfl hu

/-- The sync is yet to be sent to `x`. -/
def Pend (x : B) (τ : SyncTask U B T) : Prop := ∀ ds, τ.dests = some ds → x ∈ ds

/-- A sync of `y` about `u` for `x` is an earlier one going on, or has just been started for an unannounced change. -/
theorem task_due {n : MNet U B T H} {u : U} {y x : B} (hf : (y, x) ∉ n.fullU) (l : MLabel U B T H) (hl : ∀ b, l ≠ .restart b)
    (i : Nat) (τ : SyncTask U B T) (hi : (n.step l).tasks[i]? = some τ) (hy : τ.here = y) (hm : entryOf u τ.msg ≠ none)
    (hd : Pend x τ) :
    (i < n.tasks.length ∧ ∃ τ0, n.tasks[i]? = some τ0 ∧ τ0.here = y ∧ entryOf u τ0.msg ≠ none ∧ Pend x τ0) ∨
    (n.tasks.length ≤ i ∧ (UNet.view (n.st y) u).m = true) := by
  have hsame : ∀ n' : MNet U B T H, n'.tasks = n.tasks → n'.tasks[i]? = some τ →
      (i < n.tasks.length ∧ ∃ τ0, n.tasks[i]? = some τ0 ∧ τ0.here = y ∧ entryOf u τ0.msg ≠ none ∧ Pend x τ0) := by
    intro n' e h1
    rw [e] at h1
    exact ⟨(List.getElem?_eq_some_iff.1 h1).1, τ, h1, hy, hm, hd⟩
  have hspawn : ∀ (n' : MNet U B T H) τ1, n'.tasks = n.tasks ++ [τ1] → n'.tasks[i]? = some τ →
      (i < n.tasks.length ∧ ∃ τ0, n.tasks[i]? = some τ0 ∧ τ0.here = y ∧ entryOf u τ0.msg ≠ none ∧ Pend x τ0) ∨
      (n.tasks.length ≤ i ∧ τ = τ1) := by
    intro n' τ1 e h1
    rw [e] at h1
    rcases Nat.lt_or_ge i n.tasks.length with h2 | h2
    · rw [List.getElem?_append_left h2] at h1
      exact .inl ⟨h2, τ, h1, hy, hm, hd⟩
    · rw [List.getElem?_append_right h2] at h1
      have := List.mem_of_getElem? h1
      exact .inr ⟨h2, by simpa using this⟩
  have hset : ∀ (n' : MNet U B T H) j τ0 τ1, n'.tasks = n.tasks.set j τ1 → n.tasks[j]? = some τ0 →
      (Pend x τ1 → Pend x τ0) → n'.tasks[i]? = some τ → τ1.msg = τ0.msg → τ1.here = τ0.here →
      (i < n.tasks.length ∧ ∃ τ0, n.tasks[i]? = some τ0 ∧ τ0.here = y ∧ entryOf u τ0.msg ≠ none ∧ Pend x τ0) := by
    intro n' j τ0 τ1 e h3 h4 h1 h5 h6
    rw [e] at h1
    have hlt : i < n.tasks.length := by
      have := (List.getElem?_eq_some_iff.1 h1).1
      simpa using this
    refine ⟨hlt, ?_⟩
    by_cases hij : i = j
    · subst hij
      rw [List.getElem?_set_self hlt] at h1
      cases h1
      exact ⟨τ0, h3, by rw [← h6]; exact hy, by rw [← h5]; exact hm, h4 hd⟩
    · rw [List.getElem?_set_ne (Ne.symm hij)] at h1; exact ⟨τ, h1, hy, hm, hd⟩
  cases l with
  | connect => exact .inl (hsame _ rfl hi)
  | disconnect => exact .inl (hsame _ rfl hi)
  | subscribe => exact .inl (hsame _ rfl hi)
  | unsubscribe => exact .inl (hsame _ rfl hi)
  | startTopic b =>
    simp only [MNet.step] at hi; split at hi
    · exact .inl (hsame _ rfl hi)
    · rcases hspawn _ _ rfl hi with h1 | ⟨_, h1⟩
      · exact .inl h1
      · exfalso; rw [h1] at hm; exact hm rfl
  | startUser b =>
    simp only [MNet.step] at hi; split at hi
    · exact .inl (hsame _ rfl hi)
    · rename_i m hq
      rcases hspawn _ _ rfl hi with h1 | ⟨h2, h1⟩
      · exact .inl h1
      · refine .inr ⟨h2, ?_⟩
        have hb : b = y := by rw [h1] at hy; exact hy
        subst hb
        have h3 := UNet.sync_msg (n.st b) u
        rw [hq] at h3
        rw [h1] at hm
        apply Classical.byContradiction
        intro hf
        rw [if_neg hf] at h3
        exact hm h3
  | readDests j =>
    simp only [MNet.step] at hi; split at hi
    · rename_i hj
      exact .inl (hset _ j _ ⟨_, _, some _⟩ rfl hj (fun _ ds e => by simp at e) hi rfl rfl)
    · exact .inl (hsame _ rfl hi)
  | send j ok =>
    simp only [MNet.step] at hi
    split at hi
    · rename_i b m d ds hj
      have hp : Pend x (⟨b, m, some ds⟩ : SyncTask U B T) → Pend x (⟨b, m, some (d :: ds)⟩ : SyncTask U B T) := by
        rintro h1 _ ⟨⟩
        exact List.mem_cons_of_mem _ (h1 ds rfl)
      split at hi
      · split at hi
        · exact .inl (hset _ j _ ⟨b, m, some ds⟩ rfl hj hp hi rfl rfl)
        · exact .inl (hset _ j _ ⟨b, m, some ds⟩ rfl hj hp hi rfl rfl)
      · exact .inl (hset _ j _ ⟨b, m, some ds⟩ rfl hj hp hi rfl rfl)
    · exact .inl (hsame _ rfl hi)
  | linkUp b b' c c' =>
    simp only [MNet.step] at hi
    split at hi
    · exact .inl (hsame _ rfl hi)
    · exact .inl (hsame _ rfl hi)
  | fullTopic b b' =>
    simp only [MNet.step] at hi
    split at hi
    · split at hi
      · exact .inl (hsame _ rfl hi)
      · rcases hspawn _ _ rfl hi with h1 | ⟨_, h1⟩
        · exact .inl h1
        · exfalso; rw [h1] at hm; exact hm rfl
    · exact .inl (hsame _ rfl hi)
  | fullUser b b' =>
    simp only [MNet.step] at hi
    split at hi
    · rename_i hin
      split at hi
      · exact .inl (hsame _ rfl hi)
      · rcases hspawn _ _ rfl hi with h1 | ⟨_, h1⟩
        · exact .inl h1
        · exfalso
          subst h1
          have h2 : x = b' := by simpa using hd [b'] rfl
          have h3 : b = y := hy
          subst h2; subst h3
          exact hf hin
    · exact .inl (hsame _ rfl hi)
  | drop => exact .inl (hsame _ rfl hi)
  | restart b => exact absurd rfl (hl b)
  | deliver b b' =>
    simp only [MNet.step] at hi
    split at hi
    · split at hi <;> exact .inl (hsame _ rfl hi)
    · exact .inl (hsame _ rfl hi)

/-- A queue is discarded, or gets one more message, from a sync. -/
theorem queue_due (n : MNet U B T H) (l : MLabel U B T H) (y x : B) (hnd : ∀ b b', l ≠ .deliver b b') :
    (n.step l).ch y x = [] ∨ (n.step l).ch y x = n.ch y x ∨
    ∃ (i : Nat) (τ : SyncTask U B T), n.tasks[i]? = some τ ∧ τ.here = y ∧ τ.dests ≠ some [] ∧
      (∃ ds, τ.dests = some (x :: ds)) ∧ (n.step l).ch y x = n.ch y x ++ [τ.msg] := by
  cases l with
  | connect => exact .inr (.inl rfl)
  | disconnect => exact .inr (.inl rfl)
  | subscribe => exact .inr (.inl rfl)
  | unsubscribe => exact .inr (.inl rfl)
  | startTopic b => simp only [MNet.step]; split <;> exact .inr (.inl rfl)
  | startUser b => simp only [MNet.step]; split <;> exact .inr (.inl rfl)
  | readDests i => simp only [MNet.step]; split <;> exact .inr (.inl rfl)
  | send i ok =>
    simp only [MNet.step]
    split
    · rename_i b m d ds hi
      split
      · split
        · simp only [setCh]
          split
          · rename_i e; obtain ⟨rfl, rfl⟩ := e
            exact .inr (.inr ⟨i, _, hi, rfl, by simp, ⟨ds, rfl⟩, rfl⟩)
          · exact .inr (.inl rfl)
        · simp only [setCh]
          split
          · exact .inl rfl
          · exact .inr (.inl rfl)
      · exact .inr (.inl rfl)
    · exact .inr (.inl rfl)
  | linkUp b b' c c' =>
    simp only [MNet.step]
    split
    · exact .inr (.inl rfl)
    · simp only [setCh]
      split
      · exact .inl rfl
      · split
        · exact .inl rfl
        · exact .inr (.inl rfl)
  | fullTopic b b' =>
    simp only [MNet.step]
    split
    · split <;> exact .inr (.inl rfl)
    · exact .inr (.inl rfl)
  | fullUser b b' =>
    simp only [MNet.step]
    split
    · split <;> exact .inr (.inl rfl)
    · exact .inr (.inl rfl)
  | drop b b' =>
    simp only [MNet.step, setCh]
    split
    · exact .inl rfl
    · exact .inr (.inl rfl)
  | restart b =>
    simp only [MNet.step]
    split
    · exact .inl rfl
    · exact .inr (.inl rfl)
  | deliver b b' => exact absurd rfl (hnd b b')

/-- A full user sync is due only after a new link. -/
theorem fullU_due (n : MNet U B T H) (l : MLabel U B T H) (y x : B) (h : (y, x) ∈ (n.step l).fullU) :
    (y, x) ∈ n.fullU ∨ Relink y x l := by
  cases l with
  | connect => exact .inl h
  | disconnect => exact .inl h
  | subscribe => exact .inl h
  | unsubscribe => exact .inl h
  | startTopic b => simp only [MNet.step] at h; split at h <;> exact .inl h
  | startUser b => simp only [MNet.step] at h; split at h <;> exact .inl h
  | readDests i => simp only [MNet.step] at h; split at h <;> exact .inl h
  | send i ok =>
    simp only [MNet.step] at h
    split at h
    · split at h
      · split at h <;> exact .inl h
      · exact .inl h
    · exact .inl h
  | linkUp b b' c c' =>
    simp only [MNet.step] at h
    split at h
    · exact .inl h
    · rcases List.mem_cons.1 h with e | h
      · cases e; exact .inr ⟨_, _, c, c', rfl, .inl ⟨rfl, rfl⟩⟩
      · rcases List.mem_cons.1 h with e | h
        · cases e; exact .inr ⟨_, _, c, c', rfl, .inr ⟨rfl, rfl⟩⟩
        · exact .inl h
  | fullTopic b b' =>
    simp only [MNet.step] at h
    split at h
    · split at h <;> exact .inl h
    · exact .inl h
  | fullUser b b' =>
    simp only [MNet.step] at h
    split at h
    · split at h <;> exact .inl (List.mem_of_mem_erase h)
    · exact .inl h
  | drop b b' => exact .inl h
  | deliver b b' =>
    simp only [MNet.step] at h
    split at h
    · split at h <;> exact .inl h
    · exact .inl h
  | restart b => exact .inl (List.mem_filter.1 h).1

/-- What `y` has to tell `x` about `u` is done soon after `t`. -/
structure Due (δ : Delays) (u : U) (y x : B) (t : Nat) (s : TNet U B T H) : Prop where
  full : (y, x) ∉ s.n.fullU
  sync : (UNet.view (s.n.st y) u).m = true → s.usyncDue y ≤ t + δ.sync
  task : ∀ (i : Nat) (τ : SyncTask U B T) (e : Nat), s.n.tasks[i]? = some τ → s.taskDue[i]? = some e →
    τ.here = y → entryOf u τ.msg ≠ none → Pend x τ → e ≤ t + δ.sync + δ.send
  ch : ∀ (i : Nat) (m : SyncMsg U B T) (e : Nat), (s.n.ch y x)[i]? = some m → (s.chDue y x)[i]? = some e →
    entryOf u m ≠ none → e ≤ t + δ.sync + δ.send + δ.link

theorem due_start {δ : Delays} {u : U} {y x : B} {s : TNet U B T H} (hD : DInv δ s) (hf : (y, x) ∉ s.n.fullU) :
    Due δ u y x s.now s := by
  refine ⟨hf, fun _ => hD.usync y, ?_, ?_⟩
  · intro i τ e _ he _ _ _
    have := hD.task e (List.mem_of_getElem? he)
    omega
  · intro i m e _ he _
    have := hD.ch y x e (List.mem_of_getElem? he)
    omega

theorem due_after {δ : Delays} {u : U} {y x : B} {t v : Nat} {s : TNet U B T H} (hk : Known s.n y u v) (hD : DInv δ s)
    (hw : Due δ u y x t s) (l : MLabel U B T H) (hc : ¬ Connects u l) (hd : l ≠ .disconnect y u) (hr : l ≠ .restart y)
    (hn : ¬ Relink y x l) : Due δ u y x t (s.after δ l) := by
  refine ⟨?_, ?_, ?_, ?_⟩
  · intro h1
    rcases fullU_due s.n l y x h1 with h2 | h2
    · exact hw.full h2
    · exact hn h2
  · intro h1
    obtain ⟨h2, h3⟩ := unann_known hk l hc hd hr h1
    rw [usyncDue_after δ s l y h3 hr]
    exact hw.sync h2
  · intro i τ e hi he hy hm hp
    by_cases hres : ∃ b, l = .restart b
    · obtain ⟨b, rfl⟩ := hres
      have h4 : (τ, e) ∈ ((s.n.step (.restart b)).tasks.zip (s.after δ (.restart b)).taskDue) :=
        List.mem_iff_getElem?.2 ⟨i, List.getElem?_zip_eq_some.2 ⟨hi, he⟩⟩
      have h5 : (τ, e) ∈ (s.n.tasks.zip s.taskDue).filter (fun q => decide (q.1.here ≠ b)) := by
        rw [← filter_zip (fun τ : SyncTask U B T => decide (τ.here ≠ b)) _ _ hD.len]
        exact h4
      obtain ⟨j, hj⟩ := List.mem_iff_getElem?.1 (List.mem_filter.1 h5).1
      rw [List.getElem?_zip_eq_some] at hj
      exact hw.task j τ e hj.1 hj.2 hy hm hp
    · have hnr : ∀ b, l ≠ .restart b := fun b e => hres ⟨b, e⟩
      rw [taskDue_after δ s l hnr] at he
      rcases task_due hw.full l hnr i τ hi hy hm hp with ⟨h1, τ0, h2, h3, h4, h5⟩ | ⟨h1, h2⟩
      · rw [List.getElem?_append_left (by rw [hD.len]; exact h1)] at he
        exact hw.task i τ0 e h2 he h3 h4 h5
      · rw [List.getElem?_append_right (by rw [hD.len]; exact h1)] at he
        have h3 := (List.mem_replicate.1 (List.mem_of_getElem? he)).2
        have h4 := hw.sync h2
        have h5 := hD.timely.usync y
        omega
  · intro i m e hi he hm
    by_cases hdel : ∃ c c', l = .deliver c c'
    · obtain ⟨c, c', rfl⟩ := hdel
      have he' : ((s.chDue y x).drop ((s.n.ch y x).length - ((s.n.step (.deliver c c')).ch y x).length))[i]? =
        some e := he
      have hi' : ((s.n.step (.deliver c c')).ch y x)[i]? = some m := hi
      rcases ch_deliver s.n c c' y x with h1 | ⟨rfl, rfl, _, m1, h1⟩
      · rw [h1] at hi' he'
        rw [Nat.sub_self, List.drop_zero] at he'
        exact hw.ch i m e hi' he' hm
      · have hlen : (s.n.ch y x).length - ((s.n.step (.deliver y x)).ch y x).length = 1 := by rw [h1]; simp
        rw [hlen, List.getElem?_drop] at he'
        refine hw.ch (1 + i) m e ?_ he' hm
        rw [h1, Nat.add_comm 1 i, List.getElem?_cons_succ]; exact hi'
    · have hnd : ∀ c c', l ≠ .deliver c c' := fun c c' e => hdel ⟨c, c', e⟩
      rw [chDue_after δ s l hnd] at he
      have hi' : ((s.n.step l).ch y x)[i]? = some m := hi
      rcases queue_due s.n l y x hnd with h1 | h1 | ⟨j, τ, h1, h2, h2', ⟨ds, hds⟩, h3⟩
      · rw [h1] at hi'; simp at hi'
      · rw [h1] at hi'
        rw [h1, requeue, if_neg (by omega), Nat.sub_self] at he
        simp only [List.replicate_zero, List.append_nil] at he
        exact hw.ch i m e hi' he hm
      · rw [h3] at hi'
        rw [h3, requeue, if_neg (by simp)] at he
        rcases Nat.lt_or_ge i (s.n.ch y x).length with h4 | h4
        · rw [List.getElem?_append_left h4] at hi'
          rw [List.getElem?_append_left (by rw [hD.chLen]; exact h4)] at he
          exact hw.ch i m e hi' he hm
        · rw [List.getElem?_append_right h4] at hi'
          rw [List.getElem?_append_right (by rw [hD.chLen]; exact h4)] at he
          have h5 := (List.mem_replicate.1 (List.mem_of_getElem? he)).2
          have h6 : m = τ.msg := by simpa using List.mem_of_getElem? hi'
          subst h6
          have hlt : j < s.taskDue.length := by rw [hD.len]; exact (List.getElem?_eq_some_iff.1 h1).1
          have h7 := hD.timely.task j τ _ h1 h2' (List.getElem?_eq_getElem hlt)
          have h8 := hw.task j τ _ h1 (List.getElem?_eq_getElem hlt) h2 hm (by
            intro ds' e'; rw [hds] at e'; cases e'; exact List.mem_cons_self ..)
          omega

/-- Once the time is over, `x` knows. -/
theorem due_over {δ : Delays} {u : U} {y x : B} {t v : Nat} {s : TNet U B T H} (hk : Known s.n y u v) (hD : DInv δ s)
    (hw : Due δ u y x t s) (hne : y ≠ x) (hlink : Linked s.n y x) (ht : t + wait δ < s.now) :
    (s.n.st x).getBrokerOfUser u = some y := by
  unfold wait at ht
  rcases hk.cov x (Ne.symm hne) ((knows_iff _ _ _).1 hlink.1) ((knows_iff _ _ _).1 hlink.2) with h | h | h | h | h
  · show (UNet.view (s.n.st x) u).e.bind VV.value = some y
    rw [h]; rfl
  · have h1 := hw.sync h
    have h2 := hD.timely.usync y
    omega
  · obtain ⟨τ, hτ, h1, h2, h3⟩ := h
    obtain ⟨i, hi⟩ := List.mem_iff_getElem?.1 hτ
    have hlt : i < s.taskDue.length := by rw [hD.len]; exact (List.getElem?_eq_some_iff.1 hi).1
    have h4 := hw.task i τ _ hi (List.getElem?_eq_getElem hlt) h1 (by rw [h2]; simp [MeshFailover.new]) h3
    have h5 := hD.timely.task i τ _ hi (by intro e; have := h3 _ e; simp at this) (List.getElem?_eq_getElem hlt)
    omega
  · obtain ⟨m, hm, h1⟩ := h
    obtain ⟨i, hi⟩ := List.mem_iff_getElem?.1 hm
    have hlt : i < (s.chDue y x).length := by rw [hD.chLen]; exact (List.getElem?_eq_some_iff.1 hi).1
    have h4 := hw.ch i m _ hi (List.getElem?_eq_getElem hlt) (by rw [h1]; simp [MeshFailover.new])
    have h5 := hD.timely.ch y x hlink.2 _ (List.getElem_mem hlt)
    omega
  · exact absurd h hw.full

theorem while_run {δ : Delays} {b b' : B} {Q : TNet U B T H → Prop} {s0 s s' : TNet U B T H} {l0 ls : List (TLabel U B T H)}
    (h0 : Run δ s0 l0 s) (h : While δ b b' Q s ls s') : Run δ s0 (l0 ++ ls) s' := by
  induction h with
  | nil => simpa using h0
  | snoc _ hs _ _ _ ih => rw [← List.append_assoc]; exact .snoc ih hs

theorem events_snoc (ls : List (TLabel U B T H)) (l : MLabel U B T H) : events (ls ++ [.ev l]) = events ls ++ [l] := by
  simp [events]

theorem events_tick (ls : List (TLabel U B T H)) (d : Nat) : events (ls ++ [.tick d]) = events ls := by
  simp [events]

theorem events_map (ls : List (MLabel U B T H)) : events (ls.map TLabel.ev) = ls := by
  induction ls with
  | nil => rfl
  | cons l ls ih => exact congrArg (l :: ·) ih

/-- The theorem below, with the invariant. -/
theorem found_core {δ : Delays} (u : U) (ps : List (Part U B T H)) (hes : History u (MNet.start : MNet U B T H) none ps)
    {s s' : TNet U B T H} {l0 ls : List (TLabel U B T H)} (hrun : Run δ (TNet.start δ) l0 s) (hev : events l0 = labels u ps)
    (hlen : 2 * (l0 ++ ls).length + 2 < 2 ^ 64) {y x : B} (hne : y ≠ x)
    (hloc : whereabouts u (labels u ps) none = some y) (hfull : (y, x) ∉ s.n.fullU)
    (hw : While δ y x (fun _ => True) s ls s') (hcalm : Calm u (some y) (events ls)) (hnow : s.now + wait δ < s'.now) :
    (∃ v, Known s'.n y u v) ∧ Linked s'.n y x ∧ (s'.n.st x).getBrokerOfUser u = some y := by
  have hl0 := events_length l0
  have hlen0 : 2 * (labels u ps).length + 2 < 2 ^ 64 := by
    rw [List.length_append] at hlen; rw [← hev]; omega
  have hb := MeshHistory.between_end u ps hes hlen0 y
  rw [hloc, ← hev] at hb
  have hn : s.n = (MNet.start : MNet U B T H).run (events l0) := run_net hrun
  rw [← hn] at hb
  obtain ⟨v, _, hk⟩ := hb
  have hD := (inv_timed hrun (by rw [List.length_append] at hlen; omega)).2
  have key : Known s'.n y u v ∧ Due δ u y x s.now s' ∧ Linked s'.n y x := by
    clear hnow
    induction hw with
    | nil hl _ => exact ⟨hk, due_start hD hfull, hl⟩
    | @snoc s1 s2 ls l hw' hs hnl hkl _ ih =>
      have hlen' : 2 * (l0 ++ ls).length + 2 < 2 ^ 64 := by
        simp only [List.length_append, List.length_singleton] at hlen ⊢; omega
      have hD' := (inv_timed (while_run hrun hw') (by omega)).2
      cases hs with
      | tick d ht =>
        rw [events_tick] at hcalm
        obtain ⟨h1, h2, h3⟩ := ih hlen' hcalm
        exact ⟨h1, ⟨h2.full, h2.sync, h2.task, h2.ch⟩, h3⟩
      | ev l =>
        rw [events_snoc] at hcalm
        obtain ⟨h1, h2, h3⟩ := ih hlen' (fun l' h' => hcalm l' (by simp [h']))
        have hcl := hcalm l (by simp)
        have hcy := hcl.2 y rfl
        refine ⟨known_step h1 l hcl.1 hcy.1 ⟨hcl.1, hcy.2⟩, due_after h1 hD' h2 l hcl.1 hcy.2.1 hcy.2.2 ?_, hkl⟩
        rintro ⟨b, b', c, c', rfl, h⟩
        exact hnl h
  have hD' := (inv_timed (while_run hrun hw) (by omega)).2
  exact ⟨⟨v, key.1⟩, key.2.2, due_over key.1 hD' key.2.1 hne key.2.2 hnow⟩

/-- **C128 (C126, C99).** After any history of moves, link failures and crashes as in C126, in which time passes, the user is at
`y`, and `y` has started its initial user sync for its link to `x`. From then on the user stays, and `y` and `x` keep their link;
all other links may come and go, and all other brokers may crash, as often as they like. Then, once the time until the next
periodic sync, and until a message has been sent and handled, has passed, `x` routes the user to `y`, where they still are. -/
theorem C128_found_in_time {δ : Delays} (u : U) (ps : List (Part U B T H)) (hes : History u (MNet.start : MNet U B T H) none ps)
    {s s' : TNet U B T H} {l0 ls : List (TLabel U B T H)} (hrun : Run δ (TNet.start δ) l0 s) (hev : events l0 = labels u ps)
    (hlen : 2 * (l0 ++ ls).length + 2 < 2 ^ 64) {y x : B} (hne : y ≠ x)
    (hloc : whereabouts u (labels u ps) none = some y) (hfull : (y, x) ∉ s.n.fullU)
    (hw : While δ y x (fun _ => True) s ls s') (hcalm : Calm u (some y) (events ls)) (hnow : s.now + wait δ < s'.now) :
    At s'.n y u ∧ (s'.n.st x).getBrokerOfUser u = some y := by
  obtain ⟨⟨v, h1⟩, _, h2⟩ := found_core u ps hes hrun hev hlen hne hloc hfull hw hcalm hnow
  exact ⟨(known_concl h1).1, h2⟩

/-- **C128, the premises can be met.** With finitely many brokers, in every reachable state with `y` and `x` linked, time goes on, by
syncs alone, with nothing overdue, the link kept and the user staying. -/
theorem C128_time_goes_on {δ : Delays} (bs : List B) (hbs : ∀ b, b ∈ bs) (u : U) {y x : B} {s : TNet U B T H}
    {l0 : List (TLabel U B T H)} (h0 : Run δ (TNet.start δ) l0 s) (hlen : 2 * l0.length < 2 ^ 64) (hlk : Linked s.n y x) :
    ∃ ls s', While δ y x (fun _ => True) s ls s' ∧ Calm u (some y) (events ls) ∧ s'.now = s.now + δ.sync := by
  obtain ⟨L, aL, hin⟩ := MeshTime.sync_round bs hbs h0 hlen
  have hnow : (MeshTime.afters δ s L).now = s.now := (MeshTime.afters_n δ L s).2
  have hw := MeshTime.while_afters δ y x s L aL (fun b => ((inv_timed h0 hlen).1.own b).index) hlk L ⟨[], by simp⟩
  refine ⟨L.map .ev ++ [.tick δ.sync], _, .snoc hw (.tick _ δ.sync (by rw [hnow]; exact hin)) (by intro h; exact h)
    ?_ trivial, ?_, ?_⟩
  · exact hw.last.1
  · rw [events_tick, events_map]
    exact calm_sync u _ L (fun l hl => Or.inl (aL l hl))
  · show (MeshTime.afters δ s L).now + δ.sync = _
    rw [hnow]

end

section
open Verif.Props.Network Verif.Broker Verif.Net Verif.Props.MeshEpochsDirect
variable {B H σ : Type} [DecidableEq B] [DecidableEq H] [LT B] [DecidableLT B]

/-- **C128, messages.** Under the same conditions, a direct message for the user published at `x` after that time, while the
tables do not change, is never received by anybody else, nor twice, and has been received by the user once nothing is in flight. -/
theorem C128_direct_in_time (cfg : Cfg B σ) (hT : Transparent cfg) {δ : Delays} (r : Bytes) (ps : List (Part Bytes B Topic H))
    (hes : History r (MNet.start : MNet Bytes B Topic H) none ps) {s s' : TNet Bytes B Topic H}
    {l0 ls : List (TLabel Bytes B Topic H)} (hrun : Run δ (TNet.start δ) l0 s) (hev : events l0 = labels r ps)
    (hlen : 2 * (l0 ++ ls).length + 2 < 2 ^ 64) {y x : B} (hne : y ≠ x)
    (hloc : whereabouts r (labels r ps) none = some y) (hfull : (y, x) ∉ s.n.fullU)
    (hw : While δ y x (fun _ => True) s ls s') (hcalm : Calm r (some y) (events ls)) (hnow : s.now + wait δ < s'.now)
    (hook : B → Dest B → σ) (ms : List (Label B H)) (hl : ∀ l ∈ ms, Static cfg l) (k : Nat)
    (a raw payload : Bytes) (hdec : cfg.decode raw = some (.direct r payload))
    (honce : ms.filter (publishes k) = [.publish x a k raw]) :
    let n := (Net.start s'.n.st hook).run cfg ms
    copiesReceived n r k ≤ 1 ∧ (∀ u, u ≠ r → copiesReceived n u k = 0) ∧ (Quiescent n → copiesReceived n r k = 1) := by
  intro n
  obtain ⟨⟨v, h1⟩, h2, h3⟩ := found_core r ps hes hrun hev hlen hne hloc hfull hw hcalm hnow
  obtain ⟨hat, hyy, _, _⟩ := known_concl h1
  have hcon := fun u => conservation cfg hT s'.n.st hook ms hl k x a raw honce u
  have hone : ∀ u, wWire cfg s'.n.st u x (.user a) raw = if u = r then 1 else 0 := fun u =>
    MeshFound.weight_one (cfg := cfg) (h1.ident x) (h1.ident y) h3 hyy hat (fun _ => h2.2) a u raw payload hdec
  refine ⟨?_, fun u hu => ?_, fun hq => ?_⟩
  · have := (hcon r).1
    rwa [hone, if_pos rfl] at this
  · have := (hcon u).1
    rw [hone, if_neg hu] at this
    exact Nat.le_zero.1 this
  · rw [(hcon r).2 hq, hone, if_pos rfl]

end

namespace Case
open Verif.Props.MeshTurn
open Verif.Props.MeshTime (δ0 next next_spec run? run?_spec)

abbrev Net3 := TNet Bytes (Fin 3) Topic Nat
abbrev Label3 := MLabel Bytes (Fin 3) Topic Nat

/-- `[7]` connects to broker 2, and everybody is told; broker 1 crashes, is linked to broker 2 again, and broker 2 starts its initial
user sync for it. -/
def parts : List (Part Bytes (Fin 3) Topic Nat) :=
  [.calm toyLinks,
   .moves [.connect 2 [7] 110 [], .startUser 2, .readDests 0, .send 0 true, .send 0 true, .deliver 2 0, .deliver 2 1],
   .calm [.restart 1, .drop 0 1, .drop 2 1, .linkUp 1 2 120 121, .fullUser 2 1]]

def before : List (TLabel Bytes (Fin 3) Topic Nat) := (labels [7] parts).map .ev

/-- The initial syncs are sent; broker 0 crashes; the periodic syncs of brokers 1 and 2 take place; 10.251 seconds pass. -/
def later : List (TLabel Bytes (Fin 3) Topic Nat) :=
  ([.fullTopic 0 1, .fullTopic 0 1, .fullTopic 2 1, .fullTopic 0 2, .fullTopic 2 0, .fullTopic 1 2, .fullTopic 2 1] : List Label3).map .ev ++
  [.tick 50, .ev (.send 1 true), .ev (.restart 0), .ev (.drop 2 0), .tick 200, .ev (.deliver 2 1), .tick 9750] ++
  ([.startTopic 0, .startUser 0, .startTopic 1, .startUser 1, .startTopic 2, .startUser 2] : List Label3).map .ev ++ [.tick 251]

def s1 : Net3 := (run? (TNet.start δ0) before).getD (TNet.start δ0)

/-- The steps while brokers 2 and 1 are linked, computed. -/
def kept? (s : Net3) : List (TLabel Bytes (Fin 3) Topic Nat) → Option Net3
  | [] => some s
  | l :: ls => (next s l).bind fun s' => if s'.n.knows 2 1 && s'.n.knows 1 2 && !isLinkUp3 l then kept? s' ls else none
where isLinkUp3 : TLabel Bytes (Fin 3) Topic Nat → Bool
  | .ev (.linkUp ..) => true
  | _ => false

theorem kept?_spec {ls : List (TLabel Bytes (Fin 3) Topic Nat)} {s0 s s' : Net3} {l0 : List (TLabel Bytes (Fin 3) Topic Nat)}
    (h0 : While δ0 2 1 (fun _ => True) s0 l0 s) (h : kept? s ls = some s') :
    While δ0 2 1 (fun _ => True) s0 (l0 ++ ls) s' := by
  induction ls generalizing s l0 with
  | nil => cases h; rw [List.append_nil]; exact h0
  | cons l ls ih =>
    simp only [kept?, Option.bind_eq_some_iff] at h
    obtain ⟨s2, h1, h2⟩ := h
    split at h2
    · rename_i hw
      simp only [Bool.and_eq_true, Bool.not_eq_true'] at hw
      have hl : ¬ NewLink (2 : Fin 3) 1 l := by
        intro h3
        cases l with
        | tick => exact h3
        | ev l => cases l <;> first | exact h3 | (exact absurd hw.2 (by simp [kept?.isLinkUp3]))
      have := ih (.snoc h0 (next_spec h1) hl ⟨hw.1.1, hw.1.2⟩ trivial) h2
      rwa [List.append_assoc] at this
    · cases h2

def s2 : Net3 := (kept? s1 later).getD s1

theorem parts_history : History [7] (MNet.start : MNet Bytes (Fin 3) Topic Nat) none parts := by
  refine ⟨calmB_sound _ _ _ (by decide +kernel),
    ⟨?_, by decide +kernel, nothingB_sound _ _ (by decide +kernel), ?_⟩, inTurnB_sound _ _ _ (by decide +kernel),
      nothingB_sound _ _ (by decide +kernel), ?_, calmB_sound _ _ _ (by decide +kernel), trivial⟩
  · unfold Linked; decide +kernel
  · unfold MeshTurn.Unannounced; decide +kernel
  · unfold MeshTurn.Unannounced; decide +kernel

theorem run_before : Run δ0 (TNet.start δ0) before s1 := by
  have h : (run? (TNet.start δ0 : Net3) before).isSome = true := by decide +kernel
  obtain ⟨x, hx⟩ := Option.isSome_iff_exists.1 h
  have e : s1 = x := by unfold s1; rw [hx]; rfl
  rw [e]; exact run?_spec (l0 := []) (.nil _) hx

theorem while_later : While δ0 2 1 (fun _ => True) s1 later s2 := by
  have h : (kept? s1 later).isSome = true := by decide +kernel
  obtain ⟨x, hx⟩ := Option.isSome_iff_exists.1 h
  have e : s2 = x := by unfold s2; rw [hx]; rfl
  rw [e]; exact kept?_spec (l0 := []) (.nil _ ⟨by decide +kernel, by decide +kernel⟩ trivial) hx

/-- C128 applies. At first broker 1 does not know where the user is; 10.251 seconds later it does, although broker 0 has
crashed meanwhile. -/
example : (s1.n.st 1).getBrokerOfUser [7] = none ∧ At s2.n 2 [7] ∧ (s2.n.st 1).getBrokerOfUser [7] = some 2 :=
  ⟨by decide +kernel,
   C128_found_in_time (δ := δ0) [7] parts parts_history run_before (events_map _) (by decide +kernel) (by decide)
    (by decide +kernel) (by decide +kernel) while_later (calmB_sound _ _ _ (by decide +kernel)) (by decide +kernel)⟩

/-- `C128_time_goes_on` applies where broker 1 does not know the user yet. -/
example : ∃ ls s', While δ0 2 1 (fun _ => True) s1 ls s' ∧ Calm [7] (some 2) (events ls) ∧ s'.now = s1.now + δ0.sync :=
  C128_time_goes_on [0, 1, 2] (by decide) [7] run_before (by decide +kernel) ⟨by decide +kernel, by decide +kernel⟩

section
open Verif.Props.Network Verif.Broker Verif.Net Verif.Props.MeshEpochsDirect

/-- `[8]` writes to `[7]` at broker 1. -/
def write : List (Label (Fin 3) Nat) :=
  [.publish 1 [8] 5 [3, 7], .take 1 (.user [8]), .send 1 (.user [8]) true, .take 2 (.broker 1), .send 2 (.broker 1) true]

/-- `C128_direct_in_time` applies: the message reaches `[7]` once; nothing is in flight. -/
example : let n := (Net.start s2.n.st (fun _ _ => 0)).run toyCfg write
    n.wire.length = 0 ∧ n.pend.length = 0 ∧ copiesReceived n [7] 5 = 1 ∧ copiesReceived n [8] 5 = 0 ∧
    write.filter (publishes 5) = [.publish 1 [8] 5 [3, 7]] ∧ Transparent toyCfg ∧ (∀ l ∈ write, Static toyCfg l) := by
  refine ⟨by decide +kernel, by decide +kernel, by decide +kernel, by decide +kernel, rfl, fun _ _ => ⟨rfl, rfl⟩, ?_⟩
  intro l hl
  simp only [write, List.mem_cons, List.not_mem_nil, or_false] at hl
  rcases hl with rfl | rfl | rfl | rfl | rfl
  all_goals first | rfl | trivial

end

end Case

end Verif.Props.MeshHistoryTime

import Verif.Props.Churn

/-!
# Property C116: direct messages while other users come and go
-/

set_option linter.unusedSectionVars false

namespace Verif.Props.Churn
open Verif Verif.Conns Verif.LNet Verif.Props.Linking Verif.Props.Network Verif.Net Verif.Broker
open Verif.Props.MeshUsers (entryOf entry_apply)

section
variable {U B T : Type} [DecidableEq U] [DecidableEq B] [DecidableEq T] [LT B] [DecidableLT B]

/-! ## Connections are with others -/

/-- Registered connections are connections with the broker they are registered for, which is another one. -/
structure RegOk (n : LNet U B T) : Prop where
  differ : ∀ c b b', n.ends c = some (b, b') → b ≠ b'
  reg : ∀ b b' c, n.conn b b' = some c → n.joins c b b'

theorem RegOk.self {n : LNet U B T} (h : RegOk n) (b : B) : n.conn b b = none := by
  cases hc : n.conn b b with
  | none => rfl
  | some c => exact absurd rfl (joins_differ h.differ (h.reg b b c hc))

theorem regOk_of {n n' : LNet U B T} (h : RegOk n) (he : n'.ends = n.ends)
    (hc : ∀ b b' c, n'.conn b b' = some c → n.conn b b' = some c) : RegOk n' :=
  ⟨by rw [he]; exact h.differ, fun b b' c h1 => by
    have := h.reg b b' c (hc b b' c h1); unfold joins at this ⊢; rw [he]; exact this⟩

theorem regOk_act {n : LNet U B T} (h : RegOk n) (b : B) (op : Op U B T Nat) (hadd : ∀ b h, op ≠ .addBroker b h)
    (hrem : ∀ b, op ≠ .removeBroker b) : RegOk (n.act b op) :=
  regOk_of h rfl (fun x y c e => by rw [conn_act n b op hadd hrem] at e; exact e)

theorem regOk_step {n : LNet U B T} (h : RegOk n) (l : LLabel U B T) : RegOk (n.step l) := by
  have same : ∀ n' : LNet U B T, n'.ends = n.ends → n'.st = n.st → RegOk n' :=
    fun n' e1 e2 => regOk_of h e1 (fun b b' c hc => by unfold conn at hc ⊢; rw [e2] at hc; exact hc)
  have acted : ∀ (b : B) (op : Op U B T Nat) (n' : LNet U B T), (∀ b h, op ≠ .addBroker b h) →
      (∀ b, op ≠ .removeBroker b) → n'.ends = n.ends → n'.st = (n.act b op).st → RegOk n' :=
    fun b op n' h1 h2 e1 e2 => regOk_of h e1 (fun x y c hc => by
      rw [← conn_act n b op h1 h2]; unfold conn at hc ⊢; rw [e2] at hc; exact hc)
  cases l with
  | connect x u' hd ts => exact acted x _ _ (by simp) (by simp) rfl rfl
  | disconnect x u' => exact acted x _ _ (by simp) (by simp) rfl rfl
  | subscribe x u' ts => exact acted x (.subscribeUser u' ts) _ (by simp) (by simp) rfl rfl
  | unsubscribe x u' ts => exact acted x (.unsubscribeUser u' ts) _ (by simp) (by simp) rfl rfl
  | startTopic x =>
    simp only [LNet.step]; split
    · exact acted x .partialTopicSync _ (by simp) (by simp) rfl rfl
    · exact acted x .partialTopicSync _ (by simp) (by simp) rfl rfl
  | startUser x =>
    simp only [LNet.step]; split
    · exact acted x .partialUserSync _ (by simp) (by simp) rfl rfl
    · exact acted x .partialUserSync _ (by simp) (by simp) rfl rfl
  | readDests i => simp only [LNet.step]; split <;> exact same _ rfl rfl
  | lookup i => simp only [LNet.step]; split <;> exact same _ rfl rfl
  | push i ok =>
    simp only [LNet.step]; split
    · rename_i x m ds d c hi
      split
      · exact same _ rfl rfl
      · exact regOk_of (same { n with tasks := n.tasks.set i ⟨x, m, ds, none⟩ } rfl rfl) rfl
          (fun b b' c hc => conn_remove _ x d b b' c hc)
    · exact h
  | authenticated c x y =>
    simp only [LNet.step]; split
    · exact h
    · rename_i hc
      simp only [not_or, Classical.not_not] at hc
      refine ⟨?_, ?_⟩
      · intro c' b b' e
        simp only at e
        split at e
        · cases e; exact hc.1
        · exact h.differ c' b b' e
      · intro b b' c' e
        have := h.reg b b' c' e
        unfold joins at this ⊢
        simp only
        split
        · rename_i ec; subst ec; rw [hc.2] at this; simp at this
        · exact this
  | register c x y =>
    simp only [LNet.step]; split
    · rename_i hj
      refine ⟨h.differ, ?_⟩
      intro b b' c' e
      have e' : (n.act x (.addBroker y c)).conn b b' = some c' := e
      show n.joins c' b b'
      unfold conn at e'
      rw [LNet.st_act] at e'
      split at e'
      · rename_i eb; subst eb
        by_cases hy : b' = y
        · subst hy
          simp [getBrokerConnection, Conns.step, addBroker] at e'
          subst e'; exact hj.1
        · refine h.reg b b' c' ?_
          simp only [getBrokerConnection, Conns.step, addBroker] at e'
          unfold conn getBrokerConnection
          rw [← e']
          simp [AMap.get_insert, Ne.symm hy, removeBroker_brokers_get]
      · exact h.reg b b' c' e'
    · exact h
  | fullTopic x y =>
    simp only [LNet.step]; split
    · split <;> exact same _ rfl rfl
    · exact h
  | fullUser x y =>
    simp only [LNet.step]; split
    · split <;> exact same _ rfl rfl
    · exact h
  | drop x y => exact regOk_of h rfl (fun b b' c hc => conn_remove n x y b b' c hc)
  | deliver c x y =>
    simp only [LNet.step]; split
    · split
      · exact h
      · rename_i m rest hq; exact acted y (.applyUserSync m) _ (by simp) (by simp) rfl rfl
      · rename_i m rest hq; exact acted y (.applyTopicSync x m) _ (by simp) (by simp) rfl rfl
    · exact h
  | strayUser c x y =>
    simp only [LNet.step]; split
    · split
      · rename_i m rest hq; exact acted y (.applyUserSync m) _ (by simp) (by simp) rfl rfl
      · exact h
    · exact h
  | strayTopic c x y =>
    simp only [LNet.step]; split
    · split
      · rename_i m rest hq; exact acted y (.applyTopicSync x m) _ (by simp) (by simp) rfl rfl
      · exact h
    · exact h
  | restart x =>
    refine regOk_of h rfl ?_
    intro b b' c e
    unfold conn at e
    have hst : ∀ y, (n.step (.restart x)).st y = if y = x then Conns.new x else n.st y := fun _ => rfl
    rw [hst] at e
    split at e
    · simp [Conns.new, getBrokerConnection] at e
    · exact e

/-! ## The place stays known -/

/-- What is known of `u`, anywhere, is entry `e`; the brokers in `P` know it. Syncs that are finished do not matter. -/
structure Place (n : LNet U B T) (u : U) (e : VV B) (P : B → Prop) : Prop where
  ident : ∀ x, (n.st x).identity = x
  tab : ∀ x, (n.st x).direct.map.get u = none ∨ (n.st x).direct.map.get u = some e
  known : ∀ x, P x → (n.st x).direct.map.get u = some e
  task : ∀ τ ∈ n.tasks, entryOf u τ.msg = none ∨ entryOf u τ.msg = some e ∨ (τ.dests = some [] ∧ τ.held = none)
  q : ∀ c x, ∀ m ∈ n.q c x, entryOf u m = none ∨ entryOf u m = some e

/-- A user whose entry is taken from a sync is not connected any more. -/
theorem gone_of_taken (s : Conns U B T Nat) (u : U) (r : DirectMap U B) (e : VV B) (h : r.map.get u = some e)
    (ht : VMap.takes s.direct.ident r.ident (s.direct.map.get u) e) : ((s.applyUserSync r).users.get u) = none := by
  have hmem : (u, e.value) ∈ (s.direct.merge r).2 := (VMap.mem_changes_merge _ _ _ _).2 ⟨e, h, ht, rfl⟩
  have stays : ∀ (l : List (U × Option B)) (s : Conns U B T Nat), s.users.get u = none →
      (l.foldl (fun s c => s.removeUser c.1) s).users.get u = none := by
    intro l
    induction l with
    | nil => exact fun s h => h
    | cons x l ih =>
      intro s hs
      apply ih
      rw [removeUser_users_get]; split
      · rfl
      · exact hs
  have goes : ∀ (l : List (U × Option B)) (s : Conns U B T Nat), (u, e.value) ∈ l →
      (l.foldl (fun s c => s.removeUser c.1) s).users.get u = none := by
    intro l
    induction l with
    | nil => exact fun s h => (nomatch h)
    | cons x l ih =>
      intro s hm
      rcases List.mem_cons.1 hm with rfl | hm
      · exact stays l _ (by rw [removeUser_users_get]; simp)
      · exact ih _ hm
  exact goes _ _ hmem

/-- The table part, for one call. -/
theorem place_call (s : Conns U B T Nat) (h : B) (u : U) (e : VV B) (he : e.value = some h) (op : Op U B T Nat)
    (htab : s.direct.map.get u = none ∨ s.direct.map.get u = some e)
    (hat : s.identity = h → ((s.step op).users.get u).isSome = true)
    (hadd : ∀ h ts, op ≠ .addUser u h ts)
    (hmsg : ∀ m, op = .applyUserSync m → m.map.get u = none ∨ m.map.get u = some e) :
    ((s.step op).direct.map.get u = none ∨ (s.step op).direct.map.get u = some e) ∧
    (s.direct.map.get u = some e → (s.step op).direct.map.get u = some e) := by
  have viewEq : ∀ s' : Conns U B T Nat, UNet.view s' u = UNet.view s u →
      (s'.direct.map.get u = none ∨ s'.direct.map.get u = some e) ∧
      (s.direct.map.get u = some e → s'.direct.map.get u = some e) := by
    intro s' h
    have h1 : s'.direct.map.get u = s.direct.map.get u := congrArg UNet.View.e h
    rw [h1]; exact ⟨htab, id⟩
  have had : VMap.adopted e = some e := by simp [VMap.adopted, he]
  by_cases hun : UNet.Unrelated u op
  · exact viewEq _ (UNet.view_unrelated s u op hun)
  · cases op with
    | addUser u' h ts =>
      have : u' = u := Classical.not_not.1 hun
      subst this; exact absurd rfl (hadd h ts)
    | removeUser u' =>
      have : u' = u := Classical.not_not.1 hun
      subst this
      have hne : ¬ s.identity = h := by
        intro e1
        have := hat e1
        simp only [Conns.step] at this
        rw [removeUser_users_get] at this; simp at this
      have hv := congrArg UNet.View.e (UNet.view_removeUser s u')
      have : (UNet.view s u').e.bind VV.value ≠ some s.identity := by
        show (s.direct.map.get u').bind VV.value ≠ _
        rcases htab with h1 | h1 <;> rw [h1]
        · simp
        · intro e1; apply hne
          have e2 : e.value = some s.identity := e1
          rw [he] at e2; exact (Option.some.inj e2).symm
      rw [UNet.remV, if_neg this] at hv
      have hv' : (s.removeUser u').direct.map.get u' = s.direct.map.get u' := hv
      simp only [Conns.step]
      rw [hv']; exact ⟨htab, id⟩
    | partialUserSync =>
      have hv := UNet.view_sync s u
      have h1 : s.getPartialUserSync.1.direct.map.get u = s.direct.map.get u := by
        have := congrArg UNet.View.e hv
        refine (show s.getPartialUserSync.1.direct.map.get u = _ from this).trans ?_
        show (if (UNet.view s u).m then (s.direct.map.get u).bind VMap.adopted else s.direct.map.get u) = _
        split
        · rcases htab with h | h <;> rw [h]
          · rfl
          · exact had
        · rfl
      simp only [Conns.step]
      rw [h1]; exact ⟨htab, id⟩
    | applyUserSync m =>
      simp only [Conns.step] at hat ⊢
      rcases hmsg m rfl with hm | hm
      · exact viewEq _ (UNet.view_apply_none s u m hm)
      · by_cases ht : VMap.takes s.direct.ident m.ident (s.direct.map.get u) e
        · have hne : s.identity ≠ h := by
            intro e1
            have h1 := hat e1
            rw [gone_of_taken s u m e hm ht] at h1; cases h1
          have hmerged : (s.direct.merge m).1.map.get u = some e := by
            rw [VMap.map_merge, hm]
            simp only
            rw [if_pos ht]; exact had
          rw [entry_apply s m u (by rw [hmerged]; intro e1; exact hne (Option.some.inj (he.symm.trans e1)).symm), hmerged]
          exact ⟨Or.inr rfl, fun _ => rfl⟩
        · exact viewEq _ (UNet.view_apply_lost s u m _ hm ht)
    | _ => exact absurd trivial hun

theorem place_act {n : LNet U B T} {h : B} {u : U} {e : VV B} {P : B → Prop} (he : e.value = some h)
    (hp : Place n u e P) (x : B) (op : Op U B T Nat) (hat : LAt (n.act x op) h u)
    (hadd : ∀ h ts, op ≠ .addUser u h ts)
    (hmsg : ∀ m, op = .applyUserSync m → m.map.get u = none ∨ m.map.get u = some e) :
    Place (n.act x op) u e P := by
  have hc := place_call (n.st x) h u e he op (hp.tab x) (by
    intro e1
    rw [hp.ident] at e1; subst e1
    unfold LAt getUserConnection at hat
    rw [st_act, if_pos rfl] at hat; exact hat) hadd hmsg
  refine ⟨?_, ?_, ?_, hp.task, hp.q⟩
  · intro y; rw [st_act]; split
    · rename_i e; subst e; rw [identity_step]; exact hp.ident _
    · exact hp.ident y
  · intro y; rw [st_act]; split
    · exact hc.1
    · exact hp.tab y
  · intro y hy; rw [st_act]; split
    · rename_i e; subst e; exact hc.2 (hp.known _ hy)
    · exact hp.known y hy

theorem place_setQ {n : LNet U B T} {u : U} {e : VV B} {P : B → Prop} (h : Place n u e P) (c : Nat) (x : B)
    (l : List (SyncMsg U B T)) (hq : ∀ m ∈ l, entryOf u m = none ∨ entryOf u m = some e) :
    Place (n.setQ c x l) u e P := by
  refine ⟨h.ident, h.tab, h.known, h.task, ?_⟩
  intro c' x' m hm
  simp only [setQ] at hm
  split at hm
  · exact hq m hm
  · exact h.q c' x' m hm

theorem place_spawn {n : LNet U B T} {u : U} {e : VV B} {P : B → Prop} (h : Place n u e P) (τ : LTask U B T)
    (hq : entryOf u τ.msg = none ∨ entryOf u τ.msg = some e) : Place (n.spawn τ) u e P :=
  ⟨h.ident, h.tab, h.known, by
    intro σ hσ
    rcases List.mem_append.1 hσ with h1 | h1
    · exact h.task σ h1
    · simp only [List.mem_singleton] at h1; subst h1
      rcases hq with h2 | h2
      · exact Or.inl h2
      · exact Or.inr (Or.inl h2), h.q⟩

theorem place_set {n : LNet U B T} {u : U} {e : VV B} {P : B → Prop} (h : Place n u e P) (i : Nat)
    (τ τ' : LTask U B T) (hi : n.tasks[i]? = some τ) (hm : τ'.msg = τ.msg) (hf : ¬ (τ.dests = some [] ∧ τ.held = none)) :
    Place { n with tasks := n.tasks.set i τ' } u e P :=
  ⟨h.ident, h.tab, h.known, by
    intro σ hσ
    rcases List.mem_or_eq_of_mem_set hσ with h1 | rfl
    · exact h.task σ h1
    · rw [hm]
      rcases h.task τ (List.mem_of_getElem? hi) with h1 | h1 | h1
      · exact Or.inl h1
      · exact Or.inr (Or.inl h1)
      · exact absurd h1 hf, h.q⟩

theorem place_user {n : LNet U B T} {h : B} {u : U} {e : VV B} {P : B → Prop} (he : e.value = some h)
    (hp : Place n u e P) (c : Nat) (x y : B) (m : DirectMap U B) (rest : List (SyncMsg U B T))
    (hq : n.q c x = .user m :: rest) (hat : LAt ((n.act y (.applyUserSync m)).setQ c x rest) h u) :
    Place ((n.act y (.applyUserSync m)).setQ c x rest) u e P := by
  refine place_setQ (place_act he hp y (.applyUserSync m) hat (by simp) ?_) _ _ _ ?_
  · rintro m' e; cases e
    exact hp.q c x (.user m) (by rw [hq]; simp)
  · intro m' hm'; exact hp.q c x m' (by rw [hq]; simp [hm'])

theorem place_topic {n : LNet U B T} {h : B} {u : U} {e : VV B} {P : B → Prop} (he : e.value = some h)
    (hp : Place n u e P) (c : Nat) (x y : B) (m : TopicSync T) (rest : List (SyncMsg U B T))
    (hq : n.q c x = .topic m :: rest) (hat : LAt ((n.act y (.applyTopicSync x m)).setQ c x rest) h u) :
    Place ((n.act y (.applyTopicSync x m)).setQ c x rest) u e P := by
  refine place_setQ (place_act he hp y (.applyTopicSync x m) hat (by simp) (by simp)) _ _ _ ?_
  intro m' hm'; exact hp.q c x m' (by rw [hq]; simp [hm'])

theorem place_step {n : LNet U B T} {h : B} {u : U} {e : VV B} {P : B → Prop} (he : e.value = some h)
    (hp : Place n u e P) (l : LLabel U B T) (hl : ¬ LConnects u l) (hr : ∀ x, P x → l ≠ .restart x)
    (hat : LAt (n.step l) h u) : Place (n.step l) u e P := by
  cases l with
  | connect x u' hd ts =>
    exact place_act he hp x _ hat (by intro h' ts' e; cases e; exact hl rfl) (by simp)
  | disconnect x u' => exact place_act he hp x _ hat (by simp) (by simp)
  | subscribe x u' ts => exact place_act he hp x (.subscribeUser u' ts) hat (by simp) (by simp)
  | unsubscribe x u' ts => exact place_act he hp x (.unsubscribeUser u' ts) hat (by simp) (by simp)
  | startTopic x =>
    simp only [LNet.step] at hat ⊢; split at hat
    · exact place_act he hp x .partialTopicSync hat (by simp) (by simp)
    · exact place_spawn (place_act he hp x .partialTopicSync hat (by simp) (by simp)) _ (Or.inl rfl)
  | startUser x =>
    simp only [LNet.step] at hat ⊢; split at hat
    · exact place_act he hp x .partialUserSync hat (by simp) (by simp)
    · rename_i m hm
      apply place_spawn (place_act he hp x .partialUserSync hat (by simp) (by simp))
      have h2 := UNet.sync_msg (n.st x) u
      rw [hm] at h2
      show m.map.get u = none ∨ m.map.get u = _
      have h3 : m.map.get u = if (UNet.view (n.st x) u).m then (n.st x).direct.map.get u else none := h2
      rw [h3]; split
      · exact hp.tab x
      · exact Or.inl rfl
  | readDests i =>
    simp only [LNet.step]; split
    · rename_i x m hi; exact place_set hp i _ _ hi rfl (by simp)
    · exact hp
  | lookup i =>
    simp only [LNet.step]; split
    · rename_i x m d ds hi; exact place_set hp i _ _ hi rfl (by simp)
    · exact hp
  | push i ok =>
    simp only [LNet.step] at hat ⊢; split at hat
    · rename_i x m ds d c hi
      have h1 := place_set hp i _ ⟨x, m, ds, none⟩ hi rfl (by simp)
      split
      · apply place_setQ h1
        intro m' hm'
        rcases List.mem_append.1 hm' with h2 | h2
        · exact hp.q _ _ m' h2
        · simp only [List.mem_singleton] at h2; subst h2
          rcases hp.task _ (List.mem_of_getElem? hi) with h3 | h3 | h3
          · exact Or.inl h3
          · exact Or.inr h3
          · exact absurd h3.2 (by simp)
      · rename_i hok
        rw [if_neg hok] at hat
        exact place_act he h1 x (.removeBroker d) hat (by simp) (by simp)
    · exact hp
  | authenticated c x y =>
    simp only [LNet.step]; split
    · exact hp
    · refine ⟨hp.ident, hp.tab, hp.known, hp.task, ?_⟩
      intro c' x' m hm
      simp only at hm
      split at hm
      · exact (nomatch hm)
      · exact hp.q c' x' m hm
  | register c x y =>
    revert hat; simp only [LNet.step]; split <;> intro hat
    · have h1 := place_act he hp x (.addBroker y c) hat (by simp) (by simp)
      exact ⟨h1.ident, h1.tab, h1.known, h1.task, h1.q⟩
    · exact hp
  | fullTopic x y =>
    simp only [LNet.step]; split
    · have h1 : Place { n with fullT := n.fullT.erase (x, y) } u e P := ⟨hp.ident, hp.tab, hp.known, hp.task, hp.q⟩
      split
      · exact h1
      · exact place_spawn h1 _ (Or.inl rfl)
    · exact hp
  | fullUser x y =>
    simp only [LNet.step]; split
    · have h1 : Place { n with fullU := n.fullU.erase (x, y) } u e P := ⟨hp.ident, hp.tab, hp.known, hp.task, hp.q⟩
      split
      · exact h1
      · rename_i m hm
        apply place_spawn h1
        unfold getFullUserSync at hm
        split at hm
        · cases hm
        · cases hm; exact hp.tab x
    · exact hp
  | drop x y => exact place_act he hp x (.removeBroker y) hat (by simp) (by simp)
  | deliver c x y =>
    revert hat; simp only [LNet.step]; split <;> intro hat
    · revert hat; split <;> intro hat
      · exact hp
      · rename_i m rest hq; exact place_user he hp c x y m rest hq hat
      · rename_i m rest hq; exact place_topic he hp c x y m rest hq hat
    · exact hp
  | strayUser c x y =>
    revert hat; simp only [LNet.step]; split <;> intro hat
    · revert hat; split <;> intro hat
      · rename_i m rest hq; exact place_user he hp c x y m rest hq hat
      · exact hp
    · exact hp
  | strayTopic c x y =>
    revert hat; simp only [LNet.step]; split <;> intro hat
    · revert hat; split <;> intro hat
      · rename_i m rest hq; exact place_topic he hp c x y m rest hq hat
      · exact hp
    · exact hp
  | restart x =>
    have hst : ∀ y, (n.step (.restart x)).st y = if y = x then Conns.new x else n.st y := fun _ => rfl
    refine ⟨?_, ?_, ?_, ?_, hp.q⟩
    · intro y; rw [hst]; split
      · rename_i e; subst e; rfl
      · exact hp.ident y
    · intro y; rw [hst]; split
      · left; simp [Conns.new, VMap.new]
      · exact hp.tab y
    · intro y hy; rw [hst]; split
      · rename_i e; subst e; exact absurd rfl (hr _ hy)
      · exact hp.known y hy
    · intro τ hτ; exact hp.task τ (List.mem_filter.1 hτ).1

/-- Where everything starts: everybody knows, nothing is under way. -/
theorem place_start (u : U) (l1 l2 : List (LLabel U B T)) (hno : ∀ l ∈ l1, ¬ LConnects u l)
    (hlinks : ∀ b b', b ≠ b' → ∃ c, Linked ((LNet.start : LNet U B T).run l1) c b b')
    (hinit : ((LNet.start : LNet U B T).run l1).fullU = [])
    (hturn : LInTurn u ((LNet.start : LNet U B T).run l1) l2) (hlen : l2.length + 1 < 2 ^ 64)
    (hway : LNothingUnderWay u ((LNet.start : LNet U B T).run (l1 ++ l2)))
    (hann : ∀ b, ¬ LUnannounced u ((LNet.start : LNet U B T).run (l1 ++ l2)) b) (h : B)
    (hloc : lwhereabouts u l2 none = some h) :
    RegOk ((LNet.start : LNet U B T).run (l1 ++ l2)) ∧
    ∃ e, e.value = some h ∧ Place ((LNet.start : LNet U B T).run (l1 ++ l2)) u e (fun _ => True) := by
  have hs := steady_start u l1 l2 hno hlinks hinit hturn hlen h
  generalize (LNet.start : LNet U B T).run (l1 ++ l2) = n at *
  refine ⟨⟨hs.differ, hs.reg⟩, ?_⟩
  obtain ⟨_, base, ed, e, hh | hh⟩ := hs.inv
  · exfalso
    apply hann ed
    have := hh.edM
    simpa [UNet.view, LUnannounced, MeshTurn.ghost, toM] using this
  · have hv : e.value = some h := hh.core.val.trans hloc
    have had : VMap.adopted e = some e := by simp [VMap.adopted, hv]
    have hall : ∀ b, (n.st b).direct.map.get u = some e := by
      intro b
      by_cases hb : b = ed
      · subst hb; exact hh.edE.trans had
      · obtain ⟨_, h1 | h1⟩ := hh.others b hb
        · rw [UserSync.chU_nil_of u _ (MeshTurn.nothing_ghost (nothing_toM hway))] at h1; simp at h1
        · exact h1.2.1.trans had
    refine ⟨e, hv, hs.stable.ident, fun b => Or.inr (hall b), fun b _ => hall b, ?_, ?_⟩
    · intro τ hτ
      rcases hway.2 τ hτ with h1 | h1
      · exact Or.inl h1
      · exact Or.inr (Or.inr h1)
    · exact fun c x m hm => Or.inl (hway.1 c x m hm)
end

variable {B σ : Type} [DecidableEq B] [LT B] [DecidableLT B]

theorem place_run (cfg : Cfg B σ) {h : B} {u : Bytes} {e : VV B} {P : B → Prop} (he : e.value = some h)
    (js : List (CLabel B)) (s : Churn B σ) (hp : Place s.mesh u e P) (hreg : RegOk s.mesh)
    (hl : ∀ l, .mesh l ∈ js → ¬ LConnects u l ∧ ∀ x, P x → l ≠ .restart x)
    (hat : ∀ p, p <+: js → LAt (s.run cfg p).mesh h u) :
    Place (s.run cfg js).mesh u e P ∧ RegOk (s.run cfg js).mesh := by
  induction js generalizing s with
  | nil => exact ⟨hp, hreg⟩
  | cons l js ih =>
    have hat' : ∀ p, p <+: js → LAt ((s.step cfg l).run cfg p).mesh h u :=
      fun p hp => hat (l :: p) (List.cons_prefix_cons.2 ⟨rfl, hp⟩)
    have hl' : ∀ l, .mesh l ∈ js → ¬ LConnects u l ∧ ∀ x, P x → l ≠ .restart x :=
      fun l' h' => hl l' (by simp [h'])
    rw [run_cons']
    cases l with
    | msg l => exact ih _ hp hreg hl' hat'
    | lose i =>
      have hm := (loose_lose cfg s i).2.2.1
      exact ih _ (by rw [hm]; exact hp) (by rw [hm]; exact hreg) hl' hat'
    | loseSend i =>
      have hm := (loose_lose cfg s i).2.2.2
      exact ih _ (by rw [hm]; exact hp) (by rw [hm]; exact hreg) hl' hat'
    | mesh l =>
      have h1 := hl l (by simp)
      exact ih _ (place_step he hp l h1.1 h1.2 (hat' [] List.nil_prefix)) (regOk_step hreg l) hl' hat'

/-- The way of a direct message stays open, and connections are with others, under the hypotheses of `C116_direct`. -/
theorem open_direct (cfg : Cfg B σ) (l1 l2 : List (LLabel Bytes B Topic)) (u : Bytes)
    (hno : ∀ l ∈ l1, ¬ LConnects u l)
    (hlinks : ∀ b b', b ≠ b' → ∃ c, Linked ((LNet.start : LNet Bytes B Topic).run l1) c b b')
    (hinit : ((LNet.start : LNet Bytes B Topic).run l1).fullU = [])
    (hturn : LInTurn u ((LNet.start : LNet Bytes B Topic).run l1) l2) (hlen : l2.length + 1 < 2 ^ 64)
    (hway : LNothingUnderWay u ((LNet.start : LNet Bytes B Topic).run (l1 ++ l2)))
    (hann : ∀ b, ¬ LUnannounced u ((LNet.start : LNet Bytes B Topic).run (l1 ++ l2)) b)
    (h b0 : B) (hloc : lwhereabouts u l2 none = some h) (js : List (CLabel B))
    (hstay : ∀ l, .mesh l ∈ js → ¬ LConnects u l) (hook : B → Dest B → σ) (a : Bytes) (v c : Nat)
    (hall : ∀ p, p <+: js →
      let m := ((Churn.ofMesh ((LNet.start : LNet Bytes B Topic).run (l1 ++ l2)) hook).run cfg p).mesh
      OnlyAt m h u ∧ Kept m h b0 a v c) :
    ∀ p, p <+: js → RegOk ((Churn.ofMesh ((LNet.start : LNet Bytes B Topic).run (l1 ++ l2)) hook).run cfg p).mesh ∧
      ∀ raw payload, cfg.decode raw = some (.direct u payload) → Reaches cfg
        ((Churn.ofMesh ((LNet.start : LNet Bytes B Topic).run (l1 ++ l2)) hook).run cfg p).mesh.st u h b0 raw := by
  obtain ⟨hreg, e, he, hp0⟩ := place_start u l1 l2 hno hlinks hinit hturn hlen hway hann h hloc
  generalize (LNet.start : LNet Bytes B Topic).run (l1 ++ l2) = m0 at *
  have norestart : ∀ l x, .mesh l ∈ js → x = h ∨ x = b0 → l ≠ .restart x := by
    intro l x hl hx e1
    subst e1
    obtain ⟨p, q, rfl⟩ := List.append_of_mem hl
    have := hall (p ++ [.mesh (.restart x)]) (by simp)
    have hrun : ((Churn.ofMesh m0 hook).run cfg (p ++ [.mesh (.restart x)])).mesh =
        (((Churn.ofMesh m0 hook).run cfg p).mesh).step (.restart x) := by
      simp [Churn.run, List.foldl_append, Churn.step]
    rw [hrun] at this
    rcases hx with rfl | rfl
    · have := this.1.1
      simp [LAt, LNet.step, Conns.new, getUserConnection] at this
    · have := this.2.1
      simp [LNet.step, Conns.new, getUserConnection] at this
  have hpl : ∀ p, p <+: js → Place ((Churn.ofMesh m0 hook).run cfg p).mesh u e (fun x => x = h ∨ x = b0) ∧
      RegOk ((Churn.ofMesh m0 hook).run cfg p).mesh := by
    intro p hp
    refine place_run cfg he p _ ⟨hp0.ident, hp0.tab, fun x _ => hp0.known x trivial, hp0.task, hp0.q⟩ hreg ?_ ?_
    · intro l hl
      have hl' := hp.subset hl
      exact ⟨hstay l hl', fun x hx => norestart l x hl' hx⟩
    · exact fun q hq => (hall q (hq.trans hp)).1.1
  intro p hp
  obtain ⟨⟨hat, honly⟩, _, hlink⟩ := hall p hp
  obtain ⟨hP, hR⟩ := hpl p hp
  refine ⟨hR, fun raw payload hd => ?_⟩
  generalize ((Churn.ofMesh m0 hook).run cfg p).mesh = m at *
  have hb : ∀ x, (x = h ∨ x = b0) → (m.st x).getBrokerOfUser u = some h := by
    intro x hx
    show ((m.st x).direct.map.get u).bind VV.value = some h
    rw [hP.known x hx]; exact he
  refine ⟨hat, ?_, hR.self h, ?_, ?_, ?_⟩
  · intro x hx
    cases hc : (m.st x).getUserConnection u with
    | none => rfl
    | some v => exact absurd (show LAt m x u by unfold LAt; rw [hc]; rfl) (honly x hx)
  · intro hne
    have := (hlink hne).2
    unfold conn at this; rw [this]; rfl
  · intro a'
    simp only [dests, hd, directDests]
    rw [hb b0 (Or.inr rfl), hP.ident]
    by_cases e1 : b0 = h
    · subst e1; simp
    · simp [e1, Ne.symm e1]
  · intro b'
    simp only [dests, hd, directDests]
    rw [hb h (Or.inl rfl), hP.ident]
    simp

/-- **C116.** The brokers connect with each other (`l1`), then users come and go, `u` in turn (`LInTurn`), until the
last change of `u` has been announced and has arrived everywhere; `u` is at `h` then (`l2`). From now on `u` stays
connected to `h` and to no other broker, the publisher `a` stays connected to `b0`, and unless that is `h`, `b0` and `h`
keep one connection registered for each other. Anything else may happen meanwhile: other users come, go and move at any
time, in turn or not; other connections between brokers come and go; other brokers are restarted; what is under way on
such connections is lost or not; full and partial syncs and messages of all kinds are under way (`Harmless`). A direct
message to `u` that `a` publishes meanwhile is received by `u` at most once at any time, and exactly once when nothing
is under way any more. -/
theorem C116_direct (cfg : Cfg B σ) (hT : Transparent cfg) (l1 l2 : List (LLabel Bytes B Topic)) (u : Bytes)
    (hno : ∀ l ∈ l1, ¬ LConnects u l)
    (hlinks : ∀ b b', b ≠ b' → ∃ c, Linked ((LNet.start : LNet Bytes B Topic).run l1) c b b')
    (hinit : ((LNet.start : LNet Bytes B Topic).run l1).fullU = [])
    (hturn : LInTurn u ((LNet.start : LNet Bytes B Topic).run l1) l2) (hlen : l2.length + 1 < 2 ^ 64)
    (hway : LNothingUnderWay u ((LNet.start : LNet Bytes B Topic).run (l1 ++ l2)))
    (hann : ∀ b, ¬ LUnannounced u ((LNet.start : LNet Bytes B Topic).run (l1 ++ l2)) b)
    (h b0 : B) (hloc : lwhereabouts u l2 none = some h) (js : List (CLabel B))
    (hstay : ∀ l, .mesh l ∈ js → ¬ LConnects u l) (hook : B → Dest B → σ) (a : Bytes) (v c : Nat)
    (hall : ∀ p, p <+: js →
      let m := ((Churn.ofMesh ((LNet.start : LNet Bytes B Topic).run (l1 ++ l2)) hook).run cfg p).mesh
      OnlyAt m h u ∧ Kept m h b0 a v c)
    (k : Nat) (raw payload : Bytes) (hd : cfg.decode raw = some (.direct u payload))
    (honce : js.filter (publishesC k) = [.msg (.publish b0 a k raw)])
    (hharm : ∀ p l, p ++ [.msg l] <+: js → Harmless cfg k u h b0 a
      ((Churn.ofMesh ((LNet.start : LNet Bytes B Topic).run (l1 ++ l2)) hook).run cfg p).net l) :
    let n := ((Churn.ofMesh ((LNet.start : LNet Bytes B Topic).run (l1 ++ l2)) hook).run cfg js).net
    copiesReceived n u k ≤ 1 ∧ (Quiescent n → copiesReceived n u k = 1) := by
  have hopen := open_direct cfg l1 l2 u hno hlinks hinit hturn hlen hway hann h b0 hloc js hstay hook a v c hall
  refine once_of_reaches cfg hT ?_ _ hook js honce hharm (fun p hp => (hopen p hp).2 raw payload hd) v c
    (fun p hp => (hall p hp).2)
  unfold Net.Good; rw [hd]; trivial

/-! ## Example -/

/-- Three brokers connect with each other. -/
def threeLinks : List (LLabel Bytes (Fin 3) Topic) :=
  [.authenticated 0 0 1, .authenticated 1 0 2, .authenticated 2 1 2, .register 0 0 1, .register 0 1 0, .register 1 0 2,
   .register 1 2 0, .register 2 1 2, .register 2 2 1, .fullUser 0 1, .fullUser 1 0, .fullUser 0 2, .fullUser 2 0,
   .fullUser 1 2, .fullUser 2 1]

/-- User `[2]` connects to broker 2 and, when that has arrived everywhere, to broker 1. -/
def threeUsers : List (LLabel Bytes (Fin 3) Topic) :=
  [.connect 2 [2] 11 [0], .startUser 2, .readDests 0, .lookup 0, .push 0 true, .lookup 0, .push 0 true, .deliver 1 2 0,
   .deliver 2 2 1, .connect 1 [2] 12 [0], .startUser 1, .readDests 1, .lookup 1, .push 1 true, .lookup 1, .push 1 true,
   .connect 0 [3] 13 [1], .deliver 0 1 0, .deliver 2 1 2]

/-- While the message of `[3]` to `[2]` is under way, user `[5]` connects to broker 2 and to broker 0, brokers 1 and 2
replace their connection and broker 1 sends all it knows on the new one, a message that broker 2 has sent to broker 1 is
lost with the old one, broker 2 is restarted and connects to broker 1 again. -/
def threeDuring : List (CLabel (Fin 3)) :=
  [.mesh (.connect 2 [5] 15 []), .msg (.publish 0 [3] 7 [3, 2]), .msg (.publish 2 [5] 8 [3, 2]), .msg (.take 2 (.user [5])),
   .msg (.send 2 (.user [5]) true), .mesh (.authenticated 3 1 2), .mesh (.connect 0 [5] 16 [0]),
   .msg (.take 0 (.user [3])), .mesh (.register 3 1 2), .lose 0, .mesh (.register 3 2 1),
   .msg (.send 0 (.user [3]) true), .mesh (.fullUser 1 2), .mesh (.lookup 2), .mesh (.push 2 true), .mesh (.restart 2),
   .mesh (.drop 0 2), .mesh (.drop 1 2), .mesh (.authenticated 4 2 1), .mesh (.register 4 2 1),
   .mesh (.register 4 1 2), .msg (.take 1 (.broker 0)), .mesh (.fullUser 1 2), .msg (.send 1 (.broker 0) true)]

def threeMesh : LNet Bytes (Fin 3) Topic := (LNet.start : LNet Bytes (Fin 3) Topic).run (threeLinks ++ threeUsers)

/-- The hypotheses of `C116_direct` hold, and the message arrives. -/
example : let n := (LNet.start : LNet Bytes (Fin 3) Topic).run threeLinks
    (∀ l ∈ threeLinks, ¬ LConnects [2] l) ∧ (∀ b b', b ≠ b' → ∃ c, Linked n c b b') ∧ n.fullU = [] ∧
    LInTurn [2] n threeUsers ∧ LNothingUnderWay [2] threeMesh ∧ (∀ b, ¬ LUnannounced [2] threeMesh b) ∧
    lwhereabouts [2] threeUsers none = some 1 ∧
    (∀ l, .mesh l ∈ threeDuring → ¬ LConnects [2] l) ∧
    (∀ p, p <+: threeDuring →
      let m := ((Churn.ofMesh threeMesh (fun _ _ => 0)).run demoThree p).mesh
      OnlyAt m 1 [2] ∧ Kept m 1 0 [3] 13 0) ∧
    demoThree.decode [3, 2] = some (.direct [2] []) ∧
    threeDuring.filter (publishesC 7) = [.msg (.publish 0 [3] 7 [3, 2])] ∧
    (∀ p l, p ++ [.msg l] <+: threeDuring → Harmless demoThree 7 [2] 1 0 [3]
      ((Churn.ofMesh threeMesh (fun _ _ => 0)).run demoThree p).net l) ∧
    Quiescent ((Churn.ofMesh threeMesh (fun _ _ => 0)).run demoThree threeDuring).net ∧
    copiesReceived ((Churn.ofMesh threeMesh (fun _ _ => 0)).run demoThree threeDuring).net [2] 7 = 1 := by
  refine ⟨by simp [threeLinks, LConnects], ?_, by decide +kernel,
    linTurnB_sound 3 _ _ _ (below_run _ _ (below_start 3) (by decide +kernel)) (by decide +kernel),
    lnothingB_sound 3 _ _ (below_run _ _ (below_start 3) (by decide +kernel)) (by decide +kernel),
    by unfold LUnannounced; decide +kernel, by decide +kernel, ?_, ?_, rfl, ?_, ?_, ?_, by decide +kernel⟩
  · intro b b' hne
    have : ∀ b b' : Fin 3, b ≠ b' → ∃ c ∈ [0, 1, 2], ((LNet.start : LNet Bytes (Fin 3) Topic).run threeLinks).conn b b' = some c ∧
        ((LNet.start : LNet Bytes (Fin 3) Topic).run threeLinks).conn b' b = some c := by decide +kernel
    obtain ⟨c, _, h⟩ := this b b' hne
    exact ⟨c, h⟩
  · intro l hl
    simp only [threeDuring, List.mem_cons, List.not_mem_nil, or_false, CLabel.mesh.injEq, reduceCtorEq, false_or] at hl
    rcases hl with rfl | rfl | rfl | rfl | rfl | rfl | rfl | rfl | rfl | rfl | rfl | rfl | rfl | rfl | rfl | rfl <;>
      simp [LConnects]
  · intro p hp
    have := everB_sound demoThree (fun s => decide (LAt s.mesh 1 [2]) && decide (∀ x : Fin 3, x ≠ 1 → ¬ LAt s.mesh x [2]) &&
      decide ((s.mesh.st 0).getUserConnection [3] = some 13) &&
      decide (s.mesh.conn 1 0 = some 0 ∧ s.mesh.conn 0 1 = some 0)) threeDuring (Churn.ofMesh threeMesh (fun _ _ => 0)) (by decide +kernel) p hp
    simp only [Bool.and_eq_true, decide_eq_true_eq] at this
    exact ⟨⟨this.1.1.1, this.1.1.2⟩, this.1.2, fun _ => this.2⟩
  · simp [threeDuring, publishesC, publishes]
  · exact harmlessAll_sound demoThree demoThree_transparent 7 [2] 1 0 [3] threeDuring _ (by decide +kernel)
  · exact ⟨List.length_eq_zero_iff.1 (by decide +kernel), List.length_eq_zero_iff.1 (by decide +kernel)⟩

/-- The other message to `[2]` is lost. -/
example : copiesReceived ((Churn.ofMesh threeMesh (fun _ _ => 0)).run demoThree threeDuring).net [2] 8 = 0 := by
  decide +kernel

/-- Brokers 0 and 1 replace their connection while the message is on it. -/
def threeReplaced : List (CLabel (Fin 3)) :=
  [.msg (.publish 0 [3] 7 [3, 2]), .mesh (.authenticated 3 1 0), .msg (.take 0 (.user [3])), .msg (.send 0 (.user [3]) true),
   .mesh (.register 3 0 1), .mesh (.register 3 1 0), .lose 0]

/-- It is not enough that the brokers have some connection at every moment: nothing is under way any more, no send has
failed, and the message has not arrived. -/
example : (∀ p, p <+: threeReplaced →
      let m := ((Churn.ofMesh threeMesh (fun _ _ => 0)).run demoThree p).mesh
      OnlyAt m 1 [2] ∧ m.conn 0 1 ≠ none ∧ m.conn 1 0 ≠ none ∧ (m.st 0).getUserConnection [3] = some 13) ∧
    Quiescent ((Churn.ofMesh threeMesh (fun _ _ => 0)).run demoThree threeReplaced).net ∧
    copiesReceived ((Churn.ofMesh threeMesh (fun _ _ => 0)).run demoThree threeReplaced).net [2] 7 = 0 := by
  refine ⟨?_, ⟨List.length_eq_zero_iff.1 (by decide +kernel), List.length_eq_zero_iff.1 (by decide +kernel)⟩,
    by decide +kernel⟩
  intro p hp
  have := everB_sound demoThree (fun s => decide (LAt s.mesh 1 [2]) && decide (∀ x : Fin 3, x ≠ 1 → ¬ LAt s.mesh x [2]) &&
    decide (s.mesh.conn 0 1 ≠ none) && decide (s.mesh.conn 1 0 ≠ none) &&
    decide ((s.mesh.st 0).getUserConnection [3] = some 13)) threeReplaced
    (Churn.ofMesh threeMesh (fun _ _ => 0)) (by decide +kernel) p hp
  simp only [Bool.and_eq_true, decide_eq_true_eq] at this
  exact ⟨⟨this.1.1.1.1, this.1.1.1.2⟩, this.1.1.2, this.1.2, this.2⟩

end Verif.Props.Churn

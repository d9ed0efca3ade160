import Verif.Props.ChurnDirect
import Verif.Props.EndToEnd
import Verif.Props.Once

/-!
# Property C118: who reads what while the mesh changes
-/

set_option linter.unusedSectionVars false

namespace Verif.Props.ChurnSafe
open Verif Verif.Conns Verif.LNet Verif.Props.Linking Verif.Props.Network Verif.Net Verif.Broker Verif.Props.Churn

variable {B σ : Type} [DecidableEq B] [LT B] [DecidableLT B]

/-! ## Specification -/

/-- In this step `u` asks broker `b` for topic `t`: on connecting, or by subscribing. -/
def Asks (b : B) (u : Bytes) (t : Topic) : LLabel Bytes B Topic → Prop
  | .connect b' u' _ ts => b' = b ∧ u' = u ∧ t ∈ ts
  | .subscribe b' u' ts => b' = b ∧ u' = u ∧ t ∈ ts
  | _ => False

/-- In this step what `u` asked `b` for is over: `u` unsubscribes or disconnects, connects again without asking for `t`,
or the broker is restarted. -/
def TakesBack (b : B) (u : Bytes) (t : Topic) : LLabel Bytes B Topic → Prop
  | .connect b' u' _ ts => b' = b ∧ u' = u ∧ t ∉ ts
  | .disconnect b' u' => b' = b ∧ u' = u
  | .unsubscribe b' u' ts => b' = b ∧ u' = u ∧ t ∈ ts
  | .restart b' => b' = b
  | _ => False

/-- At the end of this history `u` has asked `b` for `t` and has not taken it back since. -/
def Asked (b : B) (u : Bytes) (t : Topic) (js : List (CLabel B)) : Prop :=
  ∃ pre l post, js = pre ++ .mesh l :: post ∧ Asks b u t l ∧ ∀ l', CLabel.mesh l' ∈ post → ¬ TakesBack b u t l'

/-- User `a` published message `k`, with these bytes, at `b0`. -/
def Published (js : List (CLabel B)) (b0 : B) (a : Bytes) (k : Nat) (raw : Bytes) : Prop :=
  CLabel.msg (.publish b0 a k raw) ∈ js

/-- The brokers send each other nothing of their own but user and topic syncs. -/
def OnlySyncs (cfg : Cfg B σ) (js : List (CLabel B)) : Prop :=
  ∀ b b' id raw, CLabel.msg (.originate b b' id raw) ∈ js →
    ∃ d, cfg.decode raw = some (.userSync d) ∨ cfg.decode raw = some (.topicSync d)

/-- All brokers freshly started. -/
def fresh (hook : B → Dest B → σ) : Churn B σ := Churn.ofMesh LNet.start hook

/-! ## What users asked for -/

theorem Asked.snoc {b : B} {u : Bytes} {t : Topic} {js : List (CLabel B)} (h : Asked b u t js) (l : CLabel B)
    (hl : ∀ l', l = .mesh l' → ¬ TakesBack b u t l') : Asked b u t (js ++ [l]) := by
  obtain ⟨pre, l0, post, rfl, h1, h2⟩ := h
  refine ⟨pre, l0, post ++ [l], by simp, h1, fun l' hm => ?_⟩
  rcases List.mem_append.1 hm with hm | hm
  · exact h2 l' hm
  · exact hl l' (List.mem_singleton.1 hm).symm

theorem Asked.now {b : B} {u : Bytes} {t : Topic} (js : List (CLabel B)) {l : LLabel Bytes B Topic}
    (hl : Asks b u t l) : Asked b u t (js ++ [.mesh l]) :=
  ⟨js, l, [], rfl, hl, by simp⟩

theorem fold_bcUsers (l : List (Bytes × Option B)) (s : Table B Nat) (hi : s.IndexInv) (u : Bytes) (t : Topic)
    (h : (l.foldl (fun s c => s.removeUser c.1) s).bcUsers.Bwd u t) : s.bcUsers.Bwd u t := by
  induction l generalizing s with
  | nil => exact h
  | cons c l ih =>
    have : (s.removeUser c.1).bcUsers.Bwd u t := ih _ (indexInv_step s (.removeUser c.1) hi) h
    rw [removeUser_bcUsers, RMap.bwd_removeKey hi.1] at this
    exact this.2

theorem topicFold_bcUsers (b : B) (l : List (Topic × Option SubStatus)) (s : Table B Nat) :
    (l.foldl (applyTopicChange b) s).bcUsers = s.bcUsers := by
  induction l generalizing s with
  | nil => rfl
  | cons c l ih =>
    rw [List.foldl_cons, ih]
    unfold applyTopicChange
    split <;> rfl

theorem applyTopicSync_bcUsers (s : Table B Nat) (b : B) (m : TopicSync Topic) :
    (s.applyTopicSync b m).bcUsers = s.bcUsers := by
  unfold applyTopicSync
  split
  · simp
  · rw [topicFold_bcUsers]

theorem partialTopicSync_bcUsers (s : Table B Nat) : s.getPartialTopicSync.1.bcUsers = s.bcUsers := by
  unfold getPartialTopicSync
  dsimp only
  split <;> rfl

/-- What a broker has as subscribed is what was, or what is asked for in this step. -/
theorem bwd_step (n : LNet Bytes B Topic) (hi : ∀ b, (n.st b).IndexInv) (l : LLabel Bytes B Topic) (b : B) (u : Bytes)
    (t : Topic) (h : ((n.step l).st b).bcUsers.Bwd u t) :
    Asks b u t l ∨ ((n.st b).bcUsers.Bwd u t ∧ ¬ TakesBack b u t l) := by
  have same : ∀ n' : LNet Bytes B Topic, n'.st = n.st → (n'.st b).bcUsers.Bwd u t → (n.st b).bcUsers.Bwd u t := by
    intro n' e h; rwa [e] at h
  have quiet : ∀ (x : B) (op : Op Bytes B Topic Nat) (n' : LNet Bytes B Topic), n'.st = (n.act x op).st →
      (((n.st x).step op).bcUsers = (n.st x).bcUsers) → (n'.st b).bcUsers.Bwd u t → (n.st b).bcUsers.Bwd u t := by
    intro x op n' e hq h
    rw [e, st_act] at h
    split at h
    · rename_i ex; subst ex; rwa [hq] at h
    · exact h
  have usync : ∀ (x : B) (m : DirectMap Bytes B) (n' : LNet Bytes B Topic), n'.st = (n.act x (.applyUserSync m)).st →
      (n'.st b).bcUsers.Bwd u t → (n.st b).bcUsers.Bwd u t := by
    intro x m n' e h
    rw [e, st_act] at h
    split at h
    · rename_i ex; subst ex
      exact fold_bcUsers (((n.st b).direct.merge m).2) { n.st b with direct := ((n.st b).direct.merge m).1 } (hi b) u t h
    · exact h
  cases l with
  | connect x v hd ts =>
    simp only [LNet.step, st_act] at h
    split at h
    · rename_i ex; subst ex
      have h' : (((n.st b).removeUser v).bcUsers.associate v ts).Bwd u t := by
        simpa [Conns.step, addUser] using h
      rw [removeUser_bcUsers, RMap.bwd_associate, RMap.bwd_removeKey (hi b).1] at h'
      rcases h' with ⟨rfl, h'⟩ | ⟨h1, h2⟩
      · exact .inl ⟨rfl, rfl, h'⟩
      · exact .inr ⟨h2, fun hb => h1 hb.2.1.symm⟩
    · rename_i ex
      exact .inr ⟨h, fun hb => ex hb.1.symm⟩
  | disconnect x v =>
    simp only [LNet.step, st_act] at h
    split at h
    · rename_i ex; subst ex
      have h' : ((n.st b).removeUser v).bcUsers.Bwd u t := h
      rw [removeUser_bcUsers, RMap.bwd_removeKey (hi b).1] at h'
      exact .inr ⟨h'.2, fun hb => h'.1 hb.2.symm⟩
    · rename_i ex
      exact .inr ⟨h, fun hb => ex hb.1.symm⟩
  | subscribe x v ts =>
    simp only [LNet.step, st_act] at h
    split at h
    · rename_i ex; subst ex
      have h' : ((n.st b).bcUsers.associate v ts).Bwd u t := h
      rw [RMap.bwd_associate] at h'
      rcases h' with ⟨rfl, h'⟩ | h'
      · exact .inl ⟨rfl, rfl, h'⟩
      · exact .inr ⟨h', fun hb => hb⟩
    · exact .inr ⟨h, fun hb => hb⟩
  | unsubscribe x v ts =>
    simp only [LNet.step, st_act] at h
    split at h
    · rename_i ex; subst ex
      have h' : ((n.st b).bcUsers.dissociate v ts).Bwd u t := h
      rw [RMap.bwd_dissociate] at h'
      exact .inr ⟨h'.2, fun hb => h'.1 ⟨hb.2.1.symm, hb.2.2⟩⟩
    · rename_i ex
      exact .inr ⟨h, fun hb => ex hb.1.symm⟩
  | startTopic x =>
    refine .inr ⟨?_, fun hb => hb⟩
    revert h; simp only [LNet.step]; split <;> intro h
    · exact quiet x .partialTopicSync _ rfl (partialTopicSync_bcUsers _) h
    · exact quiet x .partialTopicSync _ rfl (partialTopicSync_bcUsers _) h
  | startUser x =>
    refine .inr ⟨?_, fun hb => hb⟩
    revert h; simp only [LNet.step]; split <;> intro h
    · exact quiet x .partialUserSync _ rfl rfl h
    · exact quiet x .partialUserSync _ rfl rfl h
  | readDests i =>
    refine .inr ⟨?_, fun hb => hb⟩
    revert h; simp only [LNet.step]; split <;> exact same _ rfl
  | lookup i =>
    refine .inr ⟨?_, fun hb => hb⟩
    revert h; simp only [LNet.step]; split <;> exact same _ rfl
  | push i ok =>
    refine .inr ⟨?_, fun hb => hb⟩
    revert h; simp only [LNet.step]; split
    · rename_i x m ds d c hi
      split
      · exact same _ rfl
      · exact quiet x (.removeBroker d) _ rfl (removeBroker_bcUsers _ _)
    · exact same _ rfl
  | authenticated c x y =>
    refine .inr ⟨?_, fun hb => hb⟩
    revert h; simp only [LNet.step]; split <;> exact same _ rfl
  | register c x y =>
    refine .inr ⟨?_, fun hb => hb⟩
    revert h; simp only [LNet.step]; split
    · exact quiet x (.addBroker y c) _ rfl (by simp [Conns.step, addBroker])
    · exact same _ rfl
  | fullTopic x y =>
    refine .inr ⟨?_, fun hb => hb⟩
    revert h; simp only [LNet.step]; split
    · split <;> exact same _ rfl
    · exact same _ rfl
  | fullUser x y =>
    refine .inr ⟨?_, fun hb => hb⟩
    revert h; simp only [LNet.step]; split
    · split <;> exact same _ rfl
    · exact same _ rfl
  | drop x y =>
    exact .inr ⟨quiet x (.removeBroker y) _ rfl (removeBroker_bcUsers _ _) h, fun hb => hb⟩
  | deliver c x y =>
    refine .inr ⟨?_, fun hb => hb⟩
    revert h; simp only [LNet.step]; split
    · split
      · exact same _ rfl
      · exact usync y _ _ rfl
      · exact quiet y (.applyTopicSync x _) _ rfl (applyTopicSync_bcUsers _ _ _)
    · exact same _ rfl
  | strayUser c x y =>
    refine .inr ⟨?_, fun hb => hb⟩
    revert h; simp only [LNet.step]; split
    · split
      · exact usync y _ _ rfl
      · exact same _ rfl
    · exact same _ rfl
  | strayTopic c x y =>
    refine .inr ⟨?_, fun hb => hb⟩
    revert h; simp only [LNet.step]; split
    · split
      · exact quiet y (.applyTopicSync x _) _ rfl (applyTopicSync_bcUsers _ _ _)
      · exact same _ rfl
    · exact same _ rfl
  | restart x =>
    simp only [LNet.step] at h
    split at h
    · obtain ⟨s, hs, -⟩ := h
      cases hs
    · rename_i ex
      exact .inr ⟨h, fun hb => ex hb.symm⟩

/-! ## What brokers never do -/

/-- The tables' indices agree; a connection joins two brokers; no broker has one with itself. -/
structure Plain (n : LNet Bytes B Topic) : Prop where
  index : ∀ b, (n.st b).IndexInv
  differ : ∀ c b b', n.ends c = some (b, b') → b ≠ b'
  self : ∀ b, (n.st b).brokers.get b = none

theorem plain_start : Plain (LNet.start : LNet Bytes B Topic) :=
  ⟨fun b => (tinv_new b).index, (fun _ _ _ h => nomatch h), fun _ => rfl⟩

theorem self_step (s : Table B Nat) (b : B) (hi : s.IndexInv) (h : s.brokers.get b = none) (op : Op Bytes B Topic Nat)
    (hop : ∀ c, op ≠ .addBroker b c) : (s.step op).brokers.get b = none := by
  by_cases hn : NotAbout b op
  · rw [(notAbout_step s b op hi hn).1]; exact h
  · cases op with
    | addBroker b' c =>
      exfalso
      apply hn
      rintro rfl
      exact hop c rfl
    | removeBroker b' =>
      show (s.removeBroker b').brokers.get b = none
      rw [removeBroker_brokers_get]; split <;> simp [h]
    | subscribeBroker b' ts => exact h
    | unsubscribeBroker b' ts => exact h
    | applyTopicSync b' m =>
      have : b' = b := Classical.byContradiction fun e => hn e
      subst this
      show (s.applyTopicSync b' m).brokers.get b' = none
      unfold applyTopicSync
      rw [h]
      show (s.removeBroker b').brokers.get b' = none
      rw [removeBroker_brokers_get]; simp
    | _ => exact absurd trivial hn

theorem plain_step {n : LNet Bytes B Topic} (h : Plain n) (l : LLabel Bytes B Topic) : Plain (n.step l) := by
  have same : ∀ n' : LNet Bytes B Topic, n'.st = n.st → n'.ends = n.ends → Plain n' := by
    intro n' e1 e2
    exact ⟨by rw [e1]; exact h.index, by rw [e2]; exact h.differ, by rw [e1]; exact h.self⟩
  have act : ∀ (x : B) (op : Op Bytes B Topic Nat) (n' : LNet Bytes B Topic), n'.st = (n.act x op).st →
      n'.ends = n.ends → (∀ c, op ≠ .addBroker x c) → Plain n' := by
    intro x op n' e1 e2 hop
    refine ⟨fun b => ?_, by rw [e2]; exact h.differ, fun b => ?_⟩
    · rw [e1, st_act]; split
      · rename_i ex; subst ex; exact indexInv_step _ _ (h.index b)
      · exact h.index b
    · rw [e1, st_act]; split
      · rename_i ex; subst ex; exact self_step _ _ (h.index b) (h.self b) op hop
      · exact h.self b
  cases l with
  | connect x v hd ts => exact act x _ _ rfl rfl (by simp)
  | disconnect x v => exact act x _ _ rfl rfl (by simp)
  | subscribe x v ts => exact act x _ _ rfl rfl (by simp)
  | unsubscribe x v ts => exact act x _ _ rfl rfl (by simp)
  | startTopic x => simp only [LNet.step]; split <;> exact act x .partialTopicSync _ rfl rfl (by simp)
  | startUser x => simp only [LNet.step]; split <;> exact act x .partialUserSync _ rfl rfl (by simp)
  | readDests i => simp only [LNet.step]; split <;> exact same _ rfl rfl
  | lookup i => simp only [LNet.step]; split <;> exact same _ rfl rfl
  | push i ok =>
    simp only [LNet.step]; split
    · rename_i x m ds d c hi
      split
      · exact same _ rfl rfl
      · exact act x (.removeBroker d) _ rfl rfl (by simp)
    · exact same _ rfl rfl
  | authenticated c x y =>
    simp only [LNet.step]; split
    · exact h
    · rename_i hc
      refine ⟨h.index, ?_, h.self⟩
      intro c' b b' he
      dsimp only at he
      split at he
      · cases he
        exact fun e => hc (.inl e)
      · exact h.differ _ _ _ he
  | register c x y =>
    simp only [LNet.step]; split
    · rename_i hc
      have hne : x ≠ y := by
        rcases hc.1 with he | he
        · exact h.differ _ _ _ he
        · exact (h.differ _ _ _ he).symm
      exact act x (.addBroker y c) _ rfl rfl (by
        intro c' e
        simp only [Op.addBroker.injEq] at e
        exact hne e.1.symm)
    · exact h
  | fullTopic x y =>
    simp only [LNet.step]; split
    · split <;> exact same _ rfl rfl
    · exact h
  | fullUser x y =>
    simp only [LNet.step]; split
    · split <;> exact same _ rfl rfl
    · exact h
  | drop x y => exact act x (.removeBroker y) _ rfl rfl (by simp)
  | deliver c x y =>
    simp only [LNet.step]; split
    · split
      · exact h
      · exact act y (.applyUserSync _) _ rfl rfl (by simp)
      · exact act y (.applyTopicSync x _) _ rfl rfl (by simp)
    · exact h
  | strayUser c x y =>
    simp only [LNet.step]; split
    · split
      · exact act y (.applyUserSync _) _ rfl rfl (by simp)
      · exact h
    · exact h
  | strayTopic c x y =>
    simp only [LNet.step]; split
    · split
      · exact act y (.applyTopicSync x _) _ rfl rfl (by simp)
      · exact h
    · exact h
  | restart x =>
    refine ⟨fun b => ?_, h.differ, fun b => ?_⟩
    · simp only [LNet.step]; split
      · rename_i e; subst e; exact (tinv_new b).index
      · exact h.index b
    · simp only [LNet.step]; split
      · rfl
      · exact h.self b

/-! ## Invariants of the messages -/

theorem run_snoc (cfg : Cfg B σ) (s : Churn B σ) (js : List (CLabel B)) (l : CLabel B) :
    s.run cfg (js ++ [l]) = (s.run cfg js).step cfg l := by
  simp [Churn.run, List.foldl_append]

/-- Somebody sent this frame. -/
def Sent (js : List (CLabel B)) (p : Pkt) : Prop :=
  (∃ b, Published js b p.src p.id p.raw) ∨ ∃ b b', CLabel.msg (.originate b b' p.id p.raw) ∈ js

theorem Sent.snoc {js : List (CLabel B)} {p : Pkt} (h : Sent js p) (l : CLabel B) : Sent (js ++ [l]) p :=
  h.elim (fun ⟨b, hb⟩ => .inl ⟨b, List.mem_append_left _ hb⟩) (fun ⟨b, b', hb⟩ => .inr ⟨b, b', List.mem_append_left _ hb⟩)

/-- Why the loop of `frm` at `b` is to send the frame to user `u`. -/
def Reason (cfg : Cfg B σ) (js : List (CLabel B)) (b : B) (frm : Dest B) (u : Bytes) (p : Pkt) : Prop :=
  (∃ payload, cfg.decode p.raw = some (.direct u payload)) ∨
  ∃ ts payload, cfg.decode p.raw = some (.broadcast ts payload) ∧ ∃ t ∈ ts, ∃ js1,
    js1 ++ [.msg (.take b frm)] <+: js ∧ Sent js1 p ∧ Asked b u t js1

theorem Reason.snoc {cfg : Cfg B σ} {js : List (CLabel B)} {b : B} {frm : Dest B} {u : Bytes} {p : Pkt}
    (h : Reason cfg js b frm u p) (l : CLabel B) : Reason cfg (js ++ [l]) b frm u p := by
  rcases h with h | ⟨ts, pl, h1, t, h2, js1, h3, h4⟩
  · exact .inl h
  · exact .inr ⟨ts, pl, h1, t, h2, js1, h3.trans (List.prefix_append _ _), h4⟩

structure Safe (cfg : Cfg B σ) (js : List (CLabel B)) (s : Churn B σ) : Prop where
  tab : s.net.tab = s.mesh.st
  plain : Plain s.mesh
  asked : ∀ b u t, (s.mesh.st b).bcUsers.Bwd u t → Asked b u t js
  hop : HopInv s.net
  wire : ∀ i ∈ s.net.wire, Sent js i.pkt
  pend : ∀ t ∈ s.net.pend, Sent js t.pkt ∧ ∀ u, t.dest = .user u → Reason cfg js t.here t.frm u t.pkt

theorem safe_fresh (cfg : Cfg B σ) (hook : B → Dest B → σ) : Safe cfg [] (fresh hook) :=
  ⟨rfl, plain_start, (fun _ _ _ ⟨_, hs, _⟩ => nomatch hs), hopInv_start _ _, (fun _ h => nomatch h),
    (fun _ h => nomatch h)⟩

theorem safe_sub {cfg : Cfg B σ} {js : List (CLabel B)} {s s' : Churn B σ} (h : Safe cfg js s) (l : CLabel B)
    (hl : ∀ m, l ≠ .mesh m) (hm : s'.mesh = s.mesh) (ht : s'.net.tab = s.net.tab) (hw : ∀ i ∈ s'.net.wire, i ∈ s.net.wire)
    (hp : ∀ t ∈ s'.net.pend, t ∈ s.net.pend) (hi : s'.net.inbox = s.net.inbox) : Safe cfg (js ++ [l]) s' :=
  ⟨by rw [ht, hm, h.tab], by rw [hm]; exact h.plain,
    by rw [hm]; exact fun b u t hb => (h.asked b u t hb).snoc l (fun m e => absurd e (hl m)),
    hopInv_sub h.hop hw hp hi, fun i hm => (h.wire i (hw i hm)).snoc l,
    fun t hm => ⟨((h.pend t (hp t hm)).1).snoc l, fun u hu => ((h.pend t (hp t hm)).2 u hu).snoc l⟩⟩

theorem safe_step {cfg : Cfg B σ} (hT : Transparent cfg) {js : List (CLabel B)} {s : Churn B σ} (h : Safe cfg js s)
    (l : CLabel B) : Safe cfg (js ++ [l]) (s.step cfg l) := by
  have old : ∀ t ∈ s.net.pend, Sent (js ++ [l]) t.pkt ∧
      ∀ u, t.dest = .user u → Reason cfg (js ++ [l]) t.here t.frm u t.pkt :=
    fun t ht => ⟨((h.pend t ht).1).snoc l, fun u hu => ((h.pend t ht).2 u hu).snoc l⟩
  have oldw : ∀ i ∈ s.net.wire, Sent (js ++ [l]) i.pkt := fun i hi => (h.wire i hi).snoc l
  cases l with
  | mesh m =>
    refine ⟨rfl, plain_step h.plain m, ?_, ⟨h.hop.wire, h.hop.pend, h.hop.last, h.hop.inbox⟩, oldw, old⟩
    intro b u t hb
    rcases bwd_step s.mesh h.plain.index m b u t hb with ha | ⟨h1, h2⟩
    · exact Asked.now js ha
    · refine (h.asked b u t h1).snoc _ ?_
      rintro l' e
      cases e
      exact h2
  | lose i =>
    simp only [Churn.step]
    split
    · split
      · exact safe_sub h _ (by simp) rfl rfl (fun j hj => List.mem_of_mem_eraseIdx hj) (fun _ h => h) rfl
      · exact safe_sub h _ (by simp) rfl rfl (fun _ h => h) (fun _ h => h) rfl
    · exact safe_sub h _ (by simp) rfl rfl (fun _ h => h) (fun _ h => h) rfl
  | loseSend i =>
    simp only [Churn.step]
    split
    · split
      · exact safe_sub h _ (by simp) rfl rfl (fun _ h => h) (fun j hj => List.mem_of_mem_eraseIdx hj) rfl
      · exact safe_sub h _ (by simp) rfl rfl (fun _ h => h) (fun _ h => h) rfl
    · exact safe_sub h _ (by simp) rfl rfl (fun _ h => h) (fun _ h => h) rfl
  | msg m =>
    have hask : ∀ b u t, (s.mesh.st b).bcUsers.Bwd u t → Asked b u t (js ++ [.msg m]) :=
      fun b u t hb => (h.asked b u t hb).snoc _ (fun m e => nomatch e)
    have hhop : HopInv (s.step cfg (.msg m)).net := by
      have := hopInv_step cfg s.net h.hop m
      exact ⟨this.wire, this.pend, this.last, this.inbox⟩
    refine ⟨rfl, h.plain, hask, hhop, ?_, ?_⟩
    · show ∀ i ∈ (s.net.step cfg m).wire, _
      intro i hi
      cases m with
      | publish b u id raw =>
        rcases List.mem_append.1 hi with hi | hi
        · exact oldw i hi
        · rw [List.mem_singleton.1 hi]
          exact .inl ⟨b, by simp [Published]⟩
      | originate b b' id raw =>
        rcases List.mem_append.1 hi with hi | hi
        · exact oldw i hi
        · rw [List.mem_singleton.1 hi]
          exact .inr ⟨b, b', by simp⟩
      | setTable b t => exact oldw i hi
      | take b frm =>
        apply oldw
        revert hi
        simp only [Net.step]
        split
        · exact id
        · split
          · exact id
          · dsimp only
            split
            · exact fun hi => List.eraseP_subset hi
            · exact fun hi => (List.mem_filter.1 hi).1
      | send b frm ok =>
        revert hi
        simp only [Net.step]
        split
        · exact oldw i
        · rename_i t hf
          have ht := (old t (List.mem_of_find?_eq_some hf)).1
          split
          · split
            · exact oldw i
            · intro hi
              rcases List.mem_append.1 hi with hi | hi
              · exact oldw i hi
              · rw [List.mem_singleton.1 hi]; exact ht
          · exact oldw i
    · show ∀ t ∈ (s.net.step cfg m).pend, _
      intro t ht
      cases m with
      | publish b u id raw => exact old t ht
      | originate b b' id raw => exact old t ht
      | setTable b t' => exact old t ht
      | take b frm =>
        revert ht
        simp only [Net.step]
        split
        · exact old t
        · split
          · exact old t
          · rename_i i hf
            have hi := h.wire i (List.mem_of_find?_eq_some hf)
            intro ht
            rcases List.mem_append.1 ht with ht | ht
            · exact old t ht
            · obtain ⟨d, hd, rfl⟩ := List.mem_map.1 ht
              refine ⟨hi.snoc _, fun u hu => ?_⟩
              dsimp only at hu
              subst hu
              rcases EndToEnd.route_user cfg hT _ _ frm i.pkt.raw u hd with h1 | ⟨ts, pl, h1, t, h2, h3⟩
              · exact .inl h1
              · refine .inr ⟨ts, pl, h1, t, h2, js, List.prefix_refl _, hi, ?_⟩
                rw [h.tab] at h3
                obtain ⟨t', h4, h5⟩ := ((mem_interested _ [t] true).1 u).1 h3
                rw [List.mem_singleton.1 h4] at h5
                exact h.asked b u t h5
      | send b frm ok =>
        apply old
        revert ht
        simp only [Net.step]
        split
        · exact id
        · split
          · split <;> exact fun ht => List.eraseP_subset ht
          · exact fun ht => List.eraseP_subset ht

theorem safe_run {cfg : Cfg B σ} (hT : Transparent cfg) (hook : B → Dest B → σ) (js : List (CLabel B)) :
    Safe cfg js ((fresh hook).run cfg js) := by
  have key : ∀ (post pre : List (CLabel B)) (s : Churn B σ), Safe cfg pre s → Safe cfg (pre ++ post) (s.run cfg post) := by
    intro post
    induction post with
    | nil => intro pre s h; simpa [Churn.run] using h
    | cons l post ih =>
      intro pre s h
      have := ih (pre ++ [l]) _ (safe_step hT h l)
      rw [List.append_assoc] at this
      exact this
  exact key js [] _ (safe_fresh cfg hook)

/-! ## C118 -/

/-- **C118 (meant for them).** Brokers are started; users come, go, move and change their topics; connections between brokers
come and go, syncs are late, lost with their connection or handled on a connection given up already; sends fail. If the
hooks leave messages alone and brokers send nothing but syncs of their own: whenever a broker hands user `u` a frame, `u`
is connected to it at that moment, the frame was published before, with these bytes, by the user named as its sender,
and it is a direct message to `u`, or a broadcast on a topic for which `u` had asked this very broker, not taken back when
the broker routed the frame, after it had been published. -/
theorem C118_meant_for_them (cfg : Cfg B σ) (hT : Transparent cfg) (hook : B → Dest B → σ) (js : List (CLabel B))
    (ho : OnlySyncs cfg js) (b : B) (frm : Dest B) (ok : Bool) (u : Bytes) (p : Pkt)
    (h : ((fresh hook).run cfg (js ++ [.msg (.send b frm ok)])).net.inbox =
      ((fresh hook).run cfg js).net.inbox ++ [(u, p)]) :
    LAt ((fresh hook).run cfg js).mesh b u ∧ (∃ b0, Published js b0 p.src p.id p.raw) ∧
    ((∃ payload, cfg.decode p.raw = some (.direct u payload)) ∨
      ∃ ts payload, cfg.decode p.raw = some (.broadcast ts payload) ∧ ∃ t ∈ ts, ∃ js1,
        js1 ++ [.msg (.take b frm)] <+: js ∧ (∃ b0, Published js1 b0 p.src p.id p.raw) ∧ Asked b u t js1) := by
  have hs := safe_run hT hook js
  rw [run_snoc] at h
  generalize (fresh hook).run cfg js = s at h hs
  have h' : (s.net.step cfg (.send b frm ok)).inbox = s.net.inbox ++ [(u, p)] := h
  have hstep : ∃ t ∈ s.net.pend, t.here = b ∧ t.frm = frm ∧ t.dest = .user u ∧ t.pkt = p ∧
      (lookup (s.net.tab b) (.user u)).isSome = true := by
    revert h'
    simp only [Net.step]
    split
    · intro h'; simp at h'
    · rename_i t hf
      split
      · rename_i hok
        rw [Bool.and_eq_true] at hok
        split
        · rename_i x hd
          intro h'
          have := List.append_cancel_left h'
          simp only [List.cons.injEq, and_true, Prod.mk.injEq] at this
          obtain ⟨rfl, rfl⟩ := this
          obtain ⟨e1, e2⟩ := todo_for (List.find?_some hf)
          exact ⟨t, List.mem_of_find?_eq_some hf, e1, e2, hd, rfl, by rw [← hd]; exact hok.1⟩
        · intro h'; simp at h'
      · intro h'; simp at h'
  obtain ⟨t, ht, rfl, rfl, hd, rfl, hl⟩ := hstep
  obtain ⟨h1, h2⟩ := hs.pend t ht
  have hr := h2 u hd
  have user : ∀ js1, (∀ l ∈ js1, l ∈ js) → Sent js1 t.pkt → ∃ b0, Published js1 b0 t.pkt.src t.pkt.id t.pkt.raw := by
    rintro js1 hsub (h3 | ⟨x, x', h3⟩)
    · exact h3
    · exfalso
      obtain ⟨d, hd⟩ := ho _ _ _ _ (hsub _ h3)
      rcases hr with ⟨_, hm⟩ | ⟨_, _, hm, _⟩ <;> rcases hd with hd | hd <;> rw [hm] at hd <;> cases hd
  refine ⟨?_, user js (fun _ h => h) h1, ?_⟩
  · rw [hs.tab] at hl
    exact hl
  · rcases hr with hr | ⟨ts, pl, h3, tt, h4, js1, h5, h6, h7⟩
    · exact .inl hr
    · exact .inr ⟨ts, pl, h3, tt, h4, js1, h5, user js1 (fun l hl => h5.subset (List.mem_append_left _ hl)) h6, h7⟩

/-! ## How often -/

/-- Message `k` enters the network once, as a message `raw` of user `a` at broker `b0`. -/
def PublishedOnce (k : Nat) (b0 : B) (a raw : Bytes) (js : List (CLabel B)) : Prop :=
  js.filter (publishesC k) = [.msg (.publish b0 a k raw)] ∧ ∀ b b' r, CLabel.msg (.originate b b' k r) ∉ js

/-- What is handed to users in this history: by which broker, to whom, which message. -/
def handed (cfg : Cfg B σ) : Churn B σ → List (CLabel B) → List (B × Bytes × Pkt)
  | _, [] => []
  | s, l :: js =>
    (match l with
      | .msg (.send b _ _) => ((s.step cfg l).net.inbox.drop s.net.inbox.length).map fun e => (b, e)
      | _ => []) ++ handed cfg (s.step cfg l) js

/-- What does not depend on the hooks. -/
structure Tidy (s : Churn B σ) : Prop where
  tab : s.net.tab = s.mesh.st
  plain : Plain s.mesh
  hop : HopInv s.net

theorem tidy_fresh (hook : B → Dest B → σ) : Tidy (fresh hook) := ⟨rfl, plain_start, hopInv_start _ _⟩

theorem tidy_step (cfg : Cfg B σ) {s : Churn B σ} (h : Tidy s) (l : CLabel B) : Tidy (s.step cfg l) := by
  cases l with
  | mesh m => exact ⟨rfl, plain_step h.plain m, ⟨h.hop.wire, h.hop.pend, h.hop.last, h.hop.inbox⟩⟩
  | msg m =>
    have := hopInv_step cfg s.net h.hop m
    exact ⟨rfl, h.plain, ⟨this.wire, this.pend, this.last, this.inbox⟩⟩
  | lose i =>
    simp only [Churn.step]
    split
    · split
      · exact ⟨h.tab, h.plain, hopInv_sub h.hop (fun j hj => List.mem_of_mem_eraseIdx hj) (fun _ h => h) rfl⟩
      · exact h
    · exact h
  | loseSend i =>
    simp only [Churn.step]
    split
    · split
      · exact ⟨h.tab, h.plain, hopInv_sub h.hop (fun _ h => h) (fun j hj => List.mem_of_mem_eraseIdx hj) rfl⟩
      · exact h
    · exact h

theorem tidy_run (cfg : Cfg B σ) (js : List (CLabel B)) {s : Churn B σ} (h : Tidy s) : Tidy (s.run cfg js) := by
  induction js generalizing s with
  | nil => exact h
  | cons l js ih => exact ih (tidy_step cfg h l)

theorem handed_cons (cfg : Cfg B σ) (s : Churn B σ) (l : CLabel B) (js : List (CLabel B)) :
    handed cfg s (l :: js) = handed cfg s [l] ++ handed cfg (s.step cfg l) js := by
  simp [handed]

theorem handed_msg (cfg : Cfg B σ) (s : Churn B σ) (l : Label B Nat) :
    handed cfg s [.msg l] = Once.handed cfg s.net [l] := by
  cases l <;> rfl

/-- What users have received is what they were handed. -/
theorem inbox_handed (cfg : Cfg B σ) (js : List (CLabel B)) (s : Churn B σ) :
    (s.run cfg js).net.inbox = s.net.inbox ++ (handed cfg s js).map Prod.snd := by
  induction js generalizing s with
  | nil => simp [handed, Churn.run]
  | cons l js ih =>
    rw [run_cons', ih, handed_cons, List.map_append, ← List.append_assoc]
    congr 1
    cases l with
    | mesh m => simp [Churn.step, handed]
    | msg m =>
      rw [handed_msg]
      exact Once.inbox_handed cfg [m] s.net
    | lose i =>
      simp only [Churn.step, handed]
      split
      · split <;> simp
      · simp
    | loseSend i =>
      simp only [Churn.step, handed]
      split
      · split <;> simp
      · simp

section
variable (k : Nat) (b0 : B) (a raw : Bytes) (wi : Item B → Nat) (wt : Todo B → Nat) (wg : B × Bytes × Pkt → Nat)

theorem self_of_tidy {s : Churn B σ} (h : Tidy s) : (s.net.tab b0).getBrokerConnection b0 = none := by
  rw [h.tab]
  unfold getBrokerConnection
  rw [h.plain.self]
  rfl

theorem once_sub {n n' : Net B Nat σ} (h : Once.OnceInv k b0 a raw n) (ht : n'.tab = n.tab)
    (hw : n'.wire.Sublist n.wire) (hp : n'.pend.Sublist n.pend) :
    Once.OnceInv k b0 a raw n' ∧ Once.pot wi wt n' ≤ Once.pot wi wt n := by
  refine ⟨⟨by rw [ht]; exact h.self, fun i hi => h.wire i (hw.subset hi), fun t ht => h.pend t (hp.subset ht)⟩, ?_⟩
  have h1 := Once.sum_sublist wi hw
  have h2 := Once.sum_sublist wt hp
  unfold Once.pot
  omega

theorem once_step (cfg : Cfg B σ) (hw : Once.Weights k b0 a raw wi wt wg cfg Nat) (s : Churn B σ) (hs : Tidy s)
    (h : Once.OnceInv k b0 a raw s.net) (l : CLabel B)
    (hpub : ∀ b x r, l = .msg (.publish b x k r) → b = b0 ∧ x = a ∧ r = raw)
    (horig : ∀ b b' r, l ≠ .msg (.originate b b' k r)) :
    Once.OnceInv k b0 a raw (s.step cfg l).net ∧
    ((handed cfg s [l]).map wg).sum + Once.pot wi wt (s.step cfg l).net ≤
      Once.pot wi wt s.net + (if publishesC k l then 1 else 0) := by
  have hself : ((s.step cfg l).net.tab b0).getBrokerConnection b0 = none := self_of_tidy b0 (tidy_step cfg hs l)
  cases l with
  | mesh m =>
    refine ⟨⟨hself, h.wire, h.pend⟩, ?_⟩
    simp [handed, Churn.step, Once.pot]
  | msg m =>
    by_cases hm : ∃ b t, m = .setTable b t
    · obtain ⟨b, t, rfl⟩ := hm
      refine ⟨⟨hself, h.wire, h.pend⟩, ?_⟩
      simp [handed, Churn.step, Once.pot, Net.step]
    · obtain ⟨h1, h2⟩ := Once.once_step k b0 a raw wi wt wg cfg hw s.net hs.hop h m
        (fun b x r e => hpub b x r (by rw [e])) (fun b b' r e => horig b b' r (by rw [e]))
        (fun t e => absurd ⟨b0, t, e⟩ hm)
      refine ⟨⟨hself, h1.wire, h1.pend⟩, ?_⟩
      rw [handed_msg]
      exact h2
  | lose i =>
    simp only [Churn.step, handed, publishesC]
    split
    · split
      · obtain ⟨h1, h2⟩ := once_sub k b0 a raw wi wt h (n' := { s.net with wire := s.net.wire.eraseIdx i }) rfl
          (List.eraseIdx_sublist _ _) (List.Sublist.refl _)
        exact ⟨h1, by simpa using h2⟩
      · exact ⟨h, by simp⟩
    · exact ⟨h, by simp⟩
  | loseSend i =>
    simp only [Churn.step, handed, publishesC]
    split
    · split
      · obtain ⟨h1, h2⟩ := once_sub k b0 a raw wi wt h (n' := { s.net with pend := s.net.pend.eraseIdx i }) rfl
          (List.Sublist.refl _) (List.eraseIdx_sublist _ _)
        exact ⟨h1, by simpa using h2⟩
      · exact ⟨h, by simp⟩
    · exact ⟨h, by simp⟩

theorem once_run (cfg : Cfg B σ) (hw : Once.Weights k b0 a raw wi wt wg cfg Nat) (js : List (CLabel B)) (s : Churn B σ)
    (hs : Tidy s) (h : Once.OnceInv k b0 a raw s.net)
    (hpub : ∀ b x r, CLabel.msg (.publish b x k r) ∈ js → b = b0 ∧ x = a ∧ r = raw)
    (horig : ∀ b b' r, CLabel.msg (.originate b b' k r) ∉ js) :
    ((handed cfg s js).map wg).sum ≤ Once.pot wi wt s.net + (js.filter (publishesC k)).length := by
  induction js generalizing s with
  | nil => simp [handed]
  | cons l js ih =>
    obtain ⟨h1, h2⟩ := once_step k b0 a raw wi wt wg cfg hw s hs h l (fun b x r e => hpub b x r (by simp [e]))
      (fun b b' r e => horig b b' r (by simp [e]))
    have h3 := ih _ (tidy_step cfg hs l) h1 (fun b x r hm => hpub b x r (List.mem_cons_of_mem _ hm))
      (fun b b' r hm => horig b b' r (List.mem_cons_of_mem _ hm))
    rw [handed_cons, Once.sum_append, List.filter_cons]
    split <;> simp_all <;> omega

theorem once_fresh (cfg : Cfg B σ) (hw : Once.Weights k b0 a raw wi wt wg cfg Nat) (hook : B → Dest B → σ)
    (js : List (CLabel B)) (hp : PublishedOnce k b0 a raw js) : ((handed cfg (fresh hook) js).map wg).sum ≤ 1 := by
  have h := once_run k b0 a raw wi wt wg cfg hw js (fresh hook) (tidy_fresh hook)
    ⟨rfl, (fun _ h => nomatch h), (fun _ h => nomatch h)⟩ (fun b x r hm => by
      have : CLabel.msg (.publish b x k r) ∈ js.filter (publishesC k) :=
        List.mem_filter.2 ⟨hm, by simp [publishesC, publishes]⟩
      rw [hp.1] at this
      simp only [List.mem_singleton, CLabel.msg.injEq, Label.publish.injEq] at this
      exact ⟨this.1, this.2.1, this.2.2.2⟩) hp.2
  rw [hp.1] at h
  simpa [Once.pot, fresh, Churn.ofMesh, Net.start] using h

end

/-- **C118 (one link).** Whatever happens, with any hooks: every frame received by a user has crossed at most one connection
between brokers. -/
theorem C118_one_link (cfg : Cfg B σ) (hook : B → Dest B → σ) (js : List (CLabel B)) :
    ∀ e ∈ ((fresh hook).run cfg js).net.inbox, e.2.hops ≤ 1 :=
  (tidy_run cfg js (tidy_fresh hook)).hop.inbox

/-- **C118 (once per broker).** Whatever happens, with any hooks: no broker hands one publication to the same user twice. -/
theorem C118_once_per_broker (cfg : Cfg B σ) (hook : B → Dest B → σ) (js : List (CLabel B)) (k : Nat) (b0 : B) (a raw : Bytes)
    (hp : PublishedOnce k b0 a raw js) (b : B) (u : Bytes) :
    (handed cfg (fresh hook) js).countP (fun e => e.1 = b ∧ e.2.1 = u ∧ e.2.2.id = k) ≤ 1 := by
  rw [← Once.sum_countP]
  exact once_fresh k b0 a raw _ _ _ cfg (Once.weights_broker cfg k b0 a raw b u) hook js hp

/-- **C118 (direct messages once).** Whatever happens: a direct message is received at most once, by anybody. -/
theorem C118_direct_once (cfg : Cfg B σ) (hT : Transparent cfg) (hook : B → Dest B → σ) (js : List (CLabel B)) (k : Nat)
    (b0 : B) (a raw r payload : Bytes) (hd : cfg.decode raw = some (.direct r payload))
    (hp : PublishedOnce k b0 a raw js) :
    ((fresh hook).run cfg js).net.inbox.countP (fun e => e.2.id = k) ≤ 1 := by
  rw [inbox_handed, List.countP_append, List.countP_map]
  have h0 : (fresh hook : Churn B σ).net.inbox.countP (fun e => e.2.id = k) = 0 := rfl
  rw [h0, Nat.zero_add, ← Once.sum_countP]
  exact once_fresh k b0 a raw _ _ _ cfg (Once.weights_direct cfg hT k b0 a raw r payload hd) hook js hp

/-! ## Who is connected -/

theorem topicFold_users (b : B) (l : List (Topic × Option SubStatus)) (s : Table B Nat) :
    (l.foldl (applyTopicChange b) s).users = s.users := by
  induction l generalizing s with
  | nil => rfl
  | cons c l ih =>
    rw [List.foldl_cons, ih]
    unfold applyTopicChange
    split <;> rfl

theorem removeBroker_users (s : Table B Nat) (b : B) : (s.removeBroker b).users = s.users := by
  unfold removeBroker
  split <;> rfl

theorem users_step (s : Table B Nat) (op : Op Bytes B Topic Nat) (u : Bytes) (hop : ∀ h ts, op ≠ .addUser u h ts)
    (h : s.users.get u = none) : (s.step op).users.get u = none := by
  cases op with
  | addUser v hd ts =>
    have hne : v ≠ u := by rintro rfl; exact hop hd ts rfl
    show ((({ s with gaugeUsers := s.gaugeUsers + 1 } : Table B Nat).removeUser v).users.insert v hd).get u = none
    rw [AMap.get_insert, if_neg hne, removeUser_users_get]
    split
    · rfl
    · exact h
  | removeUser v =>
    show (s.removeUser v).users.get u = none
    rw [removeUser_users_get]
    split
    · rfl
    · exact h
  | addBroker b c =>
    show (({ s with gaugeBrokers := s.gaugeBrokers + 1 } : Table B Nat).removeBroker b).users.get u = none
    rw [removeBroker_users]; exact h
  | removeBroker b =>
    show (s.removeBroker b).users.get u = none
    rw [removeBroker_users]; exact h
  | applyUserSync m =>
    show ((s.direct.merge m).2.foldl (fun (s : Table B Nat) (c : Bytes × Option B) => s.removeUser c.1) { s with direct := (s.direct.merge m).1 }).users.get u = none
    rw [foldl_removeUser_users_get]
    split
    · rfl
    · exact h
  | applyTopicSync b m =>
    show (s.applyTopicSync b m).users.get u = none
    unfold applyTopicSync
    split
    · rw [removeBroker_users]; exact h
    · rw [topicFold_users]; exact h
  | partialTopicSync =>
    show s.getPartialTopicSync.1.users.get u = none
    unfold getPartialTopicSync
    dsimp only
    split <;> exact h
  | _ => exact h

theorem absent_step (n : LNet Bytes B Topic) (l : LLabel Bytes B Topic) (b : B) (u : Bytes)
    (hl : ∀ h ts, l ≠ .connect b u h ts) (h : ¬ LAt n b u) : ¬ LAt (n.step l) b u := by
  have iff : ∀ m : LNet Bytes B Topic, ¬ LAt m b u ↔ (m.st b).users.get u = none := by
    intro m
    simp [LAt, getUserConnection]
  rw [iff] at h ⊢
  have same : ∀ n' : LNet Bytes B Topic, n'.st = n.st → (n'.st b).users.get u = none := by
    intro n' e; rw [e]; exact h
  have act : ∀ (x : B) (op : Op Bytes B Topic Nat) (n' : LNet Bytes B Topic), n'.st = (n.act x op).st →
      (∀ hd ts, x = b → op ≠ .addUser u hd ts) → (n'.st b).users.get u = none := by
    intro x op n' e hop
    rw [e, st_act]; split
    · rename_i ex; subst ex; exact users_step _ op u (fun hd ts => hop hd ts rfl) h
    · exact h
  cases l with
  | connect x v hd ts =>
    refine act x _ _ rfl (fun hd' ts' e1 e2 => ?_)
    subst e1
    cases e2
    exact hl _ _ rfl
  | disconnect x v => exact act x _ _ rfl (by simp)
  | subscribe x v ts => exact act x _ _ rfl (by simp)
  | unsubscribe x v ts => exact act x _ _ rfl (by simp)
  | startTopic x => simp only [LNet.step]; split <;> exact act x .partialTopicSync _ rfl (by simp)
  | startUser x => simp only [LNet.step]; split <;> exact act x .partialUserSync _ rfl (by simp)
  | readDests i => simp only [LNet.step]; split <;> exact same _ rfl
  | lookup i => simp only [LNet.step]; split <;> exact same _ rfl
  | push i ok =>
    simp only [LNet.step]; split
    · rename_i x m ds d c hi
      split
      · exact same _ rfl
      · exact act x (.removeBroker d) _ rfl (by simp)
    · exact same _ rfl
  | authenticated c x y => simp only [LNet.step]; split <;> exact same _ rfl
  | register c x y =>
    simp only [LNet.step]; split
    · exact act x (.addBroker y c) _ rfl (by simp)
    · exact same _ rfl
  | fullTopic x y =>
    simp only [LNet.step]; split
    · split <;> exact same _ rfl
    · exact same _ rfl
  | fullUser x y =>
    simp only [LNet.step]; split
    · split <;> exact same _ rfl
    · exact same _ rfl
  | drop x y => exact act x (.removeBroker y) _ rfl (by simp)
  | deliver c x y =>
    simp only [LNet.step]; split
    · split
      · exact same _ rfl
      · exact act y (.applyUserSync _) _ rfl (by simp)
      · exact act y (.applyTopicSync x _) _ rfl (by simp)
    · exact same _ rfl
  | strayUser c x y =>
    simp only [LNet.step]; split
    · split
      · exact act y (.applyUserSync _) _ rfl (by simp)
      · exact same _ rfl
    · exact same _ rfl
  | strayTopic c x y =>
    simp only [LNet.step]; split
    · split
      · exact act y (.applyTopicSync x _) _ rfl (by simp)
      · exact same _ rfl
    · exact same _ rfl
  | restart x =>
    simp only [LNet.step]; split
    · rfl
    · exact h

theorem handed_connected (cfg : Cfg B σ) (js : List (CLabel B)) (s : Churn B σ) (hs : Tidy s) (b : B) (u : Bytes) (p : Pkt)
    (h : ¬ LAt s.mesh b u) (hno : ∀ hd ts, CLabel.mesh (.connect b u hd ts) ∉ js) : (b, u, p) ∉ handed cfg s js := by
  induction js generalizing s with
  | nil => simp [handed]
  | cons l js ih =>
    rw [handed_cons, List.mem_append]
    rintro (h1 | h1)
    · cases l with
      | msg m =>
        rw [handed_msg] at h1
        refine Once.handed_connected cfg [m] s.net u b ?_ ?_ p h1
        · rw [hs.tab]; simpa [LAt] using h
        · intro t ht
          have : m = .setTable b t := (List.mem_singleton.1 ht).symm
          subst this
          simp [Once.handed, Once.giver] at h1
      | _ => simp [handed] at h1
    · refine ih _ (tidy_step cfg hs l) ?_ (fun hd ts hm => hno hd ts (List.mem_cons_of_mem _ hm)) h1
      cases l with
      | mesh m => exact absent_step s.mesh m b u (fun hd ts e => hno hd ts (by simp [e])) h
      | msg m => exact h
      | lose i => rw [(loose_lose cfg s i).2.2.1]; exact h
      | loseSend i => rw [(loose_lose cfg s i).2.2.2]; exact h

/-- **C118 (moving).** Whatever happens, with any hooks: a user receives a publication at most as often as there are brokers the
user connects to in the history. A user who connects to one broker only, however often, receives nothing twice. -/
theorem C118_moves (cfg : Cfg B σ) (hook : B → Dest B → σ) (js : List (CLabel B)) (k : Nat) (b0 : B) (a raw : Bytes)
    (hp : PublishedOnce k b0 a raw js) (u : Bytes) (bs : List B)
    (hbs : ∀ b hd ts, CLabel.mesh (.connect b u hd ts) ∈ js → b ∈ bs) :
    copiesReceived ((fresh hook).run cfg js).net u k ≤ bs.length := by
  unfold copiesReceived
  rw [inbox_handed, List.countP_append, List.countP_map]
  have h0 : (fresh hook : Churn B σ).net.inbox.countP (fun e => e.1 = u ∧ e.2.id = k) = 0 := rfl
  rw [h0, Nat.zero_add]
  refine Once.count_parts bs (fun e => decide (e.1 = u ∧ e.2.id = k)) _ ?_ ?_
  · intro b
    refine Nat.le_trans (Nat.le_of_eq ?_) (C118_once_per_broker cfg hook js k b0 a raw hp b u)
    apply List.countP_congr
    intro e _
    simp
  · rintro ⟨b, x, p⟩ he hpe
    simp only [decide_eq_true_eq] at hpe
    obtain ⟨rfl, -⟩ := hpe
    apply Classical.byContradiction
    intro hb
    exact handed_connected cfg js (fresh hook) (tidy_fresh hook) b x p (by simp [LAt, fresh, Churn.ofMesh, LNet.start,
      Conns.new, getUserConnection]) (fun hd ts hm => hb (hbs b hd ts hm)) he

/-! ## An end -/

/-- The state after `k` steps of an infinite schedule. -/
def stateAt (cfg : Cfg B σ) (s : Churn B σ) (f : Nat → CLabel B) : Nat → Churn B σ
  | 0 => s
  | k + 1 => (stateAt cfg s f k).step cfg (f k)

/-- This step brings a new message into the system. -/
def IsNewC : CLabel B → Prop
  | .msg l => IsNew l
  | _ => False

/-- This step handles a frame, performs a send or loses either. -/
def Does (s : Churn B σ) : CLabel B → Prop
  | .mesh _ => False
  | .msg l => Enabled s.net l
  | .lose i => ∃ x, s.net.wire[i]? = some x ∧ s.loose x.here x.frm = true
  | .loseSend i => ∃ x, s.net.pend[i]? = some x ∧ s.loose x.here x.frm = true

theorem countP_eraseIdx {A : Type} (q : A → Bool) (l : List A) (i : Nat) (x : A) (h : l[i]? = some x) :
    l.countP q = (l.eraseIdx i).countP q + (if q x then 1 else 0) := by
  induction l generalizing i with
  | nil => simp at h
  | cons a l ih =>
    cases i with
    | zero =>
      simp only [List.getElem?_cons_zero, Option.some.injEq] at h
      subst h
      rw [List.eraseIdx_cons_zero, List.countP_cons]
    | succ i =>
      rw [List.eraseIdx_cons_succ, List.countP_cons, List.countP_cons, ih i (by simpa using h)]
      omega

theorem work_does (cfg : Cfg B σ) (s : Churn B σ) (hs : Tidy s) (l : CLabel B) (hd : Does s l) :
    Less (work (s.step cfg l).net) (work s.net) := by
  cases l with
  | mesh m => exact hd.elim
  | msg m => exact work_decreases cfg s.net hs.hop m hd
  | lose i =>
    obtain ⟨x, hx, hl⟩ := hd
    have e1 := countP_eraseIdx (fun i : Item B => fromUser i.frm) s.net.wire i x hx
    have e2 := countP_eraseIdx (fun i : Item B => !fromUser i.frm) s.net.wire i x hx
    simp only [Churn.step, hx, hl, if_true, work, wireU, pendU, wireB, pendB]
    cases hf : fromUser x.frm with
    | true =>
      simp only [hf, if_true] at e1
      exact Prod.Lex.left _ _ (by omega)
    | false =>
      simp only [hf, Bool.false_eq_true, if_false, Bool.not_false, if_true] at e1 e2
      have e1' : (s.net.wire.eraseIdx i).countP (fun i => fromUser i.frm) = s.net.wire.countP (fun i => fromUser i.frm) := by
        omega
      rw [e1']
      exact Prod.Lex.right _ (Prod.Lex.right _ (Prod.Lex.left _ _ (by omega)))
  | loseSend i =>
    obtain ⟨x, hx, hl⟩ := hd
    have e1 := countP_eraseIdx (fun i : Todo B => fromUser i.frm) s.net.pend i x hx
    have e2 := countP_eraseIdx (fun i : Todo B => !fromUser i.frm) s.net.pend i x hx
    simp only [Churn.step, hx, hl, if_true, work, wireU, pendU, wireB, pendB]
    cases hf : fromUser x.frm with
    | true =>
      simp only [hf, if_true] at e1
      exact Prod.Lex.right _ (Prod.Lex.left _ _ (by omega))
    | false =>
      simp only [hf, Bool.false_eq_true, if_false, Bool.not_false, if_true] at e1 e2
      have e1' : (s.net.pend.eraseIdx i).countP (fun i => fromUser i.frm) = s.net.pend.countP (fun i => fromUser i.frm) := by
        omega
      rw [e1']
      exact Prod.Lex.right _ (Prod.Lex.right _ (Prod.Lex.right _ (by omega)))

theorem work_idle (cfg : Cfg B σ) (s : Churn B σ) (l : CLabel B) (hd : ¬ Does s l) (hl : ¬ IsNewC l) :
    work (s.step cfg l).net = work s.net := by
  cases l with
  | mesh m => rfl
  | msg m =>
    exact work_unchanged cfg s.net m hd (by rintro b u id raw rfl; exact hl trivial)
      (by rintro b b' id raw rfl; exact hl trivial)
  | lose i =>
    simp only [Churn.step]
    split
    · rename_i x hx
      split
      · rename_i h; exact absurd ⟨x, hx, h⟩ hd
      · rfl
    · rfl
  | loseSend i =>
    simp only [Churn.step]
    split
    · rename_i x hx
      split
      · rename_i h; exact absurd ⟨x, hx, h⟩ hd
      · rfl
    · rfl

theorem tidy_stateAt (cfg : Cfg B σ) {s : Churn B σ} (hs : Tidy s) (f : Nat → CLabel B) (k : Nat) :
    Tidy (stateAt cfg s f k) := by
  induction k with
  | zero => exact hs
  | succ k ih => exact tidy_step cfg ih _

theorem eventually_idle (cfg : Cfg B σ) {s : Churn B σ} (hs : Tidy s) (f : Nat → CLabel B) (hf : ∀ k, ¬ IsNewC (f k))
    (w : Nat × Nat × Nat × Nat) : ∀ m, work (stateAt cfg s f m).net = w →
      ∃ N, m ≤ N ∧ ∀ k, N ≤ k → ¬ Does (stateAt cfg s f k) (f k) := by
  induction w using wf_less.induction with
  | _ w ih =>
    intro m hm
    by_cases hall : ∀ k, m ≤ k → ¬ Does (stateAt cfg s f k) (f k)
    · exact ⟨m, Nat.le_refl _, hall⟩
    · have hex : ∃ d, Does (stateAt cfg s f (m + d)) (f (m + d)) := by
        apply Classical.byContradiction
        intro hno
        apply hall
        intro k hk he
        exact hno ⟨k - m, by rw [show m + (k - m) = k by omega]; exact he⟩
      have hmin : ∃ d, Does (stateAt cfg s f (m + d)) (f (m + d)) ∧
          ∀ d' < d, ¬ Does (stateAt cfg s f (m + d')) (f (m + d')) := by
        obtain ⟨d, hd⟩ := hex
        induction d using Nat.strongRecOn with
        | _ d ihd =>
          by_cases hlt : ∃ d' < d, Does (stateAt cfg s f (m + d')) (f (m + d'))
          · obtain ⟨d', h1, h2⟩ := hlt
            exact ihd d' h1 h2
          · exact ⟨d, hd, fun d' h1 h2 => hlt ⟨d', h1, h2⟩⟩
      obtain ⟨d, hd, hlt⟩ := hmin
      have hsame : ∀ e ≤ d, work (stateAt cfg s f (m + e)).net = w := by
        intro e
        induction e with
        | zero => intro _; exact hm
        | succ e ihe =>
          intro he
          rw [← ihe (by omega)]
          exact work_idle cfg _ (f (m + e)) (hlt e (by omega)) (hf _)
      have hdec := work_does cfg _ (tidy_stateAt cfg hs f (m + d)) (f (m + d)) hd
      rw [hsame d (Nat.le_refl _)] at hdec
      obtain ⟨N, h1, h2⟩ := ih _ hdec (m + d + 1) rfl
      exact ⟨N, by omega, h2⟩

/-- **C118 (an end).** Take any history and any infinite continuation in which no new message enters the system; users,
connections and syncs may go on for ever. From some moment on no loop handles a frame or performs a send: what was
published before causes finitely many sends, with any hooks. -/
theorem C118_finitely_many_sends (cfg : Cfg B σ) (hook : B → Dest B → σ) (js : List (CLabel B)) (f : Nat → CLabel B)
    (hf : ∀ k, ¬ IsNewC (f k)) :
    ∃ N, ∀ k, N ≤ k → ∀ l, f k = .msg l → ¬ Enabled (stateAt cfg ((fresh hook).run cfg js) f k).net l := by
  obtain ⟨N, -, h⟩ := eventually_idle cfg (tidy_run cfg js (tidy_fresh hook)) f hf _ 0 rfl
  refine ⟨N, fun k hk l e he => h k hk ?_⟩
  rw [e]
  exact he

/-! ## Concrete cases -/

/-- Three brokers are connected. User `[2]` connects to broker 1, asking for topic 0, which is announced; `[3]`, at broker
0, broadcasts on topic 0 (message 8). When broker 1 has routed it, `[2]` unsubscribes. -/
def late : List (CLabel (Fin 3)) :=
  threeLinks.map .mesh ++
  [.mesh (.connect 1 [2] 12 [0]), .mesh (.startTopic 1), .mesh (.readDests 0), .mesh (.lookup 0), .mesh (.push 0 true),
   .mesh (.lookup 0), .mesh (.push 0 true), .mesh (.deliver 0 1 0), .mesh (.connect 0 [3] 13 []),
   .msg (.publish 0 [3] 8 [4, 0]), .msg (.take 0 (.user [3])), .msg (.send 0 (.user [3]) true),
   .msg (.take 1 (.broker 0)), .mesh (.unsubscribe 1 [2] [0])]

/-- The hypotheses of `C118_meant_for_them` hold: `[2]` is handed the broadcast after unsubscribing, for the reason that it
was routed before. -/
example : OnlySyncs demoThree late ∧
    ((fresh (fun _ _ => 0)).run demoThree (late ++ [.msg (.send 1 (.broker 0) true)])).net.inbox =
      ((fresh (fun _ _ => 0)).run demoThree late).net.inbox ++ [([2], ⟨8, [3], [4, 0], 1⟩)] ∧
    ¬ Asked 1 [2] 0 late := by
  refine ⟨?_, by decide +kernel, ?_⟩
  · intro b b' id raw h
    simp [late] at h
  · rintro ⟨pre, l, post, e, h1, h2⟩
    have hlast : post = [] ∨ ∃ post', post = post' ++ [.mesh (.unsubscribe 1 [2] [0])] := by
      rcases List.eq_nil_or_concat post with h | ⟨post', x, h⟩
      · exact .inl h
      · right
        rw [List.concat_eq_append] at h
        rw [h] at e
        have := congrArg List.getLast? e
        rw [show pre ++ CLabel.mesh l :: (post' ++ [x]) = (pre ++ CLabel.mesh l :: post') ++ [x] by simp] at this
        rw [List.getLast?_concat] at this
        have hl : late.getLast? = some (.mesh (.unsubscribe 1 [2] [0])) := rfl
        rw [hl] at this
        cases this
        exact ⟨post', h⟩
    rcases hlast with h | ⟨post', h⟩
    · rw [h] at e
      have := congrArg List.getLast? e
      rw [List.getLast?_concat] at this
      have hl : late.getLast? = some (.mesh (.unsubscribe 1 [2] [0])) := rfl
      rw [hl] at this
      cases this
      exact h1
    · exact h2 (.unsubscribe 1 [2] [0]) (by rw [h]; simp) ⟨rfl, rfl, by simp⟩

/-- `[2]` connects to broker 1 and then to broker 2, of which broker 1 does not hear. Both announce topic 0 to broker 0,
where `[3]` broadcasts on it. -/
def moving : List (CLabel (Fin 3)) :=
  threeLinks.map .mesh ++
  [.mesh (.connect 1 [2] 12 [0]), .mesh (.startTopic 1), .mesh (.readDests 0), .mesh (.lookup 0), .mesh (.push 0 true),
   .mesh (.lookup 0), .mesh (.push 0 true), .mesh (.deliver 2 1 2), .mesh (.deliver 0 1 0), .mesh (.connect 0 [3] 13 []),
   .mesh (.connect 2 [2] 14 [0]), .mesh (.startTopic 2), .mesh (.readDests 1), .mesh (.lookup 1), .mesh (.push 1 true),
   .mesh (.lookup 1), .mesh (.push 1 true), .mesh (.deliver 1 2 0),
   .msg (.publish 0 [3] 8 [4, 0]), .msg (.take 0 (.user [3])), .msg (.send 0 (.user [3]) true),
   .msg (.send 0 (.user [3]) true), .msg (.take 1 (.broker 0)), .msg (.send 1 (.broker 0) true),
   .msg (.take 2 (.broker 0)), .msg (.send 2 (.broker 0) true)]

/-- A case of `C118_once_per_broker` and `C118_moves`: `[2]`, connected to two brokers that do not know of each other's
connection, is handed the message once by each of them. -/
example : PublishedOnce 8 0 [3] [4, 0] moving ∧
    (∀ b hd ts, CLabel.mesh (.connect b [2] hd ts) ∈ moving → b ∈ [(1 : Fin 3), 2]) ∧
    (handed demoThree (fresh (fun _ _ => 0)) moving).map (fun e => (e.1, e.2.1, e.2.2.id)) = [(1, [2], 8), (2, [2], 8)] ∧
    copiesReceived ((fresh (fun _ _ => 0)).run demoThree moving).net [2] 8 = 2 := by
  refine ⟨⟨rfl, by simp [moving]⟩, ?_, by decide +kernel, by decide +kernel⟩
  intro b hd ts h
  simp [moving, threeLinks] at h
  rcases h with h | h <;> simp [h.1]

/-- A case of `C118_finitely_many_sends`: after `late` the one send is performed, then brokers start syncs for ever. -/
example : let f : Nat → CLabel (Fin 3) := fun k => if k = 0 then .msg (.send 1 (.broker 0) true) else .mesh (.startTopic 0)
    (∀ k, ¬ IsNewC (f k)) ∧ Enabled ((fresh (fun _ _ => 0)).run demoThree late).net (.send 1 (.broker 0) true) := by
  refine ⟨fun k => ?_, ?_⟩
  · dsimp only
    split <;> exact id
  · simp only [Enabled]
    decide +kernel

end Verif.Props.ChurnSafe

import Verif.Lemmas.Linking
import Verif.Props.MeshCrash

/-!
# Property C86 connection by connection

`C86_routes_to_where_connected` without the simplifications of `Model/Mesh`: each end registers a connection in
its own time, frames are handled also on connections that are not registered (any more), and what was sent on a
connection is not lost because one end gives it up.
-/

set_option linter.unusedSectionVars false

namespace Verif.Props.Linking
open Verif Verif.Conns Verif.LNet Verif.Props.MeshUsers Verif.Props.MeshCrash

variable {U B T : Type} [DecidableEq U] [DecidableEq B] [DecidableEq T] [LT B] [DecidableLT B]

/-- No entry names `b`. -/
structure Never (n : LNet U B T) (b : B) (u : U) : Prop where
  ident : ∀ x, (n.st x).identity = x
  tab : ∀ x, ¬ Names b ((n.st x).direct.map.get u)
  task : ∀ τ ∈ n.tasks, ¬ Names b (entryOf u τ.msg)
  q : ∀ c x, ∀ m ∈ n.q c x, ¬ Names b (entryOf u m)

theorem never_act {n : LNet U B T} {b : B} {u : U} (h : Never n b u) (x : B) (op : Op U B T Nat)
    (hadd : x = b → ∀ hd ts, op ≠ .addUser u hd ts)
    (hmsg : ∀ m, op = .applyUserSync m → ¬ Names b (m.map.get u)) : Never (n.act x op) b u := by
  refine ⟨fun y => ?_, fun y => ?_, h.task, h.q⟩
  · rw [st_act]; split
    · rename_i e; subst e; rw [identity_step]; exact h.ident _
    · exact h.ident y
  · rw [st_act]; split
    · rename_i e; subst e
      intro h1
      rcases names_call _ op u b h1 with h2 | ⟨h2, hd, ts, h3⟩ | ⟨m, h2, h3⟩
      · exact h.tab _ h2
      · rw [h.ident] at h2; exact hadd h2 hd ts h3
      · exact hmsg m h2 h3
    · exact h.tab y

theorem never_setQ {n : LNet U B T} {b : B} {u : U} (h : Never n b u) (c : Nat) (x : B)
    (l : List (SyncMsg U B T)) (hq : ∀ m ∈ l, ¬ Names b (entryOf u m)) : Never (n.setQ c x l) b u := by
  refine ⟨h.ident, h.tab, h.task, ?_⟩
  intro c' x' m hm
  simp only [setQ] at hm
  split at hm
  · exact hq m hm
  · exact h.q c' x' m hm

theorem never_spawn {n : LNet U B T} {b : B} {u : U} (h : Never n b u) (τ : LTask U B T)
    (hq : ¬ Names b (entryOf u τ.msg)) : Never (n.spawn τ) b u :=
  ⟨h.ident, h.tab, by
    intro σ hσ
    rcases List.mem_append.1 hσ with h1 | h1
    · exact h.task σ h1
    · simp only [List.mem_singleton] at h1; subst h1; exact hq, h.q⟩

theorem never_set {n : LNet U B T} {b : B} {u : U} (h : Never n b u) (i : Nat) (τ τ' : LTask U B T)
    (hi : n.tasks[i]? = some τ) (hm : τ'.msg = τ.msg) : Never { n with tasks := n.tasks.set i τ' } b u :=
  ⟨h.ident, h.tab, by
    intro σ hσ
    rcases List.mem_or_eq_of_mem_set hσ with h1 | rfl
    · exact h.task σ h1
    · rw [hm]; exact h.task τ (List.mem_of_getElem? hi), h.q⟩

/-- The next frame is handled, on whichever connection. -/
theorem never_user {n : LNet U B T} {b : B} {u : U} (h : Never n b u) (c : Nat) (x y : B) (m : DirectMap U B)
    (rest : List (SyncMsg U B T)) (hq : n.q c x = .user m :: rest) :
    Never ((n.act y (.applyUserSync m)).setQ c x rest) b u := by
  refine never_setQ (never_act h y (.applyUserSync m) (by simp) ?_) _ _ _ ?_
  · rintro m' e; cases e
    exact h.q c x (.user m) (by rw [hq]; simp)
  · intro m' hm'; exact h.q c x m' (by rw [hq]; simp [hm'])

theorem never_topic {n : LNet U B T} {b : B} {u : U} (h : Never n b u) (c : Nat) (x y : B) (m : TopicSync T)
    (rest : List (SyncMsg U B T)) (hq : n.q c x = .topic m :: rest) :
    Never ((n.act y (.applyTopicSync x m)).setQ c x rest) b u := by
  refine never_setQ (never_act h y (.applyTopicSync x m) (by simp) (by simp)) _ _ _ ?_
  intro m' hm'; exact h.q c x m' (by rw [hq]; simp [hm'])

/-- `u` connects to `b`. -/
def ConnectsTo (u : U) (b : B) : LLabel U B T → Prop
  | .connect b' u' _ _ => b' = b ∧ u' = u
  | _ => False

theorem never_step {n : LNet U B T} {b : B} {u : U} (h : Never n b u) (l : LLabel U B T)
    (hl : ¬ ConnectsTo u b l) : Never (n.step l) b u := by
  have htopic : ¬ Names b (none : Option (VV B)) := by intro e; cases e
  cases l with
  | connect x u' hd ts =>
    exact never_act h x _ (by rintro rfl h' ts' e; cases e; exact hl ⟨rfl, rfl⟩) (by simp)
  | disconnect x u' => exact never_act h x (.removeUser u') (by simp) (by simp)
  | subscribe x u' ts => exact never_act h x (.subscribeUser u' ts) (by simp) (by simp)
  | unsubscribe x u' ts => exact never_act h x (.unsubscribeUser u' ts) (by simp) (by simp)
  | startTopic x =>
    have h1 := never_act h x .partialTopicSync (by simp) (by simp)
    simp only [LNet.step]; split
    · exact h1
    · exact never_spawn h1 _ htopic
  | startUser x =>
    have h1 := never_act h x .partialUserSync (by simp) (by simp)
    simp only [LNet.step]; split
    · exact h1
    · rename_i m hm
      apply never_spawn h1
      have h2 := UNet.sync_msg (n.st x) u
      rw [hm] at h2
      have h3 : m.map.get u = if (UNet.view (n.st x) u).m then (n.st x).direct.map.get u else none := h2
      show ¬ Names b (m.map.get u)
      rw [h3]; split
      · exact h.tab x
      · exact htopic
  | readDests i =>
    simp only [LNet.step]; split
    · rename_i x m hi; exact never_set h i _ _ hi rfl
    · exact h
  | lookup i =>
    simp only [LNet.step]; split
    · rename_i x m d ds hi; exact never_set h i _ _ hi rfl
    · exact h
  | push i ok =>
    simp only [LNet.step]; split
    · rename_i x m ds d c hi
      have h1 := never_set h i _ ⟨x, m, ds, none⟩ hi rfl
      split
      · apply never_setQ h1
        intro m' hm'
        rcases List.mem_append.1 hm' with h2 | h2
        · exact h.q _ _ m' h2
        · simp only [List.mem_singleton] at h2; subst h2
          exact h.task _ (List.mem_of_getElem? hi)
      · exact never_act h1 x (.removeBroker d) (by simp) (by simp)
    · exact h
  | authenticated c x y =>
    simp only [LNet.step]; split
    · exact h
    · refine ⟨h.ident, h.tab, h.task, ?_⟩
      intro c' x' m hm
      simp only at hm
      split at hm
      · exact (nomatch hm)
      · exact h.q c' x' m hm
  | register c x y =>
    simp only [LNet.step]; split
    · have h1 := never_act h x (.addBroker y c) (by simp) (by simp)
      exact ⟨h1.ident, h1.tab, h1.task, h1.q⟩
    · exact h
  | fullTopic x y =>
    simp only [LNet.step]; split
    · have h1 : Never { n with fullT := n.fullT.erase (x, y) } b u := ⟨h.ident, h.tab, h.task, h.q⟩
      split
      · exact h1
      · exact never_spawn h1 _ htopic
    · exact h
  | fullUser x y =>
    simp only [LNet.step]; split
    · have h1 : Never { n with fullU := n.fullU.erase (x, y) } b u := ⟨h.ident, h.tab, h.task, h.q⟩
      split
      · exact h1
      · rename_i m hm
        apply never_spawn h1
        unfold getFullUserSync at hm
        split at hm
        · cases hm
        · cases hm; exact h.tab x
    · exact h
  | drop x y => exact never_act h x (.removeBroker y) (by simp) (by simp)
  | deliver c x y =>
    simp only [LNet.step]; split
    · split
      · exact h
      · rename_i m rest hq; exact never_user h c x y m rest hq
      · rename_i m rest hq; exact never_topic h c x y m rest hq
    · exact h
  | strayUser c x y =>
    simp only [LNet.step]; split
    · split
      · rename_i m rest hq; exact never_user h c x y m rest hq
      · exact h
    · exact h
  | strayTopic c x y =>
    simp only [LNet.step]; split
    · split
      · rename_i m rest hq; exact never_topic h c x y m rest hq
      · exact h
    · exact h
  | restart x =>
    have hst : ∀ y, (n.step (.restart x)).st y = if y = x then Conns.new x else n.st y := fun _ => rfl
    refine ⟨?_, ?_, ?_, h.q⟩
    · intro y; rw [hst]; split
      · rename_i e; subst e; rfl
      · exact h.ident y
    · intro y; rw [hst]; split
      · simp [Conns.new, VMap.new]
      · exact h.tab y
    · intro τ hτ; exact h.task τ (List.mem_filter.1 hτ).1

theorem never_run {b : B} {u : U} (ls : List (LLabel U B T)) (n : LNet U B T) (h : Never n b u)
    (hl : ∀ l ∈ ls, ¬ ConnectsTo u b l) : Never (n.run ls) b u := by
  induction ls generalizing n with
  | nil => exact h
  | cons l ls ih => exact ih (n.step l) (never_step h l (hl l (by simp))) (fun l' h' => hl l' (by simp [h']))

/-- **C86**, connection by connection: however connections are registered, replaced and given up, whichever brokers are
restarted, however syncs are sent and on whichever connection they are handled, a broker forwards messages for `u` to
broker `b` only if `u` has connected to `b` at some time. -/
theorem C86_connection_level (ls : List (LLabel U B T)) (x b : B) (u : U)
    (h : (((start : LNet U B T).run ls).st x).getBrokerOfUser u = some b) :
    ∃ hd ts, LLabel.connect b u hd ts ∈ ls := by
  refine Classical.byContradiction fun hno => ?_
  have h0 : Never (start : LNet U B T) b u :=
    ⟨fun _ => rfl, fun x => by simp [start, Conns.new, VMap.new], by simp [start], by simp [start]⟩
  refine (never_run ls _ h0 ?_).tab x h
  intro l hl hc
  cases l with
  | connect b' u' hd ts => obtain ⟨rfl, rfl⟩ := hc; exact hno ⟨hd, ts, hl⟩
  | _ => exact hc

/-- Broker 1 is told of the user of broker 0 on a connection it has not registered. -/
example : (((start : LNet Nat Nat Nat).run [.connect 0 5 9 [], .authenticated 0 0 1, .register 0 0 1, .fullUser 0 1,
    .lookup 0, .push 0 true, .strayUser 0 0 1, .restart 0]).st 1).getBrokerOfUser 5 = some 0 := by
  decide +kernel

end Verif.Props.Linking

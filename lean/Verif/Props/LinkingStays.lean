import Verif.Props.LinkingPlaces

/-!
# Property C73 connection by connection

`C73_greatest_stays_partial` without the simplifications of `Model/Mesh`.
-/

set_option linter.unusedSectionVars false

namespace Verif.Props.Linking
open Verif Verif.Conns Verif.LNet Verif.Props.MeshUsers

variable {U B T : Type} [DecidableEq U] [DecidableEq B] [DecidableEq T] [LT B] [DecidableLT B]

/-- `u` is connected to `b`. -/
def LAt (n : LNet U B T) (b : B) (u : U) : Prop := ((n.st b).getUserConnection u).isSome = true

instance (n : LNet U B T) (b : B) (u : U) : Decidable (LAt n b u) := inferInstanceAs (Decidable (_ = true))

/-- `u` connects to some broker. -/
def LConnects (u : U) : LLabel U B T → Prop
  | .connect _ u' _ _ => u' = u
  | _ => False

/-- `u` is unknown everywhere, or (once `known`) known only as connected to `b` at version 1. -/
structure LOnly (n : LNet U B T) (b : B) (u : U) (known : Prop) : Prop where
  ident : ∀ x, (n.st x).identity = x
  dident : ∀ x, (n.st x).direct.ident = x
  tab : ∀ x, (n.st x).direct.map.get u = none ∨ (known ∧ (n.st x).direct.map.get u = some ⟨1, some b⟩)
  task : ∀ τ ∈ n.tasks, entryOf u τ.msg = none ∨ (known ∧ entryOf u τ.msg = some ⟨1, some b⟩)
  q : ∀ c x, ∀ m ∈ n.q c x, entryOf u m = none ∨ (known ∧ entryOf u m = some ⟨1, some b⟩)
  here : known → (n.st b).direct.map.get u = some ⟨1, some b⟩ ∧ LAt n b u

theorem lonly_act {n : LNet U B T} {b : B} {u : U} {known : Prop} (hmax : ∀ b', ¬ b < b')
    (h : LOnly n b u known) (x : B) (op : Op U B T Nat) (hadd : ∀ h ts, op ≠ .addUser u h ts)
    (hrem : x = b → op ≠ .removeUser u)
    (hmsg : ∀ m, op = .applyUserSync m →
      m.map.get u = none ∨ (known ∧ m.map.get u = some ⟨1, some b⟩)) : LOnly (n.act x op) b u known := by
  have hc := only_call (n.st x) b u known op hmax
    (fun e => by rw [h.dident]; rw [h.ident] at e; exact e) (h.tab x)
    (fun e k => by rw [h.ident] at e; subst e; exact h.here k) hadd
    (fun e => hrem (by rw [h.ident] at e; exact e)) hmsg
  refine ⟨?_, ?_, ?_, h.task, h.q, ?_⟩
  · intro y; rw [st_act]; split
    · rename_i e; subst e; rw [identity_step]; exact h.ident _
    · exact h.ident y
  · intro y; rw [st_act]; split
    · rename_i e; subst e; rw [direct_ident_step]; exact h.dident _
    · exact h.dident y
  · intro y; rw [st_act]; split
    · exact hc.1
    · exact h.tab y
  · intro k
    unfold LAt getUserConnection
    rw [st_act]; split
    · rename_i e; subst e; exact hc.2 (h.ident _) k
    · exact h.here k

theorem lonly_setQ {n : LNet U B T} {b : B} {u : U} {known : Prop} (h : LOnly n b u known) (c : Nat) (x : B)
    (l : List (SyncMsg U B T))
    (hq : ∀ m ∈ l, entryOf u m = none ∨ (known ∧ entryOf u m = some ⟨1, some b⟩)) :
    LOnly (n.setQ c x l) b u known := by
  refine ⟨h.ident, h.dident, h.tab, h.task, ?_, h.here⟩
  intro c' x' m hm
  simp only [setQ] at hm
  split at hm
  · exact hq m hm
  · exact h.q c' x' m hm

theorem lonly_spawn {n : LNet U B T} {b : B} {u : U} {known : Prop} (h : LOnly n b u known)
    (τ : LTask U B T) (hq : entryOf u τ.msg = none ∨ (known ∧ entryOf u τ.msg = some ⟨1, some b⟩)) :
    LOnly (n.spawn τ) b u known :=
  ⟨h.ident, h.dident, h.tab, by
    intro σ hσ
    rcases List.mem_append.1 hσ with h1 | h1
    · exact h.task σ h1
    · simp only [List.mem_singleton] at h1; subst h1; exact hq, h.q, h.here⟩

theorem lonly_set {n : LNet U B T} {b : B} {u : U} {known : Prop} (h : LOnly n b u known) (i : Nat)
    (τ τ' : LTask U B T) (hi : n.tasks[i]? = some τ) (hm : τ'.msg = τ.msg) :
    LOnly { n with tasks := n.tasks.set i τ' } b u known :=
  ⟨h.ident, h.dident, h.tab, by
    intro σ hσ
    rcases List.mem_or_eq_of_mem_set hσ with h1 | rfl
    · exact h.task σ h1
    · rw [hm]; exact h.task τ (List.mem_of_getElem? hi), h.q, h.here⟩

/-- The next frame is handled, on whichever connection. -/
theorem lonly_user {n : LNet U B T} {b : B} {u : U} {known : Prop} (hmax : ∀ b', ¬ b < b')
    (h : LOnly n b u known) (c : Nat) (x y : B) (m : DirectMap U B)
    (rest : List (SyncMsg U B T)) (hq : n.q c x = .user m :: rest) :
    LOnly ((n.act y (.applyUserSync m)).setQ c x rest) b u known := by
  refine lonly_setQ (lonly_act hmax h y (.applyUserSync m) (by simp) (by simp) ?_) _ _ _ ?_
  · rintro m' e; cases e
    exact h.q c x (.user m) (by rw [hq]; simp)
  · intro m' hm'; exact h.q c x m' (by rw [hq]; simp [hm'])

theorem lonly_topic {n : LNet U B T} {b : B} {u : U} {known : Prop} (hmax : ∀ b', ¬ b < b')
    (h : LOnly n b u known) (c : Nat) (x y : B) (m : TopicSync T)
    (rest : List (SyncMsg U B T)) (hq : n.q c x = .topic m :: rest) :
    LOnly ((n.act y (.applyTopicSync x m)).setQ c x rest) b u known := by
  refine lonly_setQ (lonly_act hmax h y (.applyTopicSync x m) (by simp) (by simp) (by simp)) _ _ _ ?_
  intro m' hm'; exact h.q c x m' (by rw [hq]; simp [hm'])

theorem lonly_step {n : LNet U B T} {b : B} {u : U} {known : Prop} (hmax : ∀ b', ¬ b < b')
    (h : LOnly n b u known) (l : LLabel U B T) (hl : ¬ LConnects u l) (hd : l ≠ .disconnect b u)
    (hr : known → l ≠ .restart b) : LOnly (n.step l) b u known := by
  cases l with
  | connect x u' hd ts =>
    exact lonly_act hmax h x _ (by intro h' ts' e; cases e; exact hl rfl) (by simp) (by simp)
  | disconnect x u' =>
    exact lonly_act hmax h x _ (by simp) (by rintro rfl e; cases e; exact hd rfl) (by simp)
  | subscribe x u' ts => exact lonly_act hmax h x (.subscribeUser u' ts) (by simp) (by simp) (by simp)
  | unsubscribe x u' ts => exact lonly_act hmax h x (.unsubscribeUser u' ts) (by simp) (by simp) (by simp)
  | startTopic x =>
    have h1 := lonly_act hmax h x .partialTopicSync (by simp) (by simp) (by simp)
    simp only [LNet.step]; split
    · exact h1
    · exact lonly_spawn h1 _ (Or.inl rfl)
  | startUser x =>
    have h1 := lonly_act hmax h x .partialUserSync (by simp) (by simp) (by simp)
    simp only [LNet.step]; split
    · exact h1
    · rename_i m hm
      apply lonly_spawn h1
      have h2 := UNet.sync_msg (n.st x) u
      rw [hm] at h2
      show m.map.get u = none ∨ (known ∧ m.map.get u = _)
      have h3 : m.map.get u = if (UNet.view (n.st x) u).m then (n.st x).direct.map.get u else none := h2
      rw [h3]; split
      · exact h.tab x
      · exact Or.inl rfl
  | readDests i =>
    simp only [LNet.step]; split
    · rename_i x m hi; exact lonly_set h i _ _ hi rfl
    · exact h
  | lookup i =>
    simp only [LNet.step]; split
    · rename_i x m d ds hi; exact lonly_set h i _ _ hi rfl
    · exact h
  | push i ok =>
    simp only [LNet.step]; split
    · rename_i x m ds d c hi
      have h1 := lonly_set h i _ ⟨x, m, ds, none⟩ hi rfl
      split
      · apply lonly_setQ h1
        intro m' hm'
        rcases List.mem_append.1 hm' with h2 | h2
        · exact h.q _ _ m' h2
        · simp only [List.mem_singleton] at h2; subst h2
          exact h.task _ (List.mem_of_getElem? hi)
      · exact lonly_act hmax h1 x (.removeBroker d) (by simp) (by simp) (by simp)
    · exact h
  | authenticated c x y =>
    simp only [LNet.step]; split
    · exact h
    · refine ⟨h.ident, h.dident, h.tab, h.task, ?_, h.here⟩
      intro c' x' m hm
      simp only at hm
      split at hm
      · exact (nomatch hm)
      · exact h.q c' x' m hm
  | register c x y =>
    simp only [LNet.step]; split
    · have h1 := lonly_act hmax h x (.addBroker y c) (by simp) (by simp) (by simp)
      exact ⟨h1.ident, h1.dident, h1.tab, h1.task, h1.q, h1.here⟩
    · exact h
  | fullTopic x y =>
    simp only [LNet.step]; split
    · have h1 : LOnly { n with fullT := n.fullT.erase (x, y) } b u known :=
        ⟨h.ident, h.dident, h.tab, h.task, h.q, h.here⟩
      split
      · exact h1
      · exact lonly_spawn h1 _ (Or.inl rfl)
    · exact h
  | fullUser x y =>
    simp only [LNet.step]; split
    · have h1 : LOnly { n with fullU := n.fullU.erase (x, y) } b u known :=
        ⟨h.ident, h.dident, h.tab, h.task, h.q, h.here⟩
      split
      · exact h1
      · rename_i m hm
        apply lonly_spawn h1
        unfold getFullUserSync at hm
        split at hm
        · cases hm
        · cases hm; exact h.tab x
    · exact h
  | drop x y => exact lonly_act hmax h x (.removeBroker y) (by simp) (by simp) (by simp)
  | deliver c x y =>
    simp only [LNet.step]; split
    · split
      · exact h
      · rename_i m rest hq; exact lonly_user hmax h c x y m rest hq
      · rename_i m rest hq; exact lonly_topic hmax h c x y m rest hq
    · exact h
  | strayUser c x y =>
    simp only [LNet.step]; split
    · split
      · rename_i m rest hq; exact lonly_user hmax h c x y m rest hq
      · exact h
    · exact h
  | strayTopic c x y =>
    simp only [LNet.step]; split
    · split
      · rename_i m rest hq; exact lonly_topic hmax h c x y m rest hq
      · exact h
    · exact h
  | restart x =>
    have hst : ∀ y, (n.step (.restart x)).st y = if y = x then Conns.new x else n.st y := fun _ => rfl
    refine ⟨?_, ?_, ?_, ?_, h.q, ?_⟩
    · intro y; rw [hst]; split
      · rename_i e; subst e; rfl
      · exact h.ident y
    · intro y; rw [hst]; split
      · rename_i e; subst e; rfl
      · exact h.dident y
    · intro y; rw [hst]; split
      · left; simp [Conns.new, VMap.new]
      · exact h.tab y
    · intro τ hτ; exact h.task τ (List.mem_filter.1 hτ).1
    · intro k
      have hne : b ≠ x := by rintro rfl; exact hr k rfl
      unfold LAt
      rw [hst, if_neg hne]; exact h.here k

theorem lonly_run {b : B} {u : U} {known : Prop} (hmax : ∀ b', ¬ b < b') (ls : List (LLabel U B T))
    (n : LNet U B T) (h : LOnly n b u known)
    (hl : ∀ l ∈ ls, ¬ LConnects u l ∧ l ≠ .disconnect b u) (hr : known → ∀ l ∈ ls, l ≠ .restart b) :
    LOnly (n.run ls) b u known := by
  induction ls generalizing n with
  | nil => exact h
  | cons l ls ih =>
    have h1 := hl l (by simp)
    exact ih (n.step l) (lonly_step hmax h l h1.1 h1.2 (fun k => hr k l (by simp)))
      (fun l' h' => hl l' (by simp [h'])) (fun k l' h' => hr k l' (by simp [h']))

/-- **C73, partial**, connection by connection: a user who connects once, to the broker with the greatest identity,
stays connected until their connection ends or the broker is restarted, however connections between brokers are
registered, replaced and given up, whichever other brokers are restarted, and on whichever connections syncs are
handled. Missing: users of the other brokers, for whom the claim is false (`C73_false`). -/
theorem C73_connection_level_partial (l1 l2 : List (LLabel U B T)) (b : B) (hmax : ∀ b', ¬ b < b')
    (u : U) (h : Nat) (ts : List T) (hl : ∀ l ∈ l1 ++ l2, ¬ LConnects u l ∧ l ≠ .disconnect b u)
    (hr : ∀ l ∈ l2, l ≠ .restart b) :
    LAt ((start : LNet U B T).run (l1 ++ .connect b u h ts :: l2)) b u := by
  have h0 : LOnly (start : LNet U B T) b u False :=
    ⟨fun _ => rfl, fun _ => rfl, fun _ => Or.inl rfl, by simp [start], by simp [start], False.elim⟩
  have h1 := lonly_run hmax l1 _ h0 (fun l hl' => hl l (by simp [hl'])) False.elim
  have hrun : (start : LNet U B T).run (l1 ++ .connect b u h ts :: l2) =
      (((start : LNet U B T).run l1).step (.connect b u h ts)).run l2 := by
    simp [LNet.run, List.foldl_append]
  rw [hrun]
  generalize (start : LNet U B T).run l1 = n at h1
  have h2 : LOnly (n.step (.connect b u h ts)) b u True := by
    have hnone : ∀ x, (n.st x).direct.map.get u = none := fun x => (h1.tab x).resolve_right (fun c => c.1)
    have hv := UNet.view_addUser (n.st b) u h ts
    have he : ((n.st b).addUser u h ts).direct.map.get u = some ⟨1, some b⟩ := by
      have := congrArg UNet.View.e hv
      rw [UNet.addV, h1.ident] at this
      refine (show _ = _ from this).trans ?_
      simp [UNet.nextVer, UNet.view, hnone]
    refine ⟨?_, ?_, ?_, ?_, ?_, ?_⟩
    · intro x; simp only [LNet.step]; rw [st_act]; split
      · rename_i e; subst e; rw [identity_step]; exact h1.ident _
      · exact h1.ident x
    · intro x; simp only [LNet.step]; rw [st_act]; split
      · rename_i e; subst e; rw [direct_ident_step]; exact h1.dident _
      · exact h1.dident x
    · intro x; simp only [LNet.step]; rw [st_act]; split
      · exact Or.inr ⟨trivial, he⟩
      · exact Or.inl (hnone x)
    · intro τ hτ; exact Or.inl ((h1.task τ hτ).resolve_right (fun c => c.1))
    · intro c x m hm; exact Or.inl ((h1.q c x m hm).resolve_right (fun c => c.1))
    · intro _
      unfold LAt getUserConnection
      simp only [LNet.step]; rw [st_act_self]
      exact ⟨he, congrArg UNet.View.c hv⟩
  exact ((lonly_run hmax l2 _ h2 (fun l hl' => hl l (by simp [hl'])) (fun _ => hr)).here trivial).2

/-- Broker 1 tells broker 0 of its user, is told of them again by broker 0 on a second connection, which it has not
registered, and broker 0 is restarted. -/
def echoStray : List (LLabel Nat (Fin 2) Nat) :=
  [.startUser 1, .readDests 0, .lookup 0, .push 0 true, .deliver 0 1 0, .authenticated 1 0 1, .register 1 0 1,
   .fullUser 0 1, .lookup 1, .push 1 true, .strayUser 1 0 1, .restart 0]

def beforeStray : List (LLabel Nat (Fin 2) Nat) :=
  [.restart 1, .authenticated 0 0 1, .register 0 0 1, .register 0 1 0]

example : (∀ b' : Fin 2, ¬ 1 < b') ∧
    (∀ l ∈ beforeStray ++ echoStray, ¬ LConnects 7 l ∧ l ≠ .disconnect 1 7) ∧ ∀ l ∈ echoStray, l ≠ .restart 1 := by
  refine ⟨by decide, ?_, ?_⟩
  · intro l hl
    simp only [beforeStray, echoStray, List.cons_append, List.nil_append, List.mem_cons, List.not_mem_nil,
      or_false] at hl
    rcases hl with rfl | rfl | rfl | rfl | rfl | rfl | rfl | rfl | rfl | rfl | rfl | rfl | rfl | rfl | rfl |
      rfl <;> exact ⟨id, by simp⟩
  · intro l hl
    simp only [echoStray, List.mem_cons, List.not_mem_nil, or_false] at hl
    rcases hl with rfl | rfl | rfl | rfl | rfl | rfl | rfl | rfl | rfl | rfl | rfl | rfl <;> simp

def strayNow (k : Nat) : LNet Nat (Fin 2) Nat :=
  (start : LNet Nat (Fin 2) Nat).run (beforeStray ++ .connect 1 7 102 [] :: echoStray.take k)

/-- The frame that repeats the user's entry is on the connection broker 1 has not registered, and is handled. -/
example : ((strayNow 10).q 1 0).map (entryOf 7) = [some ⟨1, some 1⟩] ∧ (strayNow 10).conn 1 0 = some 0 ∧
    (strayNow 11).q 1 0 = [] ∧ ((strayNow 11).st 0).getBrokerOfUser 7 = some 1 ∧
    ((strayNow 12).st 0).getBrokerOfUser 7 = none ∧ LAt (strayNow 12) 1 7 := by
  refine ⟨by decide +kernel, by decide +kernel, by rfl, by decide +kernel, by decide +kernel, by decide +kernel⟩

end Verif.Props.Linking

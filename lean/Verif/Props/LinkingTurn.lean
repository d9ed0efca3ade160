import Verif.Props.Linking
import Verif.Props.LinkingStays
import Verif.Props.MeshTurn

/-!
# Properties C74, partial, and C75 connection by connection

`C74_in_turn_partial` and `C75_direct_after_moves` without the simplifications of `Model/Mesh`: each end registers
connections in its own time, several connections of two brokers may exist, with frames handled on those that are not
registered as well, and a connection is looked up before a message is put on it.
-/

set_option linter.unusedSectionVars false

namespace Verif.Props.Linking
open Verif Verif.Conns Verif.Props.MeshUsers

variable {U B T : Type} [DecidableEq U] [DecidableEq B] [DecidableEq T] [LT B] [DecidableLT B]

/-! ## Specification -/

/-- Where `u` is according to the history: the broker they last connected to, unless they disconnected
from it since. -/
def lwhereabouts (u : U) : List (LLabel U B T) → Option B → Option B
  | [], loc => loc
  | .connect b u' _ _ :: ls, loc => lwhereabouts u ls (if u' = u then some b else loc)
  | .disconnect b u' :: ls, loc => lwhereabouts u ls (if u' = u ∧ loc = some b then none else loc)
  | _ :: ls, loc => lwhereabouts u ls loc

/-- Nothing about `u` is queued on any connection or still to be sent by a sync. -/
def LNothingUnderWay (u : U) (n : LNet U B T) : Prop :=
  (∀ c b, ∀ m ∈ n.q c b, entryOf u m = none) ∧
  ∀ τ ∈ n.tasks, entryOf u τ.msg = none ∨ (τ.dests = some [] ∧ τ.held = none)

/-- Broker `b` has a change of `u` that it has not announced. -/
def LUnannounced (u : U) (n : LNet U B T) (b : B) : Prop := u ∈ (n.st b).direct.modified

/-- The changes of `u` come in turn, no connection is registered or given up and no broker is restarted: whenever `u`
connects, or disconnects from the broker that believes to have them, nothing about `u` is under way and no other
broker has an unannounced change of `u`. Other users, the interleaving of syncs, and connections that are
authenticated without being registered are not restricted. -/
def LInTurn (u : U) : LNet U B T → List (LLabel U B T) → Prop
  | _, [] => True
  | n, l :: ls =>
    (match l with
     | .connect b u' _ _ => u' = u → LNothingUnderWay u n ∧ ∀ b', b' ≠ b → ¬ LUnannounced u n b'
     | .disconnect b u' => u' = u → (n.st b).getBrokerOfUser u = some b →
        LNothingUnderWay u n ∧ ∀ b', b' ≠ b → ¬ LUnannounced u n b'
     | .register _ _ _ => False
     | .drop _ _ => False
     | .restart _ => False
     | .push _ ok => ok = true
     | _ => True) ∧ LInTurn u (n.step l) ls

/-! ## Before `u` is known -/

/-- No broker and no message knows `u`; connections are registered for the broker at the other end. -/
structure LUnknown (n : LNet U B T) (u : U) : Prop where
  ident : ∀ x, (n.st x).identity = x
  differ : ∀ c b b', n.ends c = some (b, b') → b ≠ b'
  reg : ∀ b b' c, n.conn b b' = some c → n.joins c b b'
  tab : ∀ x, UNet.view (n.st x) u = ⟨none, false, false⟩
  task : ∀ τ ∈ n.tasks, entryOf u τ.msg = none
  q : ∀ c x, ∀ m ∈ n.q c x, entryOf u m = none

theorem conn_call (s : Conns U B T Nat) (op : Op U B T Nat) (hadd : ∀ b h, op ≠ .addBroker b h)
    (hrem : ∀ b, op ≠ .removeBroker b) (y : B) :
    (s.step op).getBrokerConnection y = s.getBrokerConnection y := by
  unfold getBrokerConnection
  cases op with
  | addUser u hd ts => simp [Conns.step, addUser]
  | removeUser u => simp [Conns.step]
  | addBroker b h => exact absurd rfl (hadd b h)
  | removeBroker b => exact absurd rfl (hrem b)
  | subscribeUser => rfl
  | unsubscribeUser => rfl
  | subscribeBroker => rfl
  | unsubscribeBroker => rfl
  | applyUserSync m => simp only [Conns.step]; rw [Mesh.applyUserSync_brokers]
  | applyTopicSync b m => exact LNet.applyTopicSync_conn s b m y
  | partialUserSync => rfl
  | partialTopicSync => simp only [Conns.step, getPartialTopicSync]; split <;> rfl

theorem conn_act (n : LNet U B T) (b : B) (op : Op U B T Nat) (hadd : ∀ b h, op ≠ .addBroker b h)
    (hrem : ∀ b, op ≠ .removeBroker b) (x y : B) : (n.act b op).conn x y = n.conn x y := by
  unfold LNet.conn; rw [LNet.st_act]; split
  · rename_i e; subst e; exact conn_call _ _ hadd hrem y
  · rfl

theorem conn_remove (n : LNet U B T) (b d x y : B) (c : Nat) (h : (n.act b (.removeBroker d)).conn x y = some c) :
    n.conn x y = some c := by
  unfold LNet.conn at h ⊢; rw [LNet.st_act] at h; split at h
  · rename_i e; subst e
    unfold getBrokerConnection at h ⊢
    simp only [Conns.step] at h
    rw [removeBroker_brokers_get] at h
    split at h
    · cases h
    · exact h
  · exact h

/-- Calls but those that bring in `u` or a connection. -/
theorem lunknown_act {n : LNet U B T} {u : U} (h : LUnknown n u) (x : B) (op : Op U B T Nat)
    (hadd : ∀ h ts, op ≠ .addUser u h ts) (hmsg : ∀ m, op = .applyUserSync m → m.map.get u = none)
    (hreg : ∀ b b' c, (n.act x op).conn b b' = some c → n.joins c b b') :
    LUnknown (n.act x op) u := by
  refine ⟨?_, h.differ, hreg, ?_, h.task, h.q⟩
  · intro y; rw [LNet.st_act]; split
    · rename_i e; subst e; rw [identity_step]; exact h.ident _
    · exact h.ident y
  intro y
  rw [LNet.st_act]; split
  · rename_i e
    subst e
    have h0 := h.tab y
    by_cases hun : UNet.Unrelated u op
    · rw [UNet.view_unrelated _ _ _ hun]; exact h0
    · cases op with
      | addUser u' hd ts =>
        have : u' = u := Classical.not_not.1 hun
        subst this; exact absurd rfl (hadd hd ts)
      | removeUser u' =>
        have : u' = u := Classical.not_not.1 hun
        subst this
        show UNet.view ((n.st y).removeUser u') u' = _
        rw [UNet.view_removeUser, h0]; rfl
      | partialUserSync =>
        show UNet.view (n.st y).getPartialUserSync.1 u = _
        rw [UNet.view_sync, h0]; rfl
      | applyUserSync m =>
        show UNet.view ((n.st y).applyUserSync m) u = _
        rw [UNet.view_apply_none _ _ _ (hmsg m rfl)]; exact h0
      | _ => exact absurd trivial hun
  · exact h.tab y

theorem lunknown_keep {n : LNet U B T} {u : U} (h : LUnknown n u) (x : B) (op : Op U B T Nat)
    (hb : ∀ b h, op ≠ .addBroker b h) (hr : ∀ b, op ≠ .removeBroker b)
    (hadd : ∀ h ts, op ≠ .addUser u h ts) (hmsg : ∀ m, op = .applyUserSync m → m.map.get u = none) :
    LUnknown (n.act x op) u :=
  lunknown_act h x op hadd hmsg (fun b b' c hc => h.reg b b' c (by rwa [conn_act n x op hb hr] at hc))

theorem lunknown_remove {n : LNet U B T} {u : U} (h : LUnknown n u) (x d : B) :
    LUnknown (n.act x (.removeBroker d)) u :=
  lunknown_act h x _ (by simp) (by simp) (fun b b' c hc => h.reg b b' c (conn_remove n x d b b' c hc))

theorem lunknown_setQ {n : LNet U B T} {u : U} (h : LUnknown n u) (c : Nat) (x : B) (l : List (SyncMsg U B T))
    (hq : ∀ m ∈ l, entryOf u m = none) : LUnknown (n.setQ c x l) u := by
  refine ⟨h.ident, h.differ, h.reg, h.tab, h.task, ?_⟩
  intro c' x' m hm
  simp only [LNet.setQ] at hm
  split at hm
  · exact hq m hm
  · exact h.q c' x' m hm

theorem lunknown_spawn {n : LNet U B T} {u : U} (h : LUnknown n u) (τ : LTask U B T)
    (hq : entryOf u τ.msg = none) : LUnknown (n.spawn τ) u :=
  ⟨h.ident, h.differ, h.reg, h.tab, by
    intro σ hσ
    rcases List.mem_append.1 hσ with h1 | h1
    · exact h.task σ h1
    · simp only [List.mem_singleton] at h1; subst h1; exact hq, h.q⟩

theorem lunknown_set {n : LNet U B T} {u : U} (h : LUnknown n u) (i : Nat) (τ τ' : LTask U B T)
    (hi : n.tasks[i]? = some τ) (hm : τ'.msg = τ.msg) : LUnknown { n with tasks := n.tasks.set i τ' } u :=
  ⟨h.ident, h.differ, h.reg, h.tab, by
    intro σ hσ
    rcases List.mem_or_eq_of_mem_set hσ with h1 | rfl
    · exact h.task σ h1
    · rw [hm]; exact h.task τ (List.mem_of_getElem? hi), h.q⟩

theorem lunknown_user {n : LNet U B T} {u : U} (h : LUnknown n u) (c : Nat) (x y : B) (m : DirectMap U B)
    (rest : List (SyncMsg U B T)) (hq : n.q c x = .user m :: rest) :
    LUnknown ((n.act y (.applyUserSync m)).setQ c x rest) u := by
  refine lunknown_setQ (lunknown_keep h y (.applyUserSync m) (by simp) (by simp) (by simp) ?_) _ _ _ ?_
  · rintro m' e; cases e
    exact h.q c x (.user m) (by rw [hq]; simp)
  · intro m' hm'; exact h.q c x m' (by rw [hq]; simp [hm'])

theorem lunknown_topic {n : LNet U B T} {u : U} (h : LUnknown n u) (c : Nat) (x y : B) (m : TopicSync T)
    (rest : List (SyncMsg U B T)) (hq : n.q c x = .topic m :: rest) :
    LUnknown ((n.act y (.applyTopicSync x m)).setQ c x rest) u := by
  refine lunknown_setQ (lunknown_keep h y (.applyTopicSync x m) (by simp) (by simp) (by simp) (by simp)) _ _ _ ?_
  intro m' hm'; exact h.q c x m' (by rw [hq]; simp [hm'])

theorem lunknown_step {n : LNet U B T} {u : U} (h : LUnknown n u) (l : LLabel U B T)
    (hl : ¬ LConnects u l) : LUnknown (n.step l) u := by
  cases l with
  | connect x u' hd ts =>
    exact lunknown_keep h x _ (by simp) (by simp) (by intro h' ts' e; cases e; exact hl rfl) (by simp)
  | disconnect x u' => exact lunknown_keep h x (.removeUser u') (by simp) (by simp) (by simp) (by simp)
  | subscribe x u' ts => exact lunknown_keep h x (.subscribeUser u' ts) (by simp) (by simp) (by simp) (by simp)
  | unsubscribe x u' ts => exact lunknown_keep h x (.unsubscribeUser u' ts) (by simp) (by simp) (by simp) (by simp)
  | startTopic x =>
    have h1 := lunknown_keep h x .partialTopicSync (by simp) (by simp) (by simp) (by simp)
    simp only [LNet.step]; split
    · exact h1
    · exact lunknown_spawn h1 _ rfl
  | startUser x =>
    have h1 := lunknown_keep h x .partialUserSync (by simp) (by simp) (by simp) (by simp)
    simp only [LNet.step]; split
    · exact h1
    · rename_i m hm
      apply lunknown_spawn h1
      have h2 := UNet.sync_msg (n.st x) u
      rw [hm, h.tab] at h2
      exact h2
  | readDests i =>
    simp only [LNet.step]; split
    · rename_i x m hi; exact lunknown_set h i _ _ hi rfl
    · exact h
  | lookup i =>
    simp only [LNet.step]; split
    · rename_i x m d ds hi; exact lunknown_set h i _ _ hi rfl
    · exact h
  | push i ok =>
    simp only [LNet.step]; split
    · rename_i x m ds d c hi
      have h1 := lunknown_set h i _ ⟨x, m, ds, none⟩ hi rfl
      split
      · apply lunknown_setQ h1
        intro m' hm'
        rcases List.mem_append.1 hm' with h2 | h2
        · exact h.q _ _ m' h2
        · simp only [List.mem_singleton] at h2; subst h2
          exact h.task _ (List.mem_of_getElem? hi)
      · exact lunknown_remove h1 x d
    · exact h
  | authenticated c x y =>
    simp only [LNet.step]; split
    · exact h
    · rename_i hc
      have hxy : x ≠ y := fun e => hc (Or.inl e)
      have hfree : n.ends c = none := Classical.not_not.1 fun e => hc (Or.inr e)
      refine ⟨h.ident, ?_, ?_, h.tab, h.task, ?_⟩
      · intro c' b b' h1
        simp only at h1
        split at h1
        · cases h1; exact hxy
        · exact h.differ c' b b' h1
      · intro b b' c' h1
        have h2 := h.reg b b' c' h1
        have hne : c' ≠ c := by
          rintro rfl
          rcases h2 with h2 | h2 <;> rw [hfree] at h2 <;> cases h2
        unfold LNet.joins at h2 ⊢
        simp only [hne, if_false]; exact h2
      · intro c' x' m hm
        simp only at hm
        split at hm
        · exact (nomatch hm)
        · exact h.q c' x' m hm
  | register c x y =>
    simp only [LNet.step]; split
    · rename_i hj
      have h1 := lunknown_act h x (.addBroker y c) (by simp) (by simp) (by
        intro b b' c' hc
        unfold LNet.conn at hc; rw [LNet.st_act] at hc; split at hc
        · rename_i e; subst e
          by_cases hb : b' = y
          · subst hb
            simp [Conns.step, addBroker, getBrokerConnection] at hc
            subst hc; exact hj.1
          · apply h.reg
            unfold LNet.conn getBrokerConnection
            have hb' : ¬ y = b' := fun e => hb e.symm
            simpa [Conns.step, addBroker, getBrokerConnection, AMap.get_insert, removeBroker_brokers_get, hb, hb'] using hc
        · exact h.reg b b' c' hc)
      exact ⟨h1.ident, h1.differ, h1.reg, h1.tab, h1.task, h1.q⟩
    · exact h
  | fullTopic x y =>
    simp only [LNet.step]; split
    · have h1 : LUnknown { n with fullT := n.fullT.erase (x, y) } u :=
        ⟨h.ident, h.differ, h.reg, h.tab, h.task, h.q⟩
      split
      · exact h1
      · exact lunknown_spawn h1 _ rfl
    · exact h
  | fullUser x y =>
    simp only [LNet.step]; split
    · have h1 : LUnknown { n with fullU := n.fullU.erase (x, y) } u :=
        ⟨h.ident, h.differ, h.reg, h.tab, h.task, h.q⟩
      split
      · exact h1
      · rename_i m hm
        apply lunknown_spawn h1
        unfold getFullUserSync at hm
        split at hm
        · cases hm
        · cases hm; exact congrArg UNet.View.e (h.tab x)
    · exact h
  | drop x y => exact lunknown_remove h x y
  | deliver c x y =>
    simp only [LNet.step]; split
    · split
      · exact h
      · rename_i m rest hq; exact lunknown_user h c x y m rest hq
      · rename_i m rest hq; exact lunknown_topic h c x y m rest hq
    · exact h
  | strayUser c x y =>
    simp only [LNet.step]; split
    · split
      · rename_i m rest hq; exact lunknown_user h c x y m rest hq
      · exact h
    · exact h
  | strayTopic c x y =>
    simp only [LNet.step]; split
    · split
      · rename_i m rest hq; exact lunknown_topic h c x y m rest hq
      · exact h
    · exact h
  | restart x =>
    have hst : ∀ y, (n.step (.restart x)).st y = if y = x then Conns.new x else n.st y := fun _ => rfl
    refine ⟨?_, h.differ, ?_, ?_, ?_, h.q⟩
    · intro y; rw [hst]; split
      · rename_i e; subst e; rfl
      · exact h.ident y
    · intro b b' c hc
      unfold LNet.conn at hc; rw [hst] at hc; split at hc
      · exact (nomatch hc)
      · exact h.reg b b' c hc
    · intro y; rw [hst]; split
      · rfl
      · exact h.tab y
    · intro τ hτ; exact h.task τ (List.mem_filter.1 hτ).1

theorem lunknown_run {u : U} (ls : List (LLabel U B T)) (n : LNet U B T) (h : LUnknown n u)
    (hl : ∀ l ∈ ls, ¬ LConnects u l) : LUnknown (n.run ls) u := by
  induction ls generalizing n with
  | nil => exact h
  | cons l ls ih => exact ih (n.step l) (lunknown_step h l (hl l (by simp))) (fun l' h' => hl l' (by simp [h']))

theorem lunknown_start (u : U) : LUnknown (LNet.start : LNet U B T) u :=
  ⟨fun _ => rfl, by intro c b b' h; exact (nomatch h), by intro b b' c h; exact (nomatch h), fun _ => rfl,
    by simp [LNet.start], by simp [LNet.start]⟩

/-! ## While connections are stable

Each pair of brokers has one connection registered at both ends; what is sent there is the link of the pair in
`Model/Mesh`, where looking up and sending are one step. -/

/-- A sync that has found the connection of a broker still has to send to it. -/
def toTask (τ : LTask U B T) : SyncTask U B T :=
  ⟨τ.here, τ.msg,
    match τ.held with
    | none => τ.dests
    | some (d, _) => some (d :: τ.dests.getD [])⟩

def linkQ (n : LNet U B T) (b b' : B) : List (SyncMsg U B T) :=
  match n.conn b b' with
  | none => []
  | some c => n.q c b

/-- The mesh of the links in use. -/
def toM (n : LNet U B T) : MNet U B T Nat := ⟨n.st, n.tasks.map toTask, n.fullT, n.fullU, linkQ n⟩

theorem linkQ_some {n : LNet U B T} {b b' : B} {c : Nat} (h : n.conn b b' = some c) : linkQ n b b' = n.q c b := by
  unfold linkQ; rw [h]

theorem linkQ_none {n : LNet U B T} {b b' : B} (h : n.conn b b' = none) : linkQ n b b' = [] := by
  unfold linkQ; rw [h]

theorem linkQ_congr {n n' : LNet U B T} (hc : ∀ x y, n'.conn x y = n.conn x y)
    (hq : ∀ x y c, n.conn x y = some c → n'.q c x = n.q c x) : linkQ n' = linkQ n := by
  funext x y
  cases h : n.conn x y with
  | none => rw [linkQ_none h, linkQ_none (by rw [hc, h])]
  | some c => rw [linkQ_some h, linkQ_some (c := c) (by rw [hc, h]), hq x y c h]

/-- Invariant. -/
structure Steady (n : LNet U B T) (u : U) (loc : Option B) (k : Nat) : Prop where
  differ : ∀ c b b', n.ends c = some (b, b') → b ≠ b'
  reg : ∀ b b' c, n.conn b b' = some c → n.joins c b b'
  both : ∀ b b', n.conn b b' = n.conn b' b
  clean : ∀ c b, ∀ m ∈ n.q c b, entryOf u m ≠ none → ∃ b', n.conn b b' = some c
  held : ∀ τ ∈ n.tasks, entryOf u τ.msg ≠ none → ∀ d c, τ.held = some (d, c) →
    n.conn τ.here d = some c ∧ ∃ ds, τ.dests = some ds
  stable : MeshTurn.Stable (toM n) u
  inv : UserSync.Inv u (MeshTurn.ghost (toM n)) loc k

theorem other_end {n : LNet U B T} (hd : ∀ c b b', n.ends c = some (b, b') → b ≠ b') {c : Nat} {b b1 b2 : B}
    (h1 : n.joins c b b1) (h2 : n.joins c b b2) : b1 = b2 := by
  rcases h1 with h1 | h1 <;> rcases h2 with h2 | h2 <;> rw [h1] at h2 <;> cases h2
  · rfl
  · exact absurd rfl (hd _ _ _ h1)
  · exact absurd rfl (hd _ _ _ h1)
  · rfl

theorem joins_differ {n : LNet U B T} (hd : ∀ c b b', n.ends c = some (b, b') → b ≠ b') {c : Nat} {b b' : B}
    (h : n.joins c b b') : b ≠ b' := by
  rcases h with h | h
  · exact hd _ _ _ h
  · exact (hd _ _ _ h).symm

theorem toM_act (n : LNet U B T) (b : B) (op : Op U B T Nat) (hadd : ∀ b h, op ≠ .addBroker b h)
    (hrem : ∀ b, op ≠ .removeBroker b) : toM (n.act b op) = (toM n).act b op := by
  show MNet.mk _ _ _ _ _ = MNet.mk _ _ _ _ _
  congr 1
  exact linkQ_congr (conn_act n b op hadd hrem) (fun _ _ _ _ => rfl)

theorem toM_spawn (n : LNet U B T) (τ : LTask U B T) : toM (n.spawn τ) = (toM n).spawn (toTask τ) := by
  show MNet.mk _ _ _ _ _ = MNet.mk _ _ _ _ _
  congr 1
  simp [LNet.spawn, toM]

theorem toM_set (n : LNet U B T) (i : Nat) (τ : LTask U B T) :
    toM { n with tasks := n.tasks.set i τ } = { toM n with tasks := (toM n).tasks.set i (toTask τ) } := by
  show MNet.mk _ _ _ _ _ = MNet.mk _ _ _ _ _
  congr 1
  simp [toM, List.map_set]

/-- The queue of a connection in use. -/
theorem toM_setQ {n : LNet U B T} (hd : ∀ c b b', n.ends c = some (b, b') → b ≠ b')
    (hr : ∀ b b' c, n.conn b b' = some c → n.joins c b b') {c : Nat} {b b' : B} (h : n.conn b b' = some c)
    (l : List (SyncMsg U B T)) : toM (n.setQ c b l) = (toM n).setCh b b' l := by
  show MNet.mk _ _ _ _ _ = MNet.mk _ _ _ _ _
  congr 1
  funext x y
  show linkQ (n.setQ c b l) x y = if x = b ∧ y = b' then l else linkQ n x y
  have hconn : ∀ x y, (n.setQ c b l).conn x y = n.conn x y := fun _ _ => rfl
  split
  · rename_i e; obtain ⟨rfl, rfl⟩ := e
    rw [linkQ_some (c := c) (by rw [hconn, h])]
    simp [LNet.setQ]
  · rename_i hne
    cases hxy : n.conn x y with
    | none => rw [linkQ_none hxy, linkQ_none (by rw [hconn, hxy])]
    | some c' =>
      rw [linkQ_some hxy, linkQ_some (c := c') (by rw [hconn, hxy])]
      simp only [LNet.setQ]
      rw [if_neg]
      rintro ⟨rfl, rfl⟩
      exact hne ⟨rfl, other_end hd (hr _ _ _ hxy) (hr _ _ _ h)⟩

/-- The queue of a connection that is not in use. -/
theorem toM_setQ_other {n : LNet U B T} {c : Nat} {b : B} (h : ∀ b', n.conn b b' ≠ some c)
    (l : List (SyncMsg U B T)) : toM (n.setQ c b l) = toM n := by
  show MNet.mk _ _ _ _ _ = MNet.mk _ _ _ _ _
  congr 1
  refine linkQ_congr (fun _ _ => rfl) ?_
  intro x y c' hc
  simp only [LNet.setQ]
  rw [if_neg]
  rintro ⟨rfl, rfl⟩
  exact h y hc

theorem nothing_toM {n : LNet U B T} {u : U} (h : LNothingUnderWay u n) : MeshTurn.NothingUnderWay u (toM n) := by
  refine ⟨?_, ?_⟩
  · intro b b' m hm
    have hm' : m ∈ linkQ n b b' := hm
    unfold linkQ at hm'
    split at hm'
    · exact (nomatch hm')
    · exact h.1 _ _ m hm'
  · intro τ hτ
    obtain ⟨σ, hσ, rfl⟩ := List.mem_map.1 hτ
    rcases h.2 σ hσ with h1 | ⟨h1, h2⟩
    · exact Or.inl h1
    · right
      show (match σ.held with | none => σ.dests | some (d, _) => some (d :: σ.dests.getD [])) = some []
      rw [h2]; exact h1

/-- A step of the mesh that leaves connections alone. -/
theorem steady_of {n n' : LNet U B T} {u : U} {loc loc' : Option B} {k k' : Nat} (h : Steady n u loc k)
    (hends : n'.ends = n.ends) (hconn : ∀ x y, n'.conn x y = n.conn x y)
    (hq : ∀ c b, ∀ m ∈ n'.q c b, entryOf u m ≠ none → m ∈ n.q c b ∨ ∃ b', n.conn b b' = some c)
    (htask : ∀ τ ∈ n'.tasks, entryOf u τ.msg ≠ none → ∀ d c, τ.held = some (d, c) →
      n.conn τ.here d = some c ∧ ∃ ds, τ.dests = some ds)
    (hst : MeshTurn.Stable (toM n') u) (hinv : UserSync.Inv u (MeshTurn.ghost (toM n')) loc' k') :
    Steady n' u loc' k' := by
  refine ⟨by rw [hends]; exact h.differ, ?_, ?_, ?_, ?_, hst, hinv⟩
  · intro b b' c hc
    have := h.reg b b' c (by rwa [hconn] at hc)
    unfold LNet.joins at this ⊢; rw [hends]; exact this
  · intro b b'; rw [hconn, hconn]; exact h.both b b'
  · intro c b m hm hne
    rcases hq c b m hm hne with h1 | ⟨b', h1⟩
    · obtain ⟨b', h2⟩ := h.clean c b m h1 hne; exact ⟨b', by rw [hconn]; exact h2⟩
    · exact ⟨b', by rw [hconn]; exact h1⟩
  · intro τ hτ hne d c hh
    rw [hconn]; exact htask τ hτ hne d c hh

/-- Steps that are steps of `Model/Mesh` with the same queues and syncs with nothing looked up. -/
theorem steady_same {n n' : LNet U B T} {u : U} {loc : Option B} {k : Nat} (h : Steady n u loc k)
    (l : MLabel U B T Nat) (hto : toM n' = (toM n).step l) (hl : MeshTurn.InTurn u (toM n) [l]) (hk : k + 2 < 2 ^ 64)
    (hends : n'.ends = n.ends) (hconn : ∀ x y, n'.conn x y = n.conn x y)
    (hq : ∀ c b, ∀ m ∈ n'.q c b, entryOf u m ≠ none → m ∈ n.q c b ∨ ∃ b', n.conn b b' = some c)
    (htask : ∀ τ ∈ n'.tasks, entryOf u τ.msg ≠ none → ∀ d c, τ.held = some (d, c) →
      n.conn τ.here d = some c ∧ ∃ ds, τ.dests = some ds) :
    Steady n' u (MeshTurn.whereabouts u [l] loc) (k + 1) :=
  steady_of h hends hconn hq htask (by rw [hto]; exact MeshTurn.stable_step h.stable l hl)
    (by rw [hto]; exact MeshTurn.turn_step h.inv h.stable l hl hk)

theorem Steady.mono {n : LNet U B T} {u : U} {loc : Option B} {k k' : Nat} (h : Steady n u loc k) (hk : k ≤ k') :
    Steady n u loc k' := { h with inv := MeshTurn.inv_mono h.inv hk }

/-- A sync puts a message without an entry about `u` somewhere. -/
theorem quiet_push {n n' : MNet U B T Nat} {u : U} {loc : Option B} {k : Nat} (hs : MeshTurn.Stable n u)
    (h : UserSync.Inv u (MeshTurn.ghost n) loc k) (i : Nat) (τ τ' : SyncTask U B T) (hi : n.tasks[i]? = some τ)
    (hτ : entryOf u τ.msg = none) (hτ' : entryOf u τ'.msg = none) (hst : n'.st = n.st) (hf : n'.fullU = n.fullU)
    (ht : n'.tasks = n.tasks.set i τ')
    (hq : ∀ x y, (n'.ch x y).filterMap (entryOf u) = (n.ch x y).filterMap (entryOf u)) :
    MeshTurn.Stable n' u ∧ UserSync.Inv u (MeshTurn.ghost n') loc k := by
  refine ⟨⟨by rw [hst]; exact hs.ident, by rw [hst]; exact hs.links, by rw [hf]; exact hs.initial, ?_⟩, ?_⟩
  · rw [ht]
    intro σ hσ
    rcases List.mem_or_eq_of_mem_set hσ with h1 | rfl
    · exact hs.dests σ h1
    · intro hne; exact absurd hτ' hne
  · refine UserSync.inv_same_views u (MeshTurn.ghost n) _ loc k k (Nat.le_refl _) ?_ ?_ ?_ h
    · intro x; show UNet.view (n'.st x) u = UNet.view (n.st x) u; rw [hst]
    · intro x; show (n'.st x).identity = (n.st x).identity; rw [hst]
    · intro x y
      rw [MeshTurn.chU_ghost, MeshTurn.chU_ghost, hq, ht]
      obtain ⟨pre, post, h1, h2⟩ := MeshTurn.split_at hi τ'
      rw [h2, h1, MeshTurn.waiting_split, MeshTurn.waiting_split, MeshTurn.share_eq, MeshTurn.share_eq, hτ, hτ']
      simp

theorem old_tasks {n : LNet U B T} {u : U} {loc : Option B} {k : Nat} (h : Steady n u loc k) (τ : LTask U B T)
    (hτ : τ.held = none) : ∀ σ ∈ n.tasks ++ [τ], entryOf u σ.msg ≠ none → ∀ d c, σ.held = some (d, c) →
      n.conn σ.here d = some c ∧ ∃ ds, σ.dests = some ds := by
  intro σ hσ hne d c hh
  rcases List.mem_append.1 hσ with h1 | h1
  · exact h.held σ h1 hne d c hh
  · simp only [List.mem_singleton] at h1; subst h1; rw [hτ] at hh; cases hh

theorem set_tasks {n : LNet U B T} {u : U} {loc : Option B} {k : Nat} (h : Steady n u loc k) (i : Nat)
    (τ : LTask U B T) (hτ : entryOf u τ.msg ≠ none → ∀ d c, τ.held = some (d, c) →
      n.conn τ.here d = some c ∧ ∃ ds, τ.dests = some ds) :
    ∀ σ ∈ n.tasks.set i τ, entryOf u σ.msg ≠ none → ∀ d c, σ.held = some (d, c) →
      n.conn σ.here d = some c ∧ ∃ ds, σ.dests = some ds := by
  intro σ hσ hne d c hh
  rcases List.mem_or_eq_of_mem_set hσ with h1 | rfl
  · exact h.held σ h1 hne d c hh
  · exact hτ hne d c hh

theorem toM_task {n : LNet U B T} {i : Nat} {τ : LTask U B T} (h : n.tasks[i]? = some τ) :
    (toM n).tasks[i]? = some (toTask τ) := by
  show (n.tasks.map toTask)[i]? = _
  rw [List.getElem?_map, h]; rfl

/-- The next frame from `b` on `c` is taken. -/
theorem pop_q {n : LNet U B T} {u : U} (c : Nat) (b : B) (m : SyncMsg U B T) (rest : List (SyncMsg U B T))
    (hq : n.q c b = m :: rest) (n0 : LNet U B T) (h0 : n0.q = n.q) : ∀ c' b', ∀ m' ∈ (n0.setQ c b rest).q c' b',
      entryOf u m' ≠ none → m' ∈ n.q c' b' ∨ ∃ y, n.conn b' y = some c' := by
  intro c' b' m' hm' _
  left
  simp only [LNet.setQ, h0] at hm'
  split at hm'
  · rename_i e; obtain ⟨rfl, rfl⟩ := e; rw [hq]; exact List.mem_cons_of_mem _ hm'
  · exact hm'

theorem steady_step {n : LNet U B T} {u : U} {loc : Option B} {k : Nat} (h : Steady n u loc k) (l : LLabel U B T)
    (hl : LInTurn u n [l]) (hk : k + 2 < 2 ^ 64) : Steady (n.step l) u (lwhereabouts u [l] loc) (k + 1) := by
  have hkeep : ∀ c b, ∀ m ∈ n.q c b, entryOf u m ≠ none → m ∈ n.q c b ∨ ∃ b', n.conn b b' = some c :=
    fun _ _ _ hm _ => Or.inl hm
  have hact : ∀ (b : B) (op : Op U B T Nat) (l : MLabel U B T Nat), (toM n).step l = (toM n).act b op →
      (∀ b h, op ≠ .addBroker b h) → (∀ b, op ≠ .removeBroker b) → MeshTurn.InTurn u (toM n) [l] →
      Steady (n.act b op) u (MeshTurn.whereabouts u [l] loc) (k + 1) := by
    intro b op l h1 h2 h3 h4
    exact steady_same h l ((toM_act n b op h2 h3).trans h1.symm) h4 hk rfl (conn_act n b op h2 h3) hkeep h.held
  cases l with
  | connect b u' hd ts =>
    refine hact b (.addUser u' hd ts) (.connect b u' hd ts) rfl (by simp) (by simp) ⟨?_, trivial⟩
    intro e; exact ⟨nothing_toM (hl.1 e).1, (hl.1 e).2⟩
  | disconnect b u' =>
    refine hact b (.removeUser u') (.disconnect b u') rfl (by simp) (by simp) ⟨?_, trivial⟩
    intro e h1; exact ⟨nothing_toM (hl.1 e h1).1, (hl.1 e h1).2⟩
  | subscribe b u' ts =>
    exact hact b (.subscribeUser u' ts) (.subscribe b u' ts) rfl (by simp) (by simp) ⟨trivial, trivial⟩
  | unsubscribe b u' ts =>
    exact hact b (.unsubscribeUser u' ts) (.unsubscribe b u' ts) rfl (by simp) (by simp) ⟨trivial, trivial⟩
  | startTopic b =>
    have hto : toM (n.step (.startTopic b)) = (toM n).step (.startTopic b) := by
      cases hm : (n.st b).getPartialTopicSync.2 with
      | none =>
        simp only [LNet.step, MNet.step, hm, show ((toM n).st b).getPartialTopicSync.2 = none from hm]
        exact toM_act n b .partialTopicSync (by simp) (by simp)
      | some m =>
        simp only [LNet.step, MNet.step, hm, show ((toM n).st b).getPartialTopicSync.2 = some m from hm]
        rw [toM_spawn, toM_act n b .partialTopicSync (by simp) (by simp)]; rfl
    refine steady_same h (.startTopic b) hto ⟨trivial, trivial⟩ hk ?_ ?_ ?_ ?_
    · simp only [LNet.step]; split <;> rfl
    · intro x y; simp only [LNet.step]; split
      · exact conn_act n b .partialTopicSync (by simp) (by simp) x y
      · exact conn_act n b .partialTopicSync (by simp) (by simp) x y
    · simp only [LNet.step]; split
      · exact hkeep
      · exact hkeep
    · simp only [LNet.step]; split
      · exact h.held
      · exact old_tasks h _ rfl
  | startUser b =>
    have hto : toM (n.step (.startUser b)) = (toM n).step (.startUser b) := by
      cases hm : (n.st b).getPartialUserSync.2 with
      | none =>
        simp only [LNet.step, MNet.step, hm, show ((toM n).st b).getPartialUserSync.2 = none from hm]
        exact toM_act n b .partialUserSync (by simp) (by simp)
      | some m =>
        simp only [LNet.step, MNet.step, hm, show ((toM n).st b).getPartialUserSync.2 = some m from hm]
        rw [toM_spawn, toM_act n b .partialUserSync (by simp) (by simp)]; rfl
    refine steady_same h (.startUser b) hto ⟨trivial, trivial⟩ hk ?_ ?_ ?_ ?_
    · simp only [LNet.step]; split <;> rfl
    · intro x y; simp only [LNet.step]; split
      · exact conn_act n b .partialUserSync (by simp) (by simp) x y
      · exact conn_act n b .partialUserSync (by simp) (by simp) x y
    · simp only [LNet.step]; split
      · exact hkeep
      · exact hkeep
    · simp only [LNet.step]; split
      · exact h.held
      · exact old_tasks h _ rfl
  | readDests i =>
    simp only [LNet.step]; split
    · rename_i b m hi
      refine steady_same h (.readDests i) ?_ ⟨trivial, trivial⟩ hk rfl (fun _ _ => rfl) hkeep
        (set_tasks h i _ (by intro _ d c e; cases e))
      rw [toM_set]
      simp only [MNet.step, toM_task hi]
      rfl
    · exact h.mono (by omega)
  | lookup i =>
    simp only [LNet.step]; split
    · rename_i b m d ds hi
      cases hc : n.conn b d with
      | none =>
        refine steady_same h (.send i true) ?_ ⟨rfl, trivial⟩ hk rfl (fun _ _ => rfl) hkeep
          (set_tasks h i _ (by intro _ d c e; cases e))
        rw [toM_set]
        simp only [MNet.step, toM_task hi]
        show _ = if MNet.knows (toM n) b d = true then _ else _
        rw [if_neg (by show ¬ (n.conn b d).isSome = true; rw [hc]; simp)]
        rfl
      | some c =>
        have hto : toM { n with tasks := n.tasks.set i ⟨b, m, some ds, some (d, c)⟩ } = toM n := by
          rw [toM_set]
          have : (toM n).tasks.set i (toTask ⟨b, m, some ds, some (d, c)⟩) = (toM n).tasks := by
            apply List.ext_getElem?
            intro j
            rw [List.getElem?_set]
            split
            · rename_i e; subst e
              have := toM_task hi
              rw [this]
              rw [if_pos (List.getElem?_eq_some_iff.1 this).1]; rfl
            · rfl
          rw [this]
        refine Steady.mono (k := k) ?_ (by omega)
        refine (steady_of h rfl (fun _ _ => rfl) hkeep (set_tasks h i _ ?_) (by
          show MeshTurn.Stable (toM { n with tasks := n.tasks.set i ⟨b, m, some ds, some (d, c)⟩ }) u
          rw [hto]; exact h.stable) (by
          show UserSync.Inv u (MeshTurn.ghost (toM { n with tasks := n.tasks.set i ⟨b, m, some ds, some (d, c)⟩ })) loc k
          rw [hto]; exact h.inv))
        intro _ d' c' e; cases e; exact ⟨hc, ds, rfl⟩
    · exact h.mono (by omega)
  | push i ok =>
    have hok : ok = true := hl.1
    subst hok
    simp only [LNet.step, if_true]; split
    · rename_i b m ds d c hi
      by_cases hm : entryOf u m = none
      · have hq : ∀ x y, (linkQ (({ n with tasks := n.tasks.set i ⟨b, m, ds, none⟩ } : LNet U B T).setQ c b
            (n.q c b ++ [m])) x y).filterMap (entryOf u) = (linkQ n x y).filterMap (entryOf u) := by
          intro x y
          cases hxy : n.conn x y with
          | none => rw [linkQ_none hxy, linkQ_none (by exact hxy)]
          | some c' =>
            rw [linkQ_some hxy, linkQ_some (c := c') (by exact hxy)]
            simp only [LNet.setQ]
            split
            · rename_i e; obtain ⟨rfl, rfl⟩ := e
              simp [hm]
            · rfl
        have := quiet_push (n' := toM (({ n with tasks := n.tasks.set i ⟨b, m, ds, none⟩ } : LNet U B T).setQ c b (n.q c b ++ [m])))
          h.stable h.inv i _ (toTask ⟨b, m, ds, none⟩) (toM_task hi) hm hm rfl rfl (by
            show (n.tasks.set i _).map toTask = (n.tasks.map toTask).set i _
            rw [List.map_set]) hq
        refine Steady.mono (k := k) ?_ (by omega)
        refine (steady_of h rfl (fun _ _ => rfl) ?_ (set_tasks h i _ (by intro _ d c e; cases e)) this.1 this.2)
        intro c' b' m' hm' hne
        left
        simp only [LNet.setQ] at hm'
        split at hm'
        · rename_i e; obtain ⟨rfl, rfl⟩ := e
          rcases List.mem_append.1 hm' with h1 | h1
          · exact h1
          · simp only [List.mem_singleton] at h1; subst h1; exact absurd hm hne
        · exact hm'
      · obtain ⟨hc, ds', hds⟩ := h.held _ (List.mem_of_getElem? hi) hm d c rfl
        simp only at hc hds
        subst hds
        refine steady_same h (.send i true) ?_ ⟨rfl, trivial⟩ hk rfl (fun _ _ => rfl) ?_
          (set_tasks h i _ (by intro _ d c e; cases e))
        · have h1 := toM_setQ (n := { n with tasks := n.tasks.set i ⟨b, m, some ds', none⟩ }) h.differ h.reg hc
            (n.q c b ++ [m])
          rw [h1, toM_set]
          simp only [MNet.step, toM_task hi]
          show _ = if MNet.knows (toM n) b d = true then _ else _
          rw [if_pos (by show (n.conn b d).isSome = true; rw [hc]; rfl)]
          have : (toM n).ch b d = n.q c b := linkQ_some hc
          rw [this]; rfl
        · intro c' b' m' hm' hne
          simp only [LNet.setQ] at hm'
          split at hm'
          · rename_i e; obtain ⟨rfl, rfl⟩ := e
            exact Or.inr ⟨d, hc⟩
          · exact Or.inl hm'
    · exact h.mono (by omega)
  | authenticated c b b' =>
    simp only [LNet.step]; split
    · exact h.mono (by omega)
    · rename_i hc
      have hxy : b ≠ b' := fun e => hc (Or.inl e)
      have hfree : n.ends c = none := Classical.not_not.1 fun e => hc (Or.inr e)
      have hne : ∀ x y c', n.conn x y = some c' → c' ≠ c := by
        rintro x y c' h1 rfl
        have h2 := h.reg x y c' h1
        rcases h2 with h2 | h2 <;> rw [hfree] at h2 <;> cases h2
      have hto : toM { n with
          ends := fun x => if x = c then some (b, b') else n.ends x
          spent := fun x y => if x = c then false else n.spent x y
          gone := fun x y => if x = c then false else n.gone x y
          q := fun x y => if x = c then [] else n.q x y } = toM n := by
        show MNet.mk _ _ _ _ _ = MNet.mk _ _ _ _ _
        congr 1
        refine linkQ_congr (fun _ _ => rfl) ?_
        intro x y c' h1
        show (if c' = c then [] else n.q c' x) = n.q c' x
        rw [if_neg (hne x y c' h1)]
      refine ⟨?_, ?_, h.both, ?_, h.held, by rw [hto]; exact h.stable,
        by rw [hto]; exact MeshTurn.inv_mono h.inv (by omega)⟩
      · intro c' x y h1
        simp only at h1
        split at h1
        · cases h1; exact hxy
        · exact h.differ c' x y h1
      · intro x y c' h1
        have h2 := h.reg x y c' h1
        unfold LNet.joins at h2 ⊢
        simp only [hne x y c' h1, if_false]; exact h2
      · intro c' x m hm hm'
        simp only at hm
        split at hm
        · exact (nomatch hm)
        · exact h.clean c' x m hm hm'
  | register => exact absurd hl.1 id
  | fullTopic b b' =>
    simp only [LNet.step]; split
    · rename_i hf
      cases hm : (n.st b).getFullTopicSync with
      | none =>
        refine steady_same h (.fullTopic b b') ?_ ⟨trivial, trivial⟩ hk rfl (fun _ _ => rfl) hkeep h.held
        simp only [MNet.step]
        rw [if_pos (show (b, b') ∈ (toM n).fullT from hf), show ((toM n).st b).getFullTopicSync = none from hm]
        rfl
      | some m =>
        refine steady_same h (.fullTopic b b') ?_ ⟨trivial, trivial⟩ hk rfl (fun _ _ => rfl) hkeep (old_tasks h _ rfl)
        simp only [MNet.step]
        rw [if_pos (show (b, b') ∈ (toM n).fullT from hf), show ((toM n).st b).getFullTopicSync = some m from hm]
        rw [toM_spawn]; rfl
    · exact h.mono (by omega)
  | fullUser b b' =>
    simp only [LNet.step]
    rw [if_neg (by rw [show n.fullU = [] from h.stable.initial]; simp)]
    exact h.mono (by omega)
  | drop => exact absurd hl.1 id
  | deliver c b b' =>
    simp only [LNet.step]; split
    · rename_i hc'
      have hc : n.conn b b' = some c := by rw [h.both]; exact hc'
      have hch : (toM n).ch b b' = n.q c b := linkQ_some hc
      have hkn : (toM n).knows b' b = true := by show (n.conn b' b).isSome = true; rw [hc']; rfl
      split
      · exact h.mono (by omega)
      · rename_i m rest hq
        refine steady_same h (.deliver b b') ?_ ⟨trivial, trivial⟩ hk rfl
          (conn_act n b' (.applyUserSync m) (by simp) (by simp)) (pop_q c b _ rest hq _ rfl) h.held
        rw [toM_setQ (n := n.act b' (.applyUserSync m)) h.differ (by
          intro x y c' h1; rw [conn_act n b' _ (by simp) (by simp)] at h1; exact h.reg x y c' h1)
          (by rw [conn_act n b' _ (by simp) (by simp)]; exact hc), toM_act n b' _ (by simp) (by simp)]
        simp only [MNet.step, hkn, hch, hq, if_true]
      · rename_i m rest hq
        refine steady_same h (.deliver b b') ?_ ⟨trivial, trivial⟩ hk rfl
          (conn_act n b' (.applyTopicSync b m) (by simp) (by simp)) (pop_q c b _ rest hq _ rfl) h.held
        rw [toM_setQ (n := n.act b' (.applyTopicSync b m)) h.differ (by
          intro x y c' h1; rw [conn_act n b' _ (by simp) (by simp)] at h1; exact h.reg x y c' h1)
          (by rw [conn_act n b' _ (by simp) (by simp)]; exact hc), toM_act n b' _ (by simp) (by simp)]
        simp only [MNet.step, hkn, hch, hq, if_true]
    · exact h.mono (by omega)
  | strayUser c b b' =>
    simp only [LNet.step]; split
    · rename_i hc
      obtain ⟨hj, hc, _⟩ := hc
      have hunused : ∀ y, n.conn b y ≠ some c := by
        intro y h1
        have : y = b' := other_end h.differ (h.reg _ _ _ h1) hj
        subst this
        exact hc (by rw [h.both]; exact h1)
      split
      · rename_i m rest hq
        have hm : m.map.get u = none := by
          refine Classical.byContradiction fun hne => ?_
          obtain ⟨y, h1⟩ := h.clean c b (.user m) (by rw [hq]; simp) hne
          exact hunused y h1
        have hto : toM ((n.act b' (.applyUserSync m)).setQ c b rest) = (toM n).act b' (.applyUserSync m) := by
          rw [toM_setQ_other (by intro y; rw [conn_act n b' _ (by simp) (by simp)]; exact hunused y),
            toM_act n b' _ (by simp) (by simp)]
        refine Steady.mono (k := k) ?_ (by omega)
        refine (steady_of h rfl (conn_act n b' (.applyUserSync m) (by simp) (by simp)) (pop_q c b _ rest hq _ rfl) h.held
          (by rw [hto]; exact MeshTurn.stable_act h.stable b' (.applyUserSync m) trivial) ?_)
        rw [hto]
        refine UserSync.inv_same_views u (MeshTurn.ghost (toM n)) _ loc k k (Nat.le_refl _) ?_ ?_ (fun _ _ => rfl) h.inv
        · intro x
          show UNet.view (((toM n).act b' (.applyUserSync m)).st x) u = UNet.view ((toM n).st x) u
          rw [MNet.st_act]; split
          · rename_i e; subst e; exact UNet.view_apply_none _ _ _ hm
          · rfl
        · intro x
          show (((toM n).act b' (.applyUserSync m)).st x).identity = ((toM n).st x).identity
          rw [MNet.st_act]; split
          · rename_i e; subst e; simp
          · rfl
      · exact h.mono (by omega)
    · exact h.mono (by omega)
  | strayTopic c b b' =>
    simp only [LNet.step]; split
    · rename_i hc
      obtain ⟨hj, hc, _⟩ := hc
      have hunused : ∀ y, n.conn b y ≠ some c := by
        intro y h1
        have : y = b' := other_end h.differ (h.reg _ _ _ h1) hj
        subst this
        exact hc (by rw [h.both]; exact h1)
      split
      · rename_i m rest hq
        have hto : toM ((n.act b' (.applyTopicSync b m)).setQ c b rest) = (toM n).act b' (.applyTopicSync b m) := by
          rw [toM_setQ_other (by intro y; rw [conn_act n b' _ (by simp) (by simp)]; exact hunused y),
            toM_act n b' _ (by simp) (by simp)]
        refine Steady.mono (k := k) ?_ (by omega)
        refine (steady_of h rfl (conn_act n b' (.applyTopicSync b m) (by simp) (by simp)) (pop_q c b _ rest hq _ rfl)
          h.held (by
            rw [hto]
            refine MeshTurn.stable_act h.stable b' (.applyTopicSync b m) ?_
            exact (h.stable.links b' b).2 (joins_differ h.differ hj).symm) ?_)
        rw [hto]
        exact MeshTurn.inv_unrelated h.inv b' (.applyTopicSync b m) trivial
      · exact h.mono (by omega)
    · exact h.mono (by omega)
  | restart => exact absurd hl.1 id

theorem lwhereabouts_cons (u : U) (l : LLabel U B T) (ls : List (LLabel U B T)) (loc : Option B) :
    lwhereabouts u (l :: ls) loc = lwhereabouts u ls (lwhereabouts u [l] loc) := by
  cases l <;> rfl

theorem steady_run {u : U} (ls : List (LLabel U B T)) (n : LNet U B T) (loc : Option B) (k : Nat)
    (h : Steady n u loc k) (hl : LInTurn u n ls) (hk : k + ls.length + 1 < 2 ^ 64) :
    Steady (n.run ls) u (lwhereabouts u ls loc) (k + ls.length) := by
  induction ls generalizing n loc k with
  | nil => exact h
  | cons l ls ih =>
    rw [List.length_cons] at hk
    have h1 := steady_step h l ⟨hl.1, trivial⟩ (by omega)
    have h2 := ih _ _ _ h1 hl.2 (by omega)
    rw [lwhereabouts_cons, List.length_cons, show k + (ls.length + 1) = k + 1 + ls.length by omega]
    exact h2

theorem lrun_append (n : LNet U B T) (l1 l2 : List (LLabel U B T)) : n.run (l1 ++ l2) = (n.run l1).run l2 := by
  simp [LNet.run, List.foldl_append]

theorem steady_start (u : U) (l1 l2 : List (LLabel U B T)) (hno : ∀ l ∈ l1, ¬ LConnects u l)
    (hlinks : ∀ b b', b ≠ b' → ∃ c, Linked ((LNet.start : LNet U B T).run l1) c b b')
    (hinit : ((LNet.start : LNet U B T).run l1).fullU = [])
    (hturn : LInTurn u ((LNet.start : LNet U B T).run l1) l2) (hlen : l2.length + 1 < 2 ^ 64) (b : B) :
    Steady ((LNet.start : LNet U B T).run (l1 ++ l2)) u (lwhereabouts u l2 none) l2.length := by
  have hunk := lunknown_run l1 _ (lunknown_start (U := U) (B := B) (T := T) u) hno
  rw [lrun_append]
  generalize (LNet.start : LNet U B T).run l1 = n at *
  have hself : ∀ x, n.conn x x = none := by
    intro x
    cases h : n.conn x x with
    | none => rfl
    | some c => exact absurd rfl (joins_differ hunk.differ (hunk.reg x x c h))
  have hst : MeshTurn.Stable (toM n) u := by
    refine ⟨hunk.ident, ?_, hinit, ?_⟩
    · intro x y
      constructor
      · rintro h rfl
        have := hself x
        unfold LNet.conn getBrokerConnection at this
        exact h (Option.map_eq_none_iff.1 this)
      · intro h
        obtain ⟨c, h1, _⟩ := hlinks x y h
        obtain ⟨e, h2, _⟩ := (LNet.conn_iff _ _ _ _).1 h1
        show (n.st x).brokers.get y ≠ none
        rw [h2]; simp
    · intro τ hτ h
      obtain ⟨σ, hσ, rfl⟩ := List.mem_map.1 hτ
      exact absurd (hunk.task σ hσ) h
  have h0 : Steady n u none 0 := by
    refine ⟨hunk.differ, hunk.reg, ?_, ?_, ?_, hst, ?_⟩
    · intro x y
      by_cases e : x = y
      · rw [e]
      · obtain ⟨c, h1, h2⟩ := hlinks x y e
        rw [h1, h2]
    · intro c x m hm hne; exact absurd (hunk.q c x m hm) hne
    · intro τ hτ hne; exact absurd (hunk.task τ hτ) hne
    · have hch : ∀ x y, UserSync.chU u (MeshTurn.ghost (toM n)) x y = [] := by
        intro x y
        apply UserSync.chU_nil_of
        exact MeshTurn.nothing_ghost (nothing_toM ⟨hunk.q, fun τ hτ => Or.inl (hunk.task τ hτ)⟩)
      refine ⟨hunk.ident, none, b, ⟨1, none⟩, Or.inr ⟨⟨by intro e h; simp at h, rfl, by simp [UserSync.next],
        rfl, Or.inl rfl⟩, ?_, ?_, ?_, ?_, fun x y _ => hch x y⟩⟩
      · show (UNet.view (n.st b) u).e = _; rw [hunk.tab]; rfl
      · show (UNet.view (n.st b) u).m = _; rw [hunk.tab]
      · show (UNet.view (n.st b) u).c = _ ↔ _; rw [hunk.tab]; simp
      · intro x _
        show (UNet.view (n.st x) u).m = _ ∧ (_ ∨ (_ ∧ (UNet.view (n.st x) u).e = _ ∧ (UNet.view (n.st x) u).c = _))
        rw [hunk.tab, hch]
        exact ⟨rfl, Or.inr ⟨rfl, rfl, rfl⟩⟩
  have h1 := steady_run l2 n none 0 h0 hturn (by omega)
  rw [Nat.zero_add] at h1
  exact h1

/-! ## C74, partial -/

/-- **C74, partial**, connection by connection. First anything happens but that `u` connects (in particular
connections are registered at each end in its own time, replaced and given up, and brokers are restarted), until every
two brokers have registered one connection at both ends and the initial user syncs have been started; then
registered connections stay. Frames on other connections are still handled, and syncs that have looked up
another connection still send on it. If the changes of `u` come in turn, then whenever nothing about `u` is
unannounced or under way, every broker routes `u` to the broker `u` is connected to according to the history (or to
none), and exactly that broker has `u` connected. Missing from the full claim: as for `C74_in_turn_partial`. -/
theorem C74_connection_level_partial (u : U) (l1 l2 : List (LLabel U B T)) (hno : ∀ l ∈ l1, ¬ LConnects u l)
    (hlinks : ∀ b b', b ≠ b' → ∃ c, Linked ((LNet.start : LNet U B T).run l1) c b b')
    (hinit : ((LNet.start : LNet U B T).run l1).fullU = [])
    (hturn : LInTurn u ((LNet.start : LNet U B T).run l1) l2) (hlen : l2.length + 1 < 2 ^ 64)
    (hway : LNothingUnderWay u ((LNet.start : LNet U B T).run (l1 ++ l2)))
    (hann : ∀ b, ¬ LUnannounced u ((LNet.start : LNet U B T).run (l1 ++ l2)) b) (b : B) :
    (((LNet.start : LNet U B T).run (l1 ++ l2)).st b).getBrokerOfUser u = lwhereabouts u l2 none ∧
    (LAt ((LNet.start : LNet U B T).run (l1 ++ l2)) b u ↔ lwhereabouts u l2 none = some b) := by
  have hs := steady_start u l1 l2 hno hlinks hinit hturn hlen b
  generalize (LNet.start : LNet U B T).run (l1 ++ l2) = n at *
  obtain ⟨_, base, ed, e, h | h⟩ := hs.inv
  · exfalso
    apply hann ed
    have := h.edM
    simpa [UNet.view, LUnannounced, MeshTurn.ghost, toM] using this
  · by_cases hb : b = ed
    · subst hb
      refine ⟨?_, h.edC⟩
      show (UNet.view ((MeshTurn.ghost (toM n)).st b) u).e.bind VV.value = _
      rw [h.edE, UserSync.value_adopted]; exact h.core.val
    · obtain ⟨_, h1 | h1⟩ := h.others b hb
      · rw [UserSync.chU_nil_of u _ (MeshTurn.nothing_ghost (nothing_toM hway))] at h1; simp at h1
      · refine ⟨?_, ?_⟩
        · show (UNet.view ((MeshTurn.ghost (toM n)).st b) u).e.bind VV.value = _
          rw [h1.2.1, UserSync.value_adopted]; exact h.core.val
        · have hc : ((n.st b).users.get u).isSome = false := h1.2.2
          show ((n.st b).users.get u).isSome = true ↔ _
          rw [hc]
          constructor
          · intro h; simp at h
          · intro hloc
            rcases h.core.here with h2 | h2
            · rw [h2] at hloc; simp at hloc
            · rw [h2] at hloc; exact absurd (Option.some.inj hloc).symm hb

/-! ## C75 -/

section
open Verif.Props.Network Verif.Broker Verif.Net
variable {B σ : Type} [DecidableEq B] [LT B] [DecidableLT B]

/-- **C75**, connection by connection: as `C75_direct_after_moves`, where each end registers connections in its own time
before users come, and frames on connections that are not registered (any more) are handled at any time. -/
theorem C75_connection_level (cfg : Cfg B σ) (hT : Transparent cfg)
    (l1 l2 : List (LLabel Bytes B Topic)) (hno : ∀ u, ∀ l ∈ l1, ¬ LConnects u l)
    (hlinks : ∀ b b', b ≠ b' → ∃ c, Linked ((LNet.start : LNet Bytes B Topic).run l1) c b b')
    (hinit : ((LNet.start : LNet Bytes B Topic).run l1).fullU = [])
    (hturn : ∀ u, LInTurn u ((LNet.start : LNet Bytes B Topic).run l1) l2)
    (hlen : l2.length + 1 < 2 ^ 64)
    (hway : ∀ u, LNothingUnderWay u ((LNet.start : LNet Bytes B Topic).run (l1 ++ l2)))
    (hann : ∀ u b, ¬ LUnannounced u ((LNet.start : LNet Bytes B Topic).run (l1 ++ l2)) b)
    (hook : B → Dest B → σ) (ls : List (Label B Nat)) (hl : ∀ l ∈ ls, Static cfg l) (k : Nat) (b : B)
    (a raw r payload : Bytes) (hd : cfg.decode raw = some (.direct r payload))
    (honce : ls.filter (publishes k) = [.publish b a k raw]) (u : Bytes) :
    let n := (Net.start ((LNet.start : LNet Bytes B Topic).run (l1 ++ l2)).st hook).run cfg ls
    copiesReceived n u k ≤ 1 ∧
    (¬ (u = r ∧ lwhereabouts r l2 none ≠ none) → copiesReceived n u k = 0) ∧
    (Quiescent n → u = r → lwhereabouts r l2 none ≠ none → copiesReceived n u k = 1) := by
  intro n
  have hloc := fun u b => C74_connection_level_partial u l1 l2 (hno u) hlinks hinit (hturn u) hlen (hway u) (hann u) b
  have hst := (steady_start u l1 l2 (hno u) hlinks hinit (hturn u) hlen b).stable
  have hmesh : Network.Mesh (fun _ => True) ((LNet.start : LNet Bytes B Topic).run (l1 ++ l2)).st
      (fun u => lwhereabouts u l2 none) := by
    refine ⟨fun b _ => hst.ident b, ?_, ?_, fun _ _ _ => trivial, fun b u _ => (hloc u b).2⟩
    · intro x y _ _ hne
      exact (MNet.knows_iff (toM ((LNet.start : LNet Bytes B Topic).run (l1 ++ l2))) _ _).2 ((hst.links x y).2 hne)
    · intro x y _ hk
      exact ⟨trivial, fun e => (hst.links x y).1
        ((MNet.knows_iff (toM ((LNet.start : LNet Bytes B Topic).run (l1 ++ l2))) _ _).1 hk) e.symm⟩
  have := C19_direct_exactly_once cfg hT (fun _ => True) _ _ hmesh (fun b u _ => (hloc u b).1) hook ls hl k b
    trivial a raw r payload hd honce u
  refine ⟨this.1, fun h => this.2.1 (fun h' => h ⟨h'.1, ?_⟩), fun hq h1 h2 => this.2.2 hq h1 ?_⟩
  · intro e
    have := h'.2
    simp only [e] at this
    simp at this
  · cases e : lwhereabouts r l2 none with
    | none => exact absurd e h2
    | some => rfl

end

/-! ### A case

Two brokers with two connections, of which they use the second. A sync of broker 0 has looked up the first one before. -/

/-- The numbers of all connections are below `K`. -/
structure Below (n : LNet U B T) (K : Nat) : Prop where
  free : ∀ c, K ≤ c → n.ends c = none
  reg : ∀ b b' c, n.conn b b' = some c → c < K
  held : ∀ τ ∈ n.tasks, ∀ d c, τ.held = some (d, c) → c < K
  q : ∀ c b, n.q c b ≠ [] → c < K

def belowB (K : Nat) : LLabel U B T → Bool
  | .authenticated c _ _ => decide (c < K)
  | .register c _ _ => decide (c < K)
  | .deliver c _ _ => decide (c < K)
  | .strayUser c _ _ => decide (c < K)
  | .strayTopic c _ _ => decide (c < K)
  | .drop _ _ => false
  | .restart _ => false
  | .push _ ok => ok
  | _ => true

theorem below_act {n : LNet U B T} {K : Nat} (h : Below n K) (b : B) (op : Op U B T Nat)
    (hadd : ∀ b h, op ≠ .addBroker b h) (hrem : ∀ b, op ≠ .removeBroker b) : Below (n.act b op) K :=
  ⟨h.free, fun x y c hc => h.reg x y c (by rwa [conn_act n b op hadd hrem] at hc), h.held, h.q⟩

theorem below_spawn {n : LNet U B T} {K : Nat} (h : Below n K) (τ : LTask U B T) (hτ : τ.held = none) :
    Below (n.spawn τ) K :=
  ⟨h.free, h.reg, by
    intro σ hσ d c hh
    rcases List.mem_append.1 hσ with h1 | h1
    · exact h.held σ h1 d c hh
    · simp only [List.mem_singleton] at h1; subst h1; exact absurd (hτ.symm.trans hh) (by simp), h.q⟩

theorem below_set {n : LNet U B T} {K : Nat} (h : Below n K) (i : Nat) (τ : LTask U B T)
    (hτ : ∀ d c, τ.held = some (d, c) → c < K) : Below { n with tasks := n.tasks.set i τ } K :=
  ⟨h.free, h.reg, by
    intro σ hσ d c hh
    rcases List.mem_or_eq_of_mem_set hσ with h1 | rfl
    · exact h.held σ h1 d c hh
    · exact hτ d c hh, h.q⟩

theorem below_setQ {n : LNet U B T} {K : Nat} (h : Below n K) (c : Nat) (b : B) (l : List (SyncMsg U B T))
    (hc : c < K) : Below (n.setQ c b l) K :=
  ⟨h.free, h.reg, h.held, by
    intro c' b' hq
    simp only [LNet.setQ] at hq
    split at hq
    · rename_i e; rw [e.1]; exact hc
    · exact h.q c' b' hq⟩

theorem below_step {n : LNet U B T} {K : Nat} (h : Below n K) (l : LLabel U B T) (hl : belowB K l = true) :
    Below (n.step l) K := by
  cases l with
  | connect x u' hd ts => exact below_act h x _ (by simp) (by simp)
  | disconnect x u' => exact below_act h x _ (by simp) (by simp)
  | subscribe x u' ts => exact below_act h x _ (by simp) (by simp)
  | unsubscribe x u' ts => exact below_act h x _ (by simp) (by simp)
  | startTopic x =>
    have h1 := below_act h x .partialTopicSync (by simp) (by simp)
    simp only [LNet.step]; split
    · exact h1
    · exact below_spawn h1 _ rfl
  | startUser x =>
    have h1 := below_act h x .partialUserSync (by simp) (by simp)
    simp only [LNet.step]; split
    · exact h1
    · exact below_spawn h1 _ rfl
  | readDests i =>
    simp only [LNet.step]; split
    · exact below_set h i _ (by intro d c e; cases e)
    · exact h
  | lookup i =>
    simp only [LNet.step]; split
    · rename_i b m d ds hi
      refine below_set h i _ ?_
      intro d' c e
      cases hc : n.conn b d with
      | none => simp [hc] at e
      | some c' => simp only [hc, Option.map_some, Option.some.injEq, Prod.mk.injEq] at e; rw [← e.2]; exact h.reg _ _ _ hc
    · exact h
  | push i ok =>
    have hok : ok = true := hl
    subst hok
    simp only [LNet.step, if_true]; split
    · rename_i b m ds d c hi
      exact below_setQ (below_set h i _ (by intro d c e; cases e)) _ _ _
        (h.held _ (List.mem_of_getElem? hi) d c rfl)
    · exact h
  | authenticated c x y =>
    have hc : c < K := by simpa [belowB] using hl
    simp only [LNet.step]; split
    · exact h
    · refine ⟨?_, h.reg, h.held, ?_⟩
      · intro c' hc'
        show (if c' = c then _ else n.ends c') = none
        rw [if_neg (by omega)]; exact h.free c' hc'
      · intro c' b hq
        simp only at hq
        split at hq
        · exact absurd rfl hq
        · exact h.q c' b hq
  | register c x y =>
    have hc : c < K := by simpa [belowB] using hl
    simp only [LNet.step]; split
    · refine ⟨h.free, ?_, h.held, h.q⟩
      intro b b' c' hc'
      have hc2 : (n.act x (.addBroker y c)).conn b b' = some c' := hc'
      unfold LNet.conn at hc2; rw [LNet.st_act] at hc2; split at hc2
      · rename_i e; subst e
        by_cases hb : b' = y
        · subst hb
          simp [Conns.step, addBroker, getBrokerConnection] at hc2
          subst hc2; exact hc
        · apply h.reg b b'
          unfold LNet.conn getBrokerConnection
          have hb' : ¬ y = b' := fun e => hb e.symm
          simpa [Conns.step, addBroker, getBrokerConnection, AMap.get_insert, removeBroker_brokers_get, hb, hb'] using hc2
      · exact h.reg b b' c' hc2
    · exact h
  | fullTopic x y =>
    simp only [LNet.step]; split
    · have h1 : Below { n with fullT := n.fullT.erase (x, y) } K := ⟨h.free, h.reg, h.held, h.q⟩
      split
      · exact h1
      · exact below_spawn h1 _ rfl
    · exact h
  | fullUser x y =>
    simp only [LNet.step]; split
    · have h1 : Below { n with fullU := n.fullU.erase (x, y) } K := ⟨h.free, h.reg, h.held, h.q⟩
      split
      · exact h1
      · exact below_spawn h1 _ rfl
    · exact h
  | drop x y => cases hl
  | deliver c x y =>
    have hc : c < K := by simpa [belowB] using hl
    simp only [LNet.step]; split
    · split
      · exact h
      · exact below_setQ (below_act h y _ (by simp) (by simp)) _ _ _ hc
      · exact below_setQ (below_act h y _ (by simp) (by simp)) _ _ _ hc
    · exact h
  | strayUser c x y =>
    have hc : c < K := by simpa [belowB] using hl
    simp only [LNet.step]; split
    · split
      · exact below_setQ (below_act h y _ (by simp) (by simp)) _ _ _ hc
      · exact h
    · exact h
  | strayTopic c x y =>
    have hc : c < K := by simpa [belowB] using hl
    simp only [LNet.step]; split
    · split
      · exact below_setQ (below_act h y _ (by simp) (by simp)) _ _ _ hc
      · exact h
    · exact h
  | restart x => cases hl

theorem below_run {K : Nat} (ls : List (LLabel U B T)) (n : LNet U B T) (h : Below n K)
    (hl : ls.all (belowB K) = true) : Below (n.run ls) K := by
  induction ls generalizing n with
  | nil => exact h
  | cons l ls ih =>
    simp only [List.all_cons, Bool.and_eq_true] at hl
    exact ih _ (below_step h l hl.1) hl.2

theorem below_start (K : Nat) : Below (LNet.start : LNet U B T) K :=
  ⟨fun _ _ => rfl, by intro b b' c h; exact (nomatch h), by simp [LNet.start], by intro c b h; exact absurd rfl h⟩

section
variable {U T : Type} [DecidableEq U] [DecidableEq T] {N : Nat}

def lnothingB (K : Nat) (u : U) (n : LNet U (Fin N) T) : Bool :=
  ((List.range K).all fun c => (List.finRange N).all fun x => (n.q c x).all fun m => (entryOf u m).isNone) &&
  n.tasks.all fun τ => (entryOf u τ.msg).isNone || (τ.dests == some [] && τ.held.isNone)

theorem lnothingB_sound (K : Nat) (u : U) (n : LNet U (Fin N) T) (hb : Below n K) (h : lnothingB K u n = true) :
    LNothingUnderWay u n := by
  simp only [lnothingB, Bool.and_eq_true, List.all_eq_true, List.mem_finRange, forall_const, List.mem_range,
    Option.isNone_iff_eq_none, Bool.or_eq_true, beq_iff_eq] at h
  refine ⟨?_, h.2⟩
  intro c b m hm
  exact h.1 c (hb.q c b (by intro e; rw [e] at hm; simp at hm)) b m hm

/-- Checks `LInTurn` for all users at once, for schedules without disconnects. -/
def linTurnB (K : Nat) : LNet U (Fin N) T → List (LLabel U (Fin N) T) → Bool
  | _, [] => true
  | n, l :: ls =>
    (match l with
     | .connect b u _ _ => lnothingB K u n &&
        (List.finRange N).all fun x => x == b || u ∉ (n.st x).direct.modified
     | .disconnect _ _ | .register _ _ _ | .drop _ _ | .restart _ => false
     | .push _ ok => ok
     | _ => true) && belowB K l && linTurnB K (n.step l) ls

theorem linTurnB_sound (K : Nat) (u : U) (ls : List (LLabel U (Fin N) T)) (n : LNet U (Fin N) T) (hb : Below n K)
    (h : linTurnB K n ls = true) : LInTurn u n ls := by
  induction ls generalizing n with
  | nil => trivial
  | cons l ls ih =>
    simp only [linTurnB, Bool.and_eq_true] at h
    refine ⟨?_, ih _ (below_step hb l h.1.2) h.2⟩
    have h1 := h.1.1
    cases l with
    | connect b u' hd ts =>
      rintro rfl
      simp only [Bool.and_eq_true, List.all_eq_true, List.mem_finRange, forall_const, Bool.or_eq_true,
        beq_iff_eq, decide_eq_true_eq] at h1
      refine ⟨lnothingB_sound K _ _ hb h1.1, fun x hx => ?_⟩
      exact (h1.2 x).resolve_left hx
    | disconnect => simp at h1
    | register => simp at h1
    | drop => simp at h1
    | restart => simp at h1
    | push i ok => exact h1
    | _ => trivial
end

/-- Broker 0 has a user and a sync for it under way on connection 0 when both brokers register connection 1. -/
def twoConns : List (LLabel Nat (Fin 2) Nat) :=
  [.authenticated 0 0 1, .register 0 0 1, .register 0 1 0, .authenticated 1 0 1, .connect 0 9 99 [], .startUser 0,
   .readDests 0, .lookup 0, .register 1 0 1, .fullUser 0 1, .fullUser 0 1, .register 1 1 0, .fullUser 1 0, .fullUser 1 0]

/-- The sync of user 9 is sent and handled on connection 0; user 7 connects to broker 0 and moves to broker 1. -/
def twoUsers : List (LLabel Nat (Fin 2) Nat) :=
  [.push 0 true, .connect 0 7 110 [1], .strayUser 0 0 1, .startUser 0, .readDests 3, .lookup 3, .push 3 true,
   .lookup 1, .push 1 true, .deliver 1 0 1, .deliver 1 0 1, .connect 1 7 111 [2], .startUser 1, .readDests 4, .lookup 4,
   .authenticated 2 1 0, .push 4 true, .deliver 1 1 0]

example : let n := (LNet.start : LNet Nat (Fin 2) Nat).run twoConns
    let n' := (LNet.start : LNet Nat (Fin 2) Nat).run (twoConns ++ twoUsers)
    (∀ l ∈ twoConns, ¬ LConnects 7 l) ∧ (∀ b b', b ≠ b' → ∃ c, Linked n c b b') ∧ n.fullU = [] ∧
    LInTurn 7 n twoUsers ∧ LNothingUnderWay 7 n' ∧ (∀ b, ¬ LUnannounced 7 n' b) ∧
    lwhereabouts 7 twoUsers none = some 1 := by
  refine ⟨?_, ?_, by decide +kernel,
    linTurnB_sound 3 _ _ _ (below_run _ _ (below_start 3) (by decide +kernel)) (by decide +kernel),
    lnothingB_sound 3 _ _ (below_run _ _ (below_start 3) (by decide +kernel)) (by decide +kernel), ?_, by decide +kernel⟩
  · intro l hl
    simp only [twoConns, List.mem_cons, List.not_mem_nil, or_false] at hl
    rcases hl with rfl | rfl | rfl | rfl | rfl | rfl | rfl | rfl | rfl | rfl | rfl | rfl | rfl | rfl <;>
      simp [LConnects]
  · intro b b' h; exact ⟨1, by revert b b'; unfold Linked; decide +kernel⟩
  · unfold LUnannounced; decide +kernel

/-- User 9's sync is handled on connection 0, which neither broker uses any more; both brokers know both users. -/
example : let n := (LNet.start : LNet Nat (Fin 2) Nat).run (twoConns ++ twoUsers.take 1)
    let n' := (LNet.start : LNet Nat (Fin 2) Nat).run (twoConns ++ twoUsers)
    (n.q 0 0).map (entryOf 9) = [some ⟨1, some 0⟩] ∧ n.conn 1 0 = some 1 ∧ LAt n' 1 7 ∧ ¬ LAt n' 0 7 ∧
    ∀ b, (n'.st b).getBrokerOfUser 7 = some 1 ∧ (n'.st b).getBrokerOfUser 9 = some 0 := by
  decide +kernel

/-- For C75: the same without user 9, with the two users of the toy configuration. -/
def twoToy : List (LLabel Bytes (Fin 2) Topic) :=
  [.authenticated 0 0 1, .register 0 0 1, .register 0 1 0, .authenticated 1 0 1, .register 1 0 1, .fullUser 0 1,
   .fullUser 0 1, .register 1 1 0, .fullUser 1 0, .fullUser 1 0]

def twoToyUsers : List (LLabel Bytes (Fin 2) Topic) :=
  [.connect 0 [7] 110 [1], .startUser 0, .readDests 0, .lookup 0, .push 0 true, .deliver 1 0 1, .connect 1 [7] 111 [2],
   .connect 0 [8] 112 [], .startUser 1, .startUser 0, .readDests 1, .readDests 2, .lookup 1, .lookup 2, .push 2 true,
   .push 1 true, .deliver 1 0 1, .deliver 1 1 0]

def twoToyEnd : LNet Bytes (Fin 2) Topic := (LNet.start : LNet Bytes (Fin 2) Topic).run (twoToy ++ twoToyUsers)

section
open Verif.Props.Network Verif.Broker Verif.Net

def twoToyCfg : Cfg (Fin 2) Nat where
  decode
    | 3 :: r => some (.direct r [])
    | _ => none
  decUserSync _ := none
  decTopicSync _ := none
  valid _ := true
  userHook h m := (h, m, .process)
  brokerHook h m := (h, m, .process)

/-- `[8]` writes to `[7]`, who has moved to broker 1. -/
def twoToyPublish : List (Label (Fin 2) Nat) :=
  [.publish 0 [8] 5 [3, 7], .take 0 (.user [8]), .send 0 (.user [8]) true, .take 1 (.broker 0), .send 1 (.broker 0) true]

theorem twoToy_below : Below twoToyEnd 2 := below_run _ _ (below_start 2) (by decide +kernel)

/-- The hypotheses of C75 hold. -/
example : Transparent twoToyCfg ∧ (∀ u, ∀ l ∈ twoToy, ¬ LConnects u l) ∧
    (∀ b b', b ≠ b' → ∃ c, Linked ((LNet.start : LNet Bytes (Fin 2) Topic).run twoToy) c b b') ∧
    ((LNet.start : LNet Bytes (Fin 2) Topic).run twoToy).fullU = [] ∧
    (∀ u, LInTurn u ((LNet.start : LNet Bytes (Fin 2) Topic).run twoToy) twoToyUsers) ∧
    (∀ u, LNothingUnderWay u twoToyEnd) ∧ (∀ u b, ¬ LUnannounced u twoToyEnd b) ∧
    (∀ l ∈ twoToyPublish, Static twoToyCfg l) ∧
    twoToyPublish.filter (publishes 5) = [.publish 0 [8] 5 [3, 7]] ∧
    lwhereabouts [7] twoToyUsers none = some 1 := by
  refine ⟨fun _ _ => ⟨rfl, rfl⟩, ?_, ?_, by decide +kernel, fun u =>
    linTurnB_sound 2 _ _ _ (below_run _ _ (below_start 2) (by decide +kernel)) (by decide +kernel),
    ?_, ?_, ?_, rfl, by decide +kernel⟩
  · intro u l hl
    simp only [twoToy, List.mem_cons, List.not_mem_nil, or_false] at hl
    rcases hl with rfl | rfl | rfl | rfl | rfl | rfl | rfl | rfl | rfl | rfl <;> simp [LConnects]
  · intro b b' h; exact ⟨1, by revert b b'; unfold Linked; decide +kernel⟩
  · intro u
    have h : (∀ c < 2, ∀ x : Fin 2, (twoToyEnd.q c x).length = 0) ∧
        twoToyEnd.tasks.all (fun τ => τ.dests == some [] && τ.held.isNone) = true := by decide +kernel
    refine ⟨fun c x m hm => ?_, fun τ hτ => Or.inr ?_⟩
    · have hc := twoToy_below.q c x (by intro e; rw [e] at hm; simp at hm)
      rw [List.length_eq_zero_iff.1 (h.1 c hc x)] at hm; simp at hm
    · simpa using List.all_eq_true.1 h.2 τ hτ
  · intro u b
    have h : ∀ b : Fin 2, (twoToyEnd.st b).direct.modified.elems = [] := by decide +kernel
    unfold LUnannounced
    rw [FSet.mem_def, h b]; simp
  · intro l hl
    simp only [twoToyPublish, List.mem_cons, List.not_mem_nil, or_false] at hl
    rcases hl with rfl | rfl | rfl | rfl | rfl
    all_goals first | rfl | trivial

/-- The message has reached user 7 once, at its new broker, and nothing is in flight. -/
example : let n := (Net.start twoToyEnd.st (fun _ _ => 0)).run twoToyCfg twoToyPublish
    n.wire.length = 0 ∧ n.pend.length = 0 ∧ copiesReceived n [7] 5 = 1 ∧ copiesReceived n [8] 5 = 0 := by
  decide +kernel
end

end Verif.Props.Linking

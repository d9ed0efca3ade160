import Verif.Props.Mesh
import Verif.Lemmas.UserSync

/-!
# Properties C73 and C74: users in a mesh whose links come and go
-/

set_option linter.unusedSectionVars false

namespace Verif.Props.MeshUsers
open Verif Verif.Conns Verif.MNet Verif.Props.Mesh

variable {U B T H : Type} [DecidableEq U] [DecidableEq B] [DecidableEq T] [DecidableEq H]
  [LT B] [DecidableLT B]

/-! ## C73 -/

/-- User `u` is connected to broker `b`. -/
def At (n : MNet U B T H) (b : B) (u : U) : Prop := ((n.st b).getUserConnection u).isSome = true

/-- The user connects, at any broker. -/
def Connects (u : U) : MLabel U B T H → Prop
  | .connect _ u' _ _ => u' = u
  | _ => False

/-- The claim of C73: a user who connects once, and whose connection does not fail, stays connected while
the broker runs, whatever happens to the other brokers and the links between them. -/
def StaysConnected (U B T H : Type) [DecidableEq U] [DecidableEq B] [DecidableEq T] [DecidableEq H]
    [LT B] [DecidableLT B] : Prop :=
  ∀ (l1 l2 : List (MLabel U B T H)) (b : B) (u : U) (h : H) (ts : List T),
    (∀ l ∈ l1 ++ l2, ¬ Connects u l ∧ l ≠ .disconnect b u) → (∀ l ∈ l2, l ≠ .restart b) →
    At ((start : MNet U B T H).run (l1 ++ .connect b u h ts :: l2)) b u

/-- Two brokers are linked. User 7 connects to broker 0, which announces it; broker 1 hears of it before
it sends its own initial user sync, which therefore repeats the entry; at equal versions broker 1's
claim wins, and broker 0, told that its own user is at broker 0, drops the connection. -/
def echo : List (MLabel Nat Nat Nat Nat) :=
  [.startUser 0, .readDests 0, .send 0 true, .deliver 0 1, .fullUser 1 0, .send 1 true, .deliver 1 0]

/-- **C73 does not hold**: no link ever fails in this run, and the user is dropped. -/
theorem C73_false : ¬ StaysConnected Nat Nat Nat Nat := by
  intro h
  have := h [.linkUp 0 1 100 101] echo 0 7 102 [] (by
    intro l hl
    simp only [echo, List.cons_append, List.nil_append, List.mem_cons, List.not_mem_nil, or_false] at hl
    rcases hl with rfl | rfl | rfl | rfl | rfl | rfl | rfl | rfl <;> exact ⟨id, by simp⟩) (by
    intro l hl
    simp only [echo, List.mem_cons, List.not_mem_nil, or_false] at hl
    rcases hl with rfl | rfl | rfl | rfl | rfl | rfl | rfl <;> simp)
  unfold At at this
  revert this
  decide +kernel

/-- The same happens to every user of the lesser broker when a link fails and comes back: here all
initial syncs of the first link are over before the users connect. -/
def reconnect : List (MLabel Nat Nat Nat Nat) :=
  [.linkUp 0 1 100 101, .fullUser 0 1, .fullUser 1 0,
   .connect 0 7 102 [], .connect 0 8 103 [], .connect 1 9 104 [],
   .startUser 0, .readDests 0, .send 0 true, .deliver 0 1,
   .drop 0 1, .drop 1 0, .linkUp 0 1 105 106, .fullUser 1 0, .send 1 true, .deliver 1 0]

example : let n := (start : MNet Nat Nat Nat Nat).run (reconnect.take 15)
    At n 0 7 ∧ At n 0 8 ∧ At n 1 9 := by
  unfold At; decide +kernel

example : let n := (start : MNet Nat Nat Nat Nat).run reconnect
    ¬ At n 0 7 ∧ ¬ At n 0 8 ∧ At n 1 9 := by
  unfold At; decide +kernel

/-- The entry `e` about a user, received from a broker with identity `from'`, overrides what the broker
with identity `me` has. -/
def Overrides (me from' : B) (mine : Option (VV B)) (e : VV B) : Prop :=
  match mine with
  | none => e.value ≠ none
  | some x => x.version < e.version ∨ (x.version = e.version ∧ me < from')

theorem takes_iff (me from' : B) (mine : Option (VV B)) (e : VV B) :
    VMap.takes me from' mine e ↔ Overrides me from' mine e := by
  unfold VMap.takes Overrides
  cases mine with
  | none => cases e.value <;> simp
  | some x => simp only [eq_comm (a := e.version)]

/-- Which calls on a table drop user `u`. -/
theorem call_drops (s : Conns U B T H) (op : Op U B T H) (u : U) (hat : (s.users.get u).isSome = true) :
    ¬ ((s.step op).users.get u).isSome = true ↔ op = .removeUser u ∨
      ∃ m e, op = .applyUserSync m ∧ m.map.get u = some e ∧
        Overrides s.direct.ident m.ident (s.direct.map.get u) e := by
  have keep : ∀ op : Op U B T H, ((s.step op).users.get u).isSome = true → op ≠ .removeUser u →
      (∀ m, op ≠ .applyUserSync m) → (¬ ((s.step op).users.get u).isSome = true ↔ op = .removeUser u ∨
      ∃ m e, op = .applyUserSync m ∧ m.map.get u = some e ∧
        Overrides s.direct.ident m.ident (s.direct.map.get u) e) := by
    intro op h1 h2 h3
    constructor
    · intro h; exact absurd h1 h
    · rintro (h | ⟨m, e, h, _⟩)
      · exact absurd h h2
      · exact absurd h (h3 m)
  cases op with
  | addUser u' hd ts =>
    refine keep _ ?_ (by simp) (by simp)
    simp only [Conns.step, addUser, AMap.get_insert]
    split
    · rfl
    · rename_i hne
      rw [removeUser_users_get, if_neg hne]; exact hat
  | removeUser u' =>
    simp only [Conns.step, removeUser_users_get]
    by_cases e : u' = u
    · simp [e]
    · simp [e, hat]
  | addBroker b hd => exact keep _ (by simpa [Conns.step, addBroker] using hat) (by simp) (by simp)
  | removeBroker b => exact keep _ (by simpa [Conns.step] using hat) (by simp) (by simp)
  | subscribeUser => exact keep _ hat (by simp) (by simp)
  | unsubscribeUser => exact keep _ hat (by simp) (by simp)
  | subscribeBroker => exact keep _ hat (by simp) (by simp)
  | unsubscribeBroker => exact keep _ hat (by simp) (by simp)
  | partialUserSync => exact keep _ hat (by simp) (by simp)
  | partialTopicSync =>
    refine keep _ ?_ (by simp) (by simp)
    simp only [Conns.step, getPartialTopicSync]; split <;> exact hat
  | applyTopicSync b m =>
    refine keep _ ?_ (by simp) (by simp)
    simp only [Conns.step, applyTopicSync]
    split
    · simpa using hat
    · rw [(foldl_applyTopicChange_frame _ b _).2.1]; exact hat
  | applyUserSync m =>
    simp only [Conns.step, applyUserSync]
    rw [foldl_removeUser_users_get _ Prod.fst]
    have hmem : u ∈ (s.direct.merge m).2.map Prod.fst ↔
        ∃ e, m.map.get u = some e ∧ Overrides s.direct.ident m.ident (s.direct.map.get u) e := by
      rw [List.mem_map]
      constructor
      · rintro ⟨⟨k, v⟩, hx, rfl⟩
        obtain ⟨e, h1, h2, _⟩ := (VMap.mem_changes_merge _ _ _ _).1 hx
        exact ⟨e, h1, (takes_iff _ _ _ _).1 h2⟩
      · rintro ⟨e, h1, h2⟩
        exact ⟨(u, e.value), (VMap.mem_changes_merge _ _ _ _).2 ⟨e, h1, (takes_iff _ _ _ _).2 h2, rfl⟩, rfl⟩
    by_cases h : u ∈ (s.direct.merge m).2.map Prod.fst
    · rw [if_pos h]
      obtain ⟨e, h1, h2⟩ := hmem.1 h
      simp only [Option.isSome_none, Bool.false_eq_true, not_false_eq_true, true_iff]
      exact Or.inr ⟨m, e, rfl, h1, h2⟩
    · rw [if_neg h]
      constructor
      · intro h'; exact absurd hat h'
      · rintro (h' | ⟨m', e, h', h1, h2⟩)
        · cases h'
        · cases h'; exact absurd (hmem.2 ⟨e, h1, h2⟩) h

/-- **C73, exactly when**: a step disconnects `u` from `b` if and only if `u`'s own connection is the one
that ends, or `b` is restarted, or `b` handles a user sync whose entry about `u` overrides its own, no matter which broker
that entry names. -/
theorem C73_dropped_iff (n : MNet U B T H) (l : MLabel U B T H) (b : B) (u : U) (hat : At n b u) :
    ¬ At (n.step l) b u ↔ l = .disconnect b u ∨ l = .restart b ∨
      ∃ b0 m rest e, l = .deliver b0 b ∧ n.knows b b0 = true ∧ n.ch b0 b = .user m :: rest ∧
        m.map.get u = some e ∧ Overrides (n.st b).direct.ident m.ident ((n.st b).direct.map.get u) e := by
  have other : ∀ (n' : MNet U B T H) (x : B) (op : Op U B T H), n'.st = (n.act x op).st →
      (¬ At n' b u ↔ x = b ∧ (op = .removeUser u ∨
      ∃ m e, op = .applyUserSync m ∧ m.map.get u = some e ∧
        Overrides (n.st b).direct.ident m.ident ((n.st b).direct.map.get u) e)) := by
    intro n' x op h1
    unfold At getUserConnection; rw [h1]
    by_cases e : b = x
    · subst e; rw [st_act_self, call_drops _ _ _ hat]; simp
    · rw [st_act_ne _ _ _ e]
      constructor
      · intro h; exact absurd hat h
      · rintro ⟨h, _⟩; exact absurd h.symm e
  have same : ∀ n' : MNet U B T H, n'.st = n.st → At n' b u := by
    intro n' h1; unfold At; rw [h1]; exact hat
  cases l with
  | connect x u' h ts => refine (other _ x (.addUser u' h ts) rfl).trans ?_; simp
  | disconnect x u' => refine (other _ x (.removeUser u') rfl).trans ?_; simp
  | subscribe x u' ts => refine (other _ x (.subscribeUser u' ts) rfl).trans ?_; simp
  | unsubscribe x u' ts => refine (other _ x (.unsubscribeUser u' ts) rfl).trans ?_; simp
  | startTopic x =>
    rw [other _ x .partialTopicSync (by simp only [MNet.step]; split <;> rfl)]; simp
  | startUser x =>
    rw [other _ x .partialUserSync (by simp only [MNet.step]; split <;> rfl)]; simp
  | readDests i =>
    have := same (n.step (.readDests i)) (by simp only [MNet.step]; split <;> rfl)
    simp [this]
  | send i ok =>
    have : At (n.step (.send i ok)) b u := by
      simp only [MNet.step]
      split
      · rename_i x m d ds _
        split
        · split
          · exact same _ rfl
          · have := other ((({ n with tasks := n.tasks.set i ⟨x, m, some ds⟩ } : MNet U B T H).act x
              (.removeBroker d)).setCh d x []) x (.removeBroker d) rfl
            simp only [reduceCtorEq, false_and, exists_false, or_false, and_false, iff_false] at this
            exact Classical.not_not.1 this
        · exact same _ rfl
      · exact hat
    simp [this]
  | linkUp x y h h' =>
    have : At (n.step (.linkUp x y h h')) b u := by
      simp only [MNet.step]
      split
      · exact hat
      · show ((((n.act x (.addBroker y h)).act y (.addBroker x h')).st b).users.get u).isSome = true
        have h1 : (((n.act x (.addBroker y h)).st b).users.get u).isSome = true := by
          rw [st_act]; split
          · rename_i e; subst e; simpa [Conns.step, addBroker, At, getUserConnection] using hat
          · exact hat
        rw [st_act]; split
        · rename_i e; subst e; simpa [Conns.step, addBroker] using h1
        · exact h1
    simp [this]
  | fullTopic x y =>
    have := same (n.step (.fullTopic x y)) (by
      simp only [MNet.step]; split
      · split <;> rfl
      · rfl)
    simp [this]
  | fullUser x y =>
    have := same (n.step (.fullUser x y)) (by
      simp only [MNet.step]; split
      · split <;> rfl
      · rfl)
    simp [this]
  | drop x y => refine (other _ x (.removeBroker y) rfl).trans ?_; simp
  | deliver x y =>
    simp only [MNet.step]
    by_cases hk : n.knows y x = true
    · rw [if_pos hk]
      cases hq : n.ch x y with
      | nil =>
        simp only
        constructor
        · intro h; exact absurd hat h
        · rintro (h | h | ⟨b0, m, rest, e, h, h1, h2, _⟩)
          · cases h
          · cases h
          · cases h; rw [hq] at h2; cases h2
      | cons m rest =>
        cases m with
        | user m =>
          simp only
          refine (other _ y (.applyUserSync m) rfl).trans ?_
          constructor
          · rintro ⟨rfl, h | ⟨m', e, h, h1, h2⟩⟩
            · cases h
            · cases h; exact Or.inr (Or.inr ⟨x, m, rest, e, rfl, hk, hq, h1, h2⟩)
          · rintro (h | h | ⟨b0, m', rest', e, h, h1, h2, h3, h4⟩)
            · cases h
            · cases h
            · cases h
              rw [hq] at h2; cases h2
              exact ⟨rfl, Or.inr ⟨m, e, rfl, h3, h4⟩⟩
        | topic m =>
          simp only
          refine (other _ y (.applyTopicSync x m) rfl).trans ?_
          constructor
          · rintro ⟨_, h | ⟨_, _, h, _⟩⟩ <;> cases h
          · rintro (h | h | ⟨b0, m', rest', e, h, h1, h2, h3, h4⟩)
            · cases h
            · cases h
            · cases h; rw [hq] at h2; cases h2
    · rw [if_neg hk]
      constructor
      · intro h; exact absurd hat h
      · rintro (h | h | ⟨b0, m, rest, e, h, h1, _⟩)
        · cases h
        · cases h
        · cases h; exact absurd h1 hk
  | restart x =>
    have hst : (n.step (.restart x)).st b = if b = x then Conns.new x else n.st b := rfl
    by_cases e : b = x
    · subst e
      rw [if_pos rfl] at hst
      unfold At; rw [hst]
      simp [Conns.new, getUserConnection]
    · rw [if_neg e] at hst
      have : At (n.step (.restart x)) b u := by unfold At; rw [hst]; exact hat
      simp [this, Ne.symm e]

/-! ### Users of the greatest broker -/

/-- Entry of `u` after applying a message, if it does not name this broker. -/
theorem entry_apply (s : Conns U B T H) (m : DirectMap U B) (u : U)
    (hne : ((s.direct.merge m).1.map.get u).bind VV.value ≠ some s.identity) :
    (s.applyUserSync m).direct.map.get u = (s.direct.merge m).1.map.get u := by
  have := UNet.foldl_removeUser_view (s.direct.merge m).2 { s with direct := (s.direct.merge m).1 } u hne
  simp only [applyUserSync]
  exact congrArg UNet.View.e this

theorem direct_ident_removeUser (s : Conns U B T H) (u : U) : (s.removeUser u).direct.ident = s.direct.ident := by
  rw [removeUser_direct, VMap.removeIfEquals_eq]; split <;> rfl

theorem direct_ident_step (s : Conns U B T H) (op : Op U B T H) : (s.step op).direct.ident = s.direct.ident := by
  cases op with
  | addUser u hd ts =>
    simp only [Conns.step, addUser, VMap.insert, VMap.ident_modifyLocal, direct_ident_removeUser]
  | removeUser u => exact direct_ident_removeUser s u
  | addBroker b hd => simp [Conns.step, addBroker]
  | removeBroker b => simp [Conns.step]
  | subscribeUser => rfl
  | unsubscribeUser => rfl
  | subscribeBroker => rfl
  | unsubscribeBroker => rfl
  | partialUserSync => rfl
  | partialTopicSync => simp only [Conns.step, getPartialTopicSync]; split <;> rfl
  | applyTopicSync b m =>
    simp only [Conns.step, applyTopicSync]; split
    · simp
    · rw [(foldl_applyTopicChange_frame _ b _).2.2.2.1]
  | applyUserSync m =>
    have : ∀ (l : List (U × Option B)) (s : Conns U B T H),
        (l.foldl (fun s c => s.removeUser c.1) s).direct.ident = s.direct.ident := by
      intro l
      induction l with
      | nil => intro s; rfl
      | cons c l ih => intro s; rw [List.foldl_cons, ih, direct_ident_removeUser]
    simp only [Conns.step, applyUserSync]
    rw [this]; simp

/-- The message's entry about `u`, if any. -/
def entryOf (u : U) : SyncMsg U B T → Option (VV B)
  | .user m => m.map.get u
  | .topic _ => none

/-- `u` is unknown everywhere, or (once `known`) known only as connected to `b` at version 1. -/
structure Only (n : MNet U B T H) (b : B) (u : U) (known : Prop) : Prop where
  ident : ∀ x, (n.st x).identity = x
  dident : ∀ x, (n.st x).direct.ident = x
  tab : ∀ x, (n.st x).direct.map.get u = none ∨ (known ∧ (n.st x).direct.map.get u = some ⟨1, some b⟩)
  task : ∀ τ ∈ n.tasks, entryOf u τ.msg = none ∨ (known ∧ entryOf u τ.msg = some ⟨1, some b⟩)
  ch : ∀ x y, ∀ m ∈ n.ch x y, entryOf u m = none ∨ (known ∧ entryOf u m = some ⟨1, some b⟩)
  here : known → (n.st b).direct.map.get u = some ⟨1, some b⟩ ∧ At n b u

/-- The table part, for one call. -/
theorem only_call (s : Conns U B T H) (b : B) (u : U) (known : Prop) (op : Op U B T H)
    (hmax : ∀ b', ¬ b < b') (hid : s.identity = b → s.direct.ident = b)
    (htab : s.direct.map.get u = none ∨ (known ∧ s.direct.map.get u = some ⟨1, some b⟩))
    (hhere : s.identity = b → known →
      s.direct.map.get u = some ⟨1, some b⟩ ∧ (s.users.get u).isSome = true)
    (hadd : ∀ h ts, op ≠ .addUser u h ts) (hrem : s.identity = b → op ≠ .removeUser u)
    (hmsg : ∀ m, op = .applyUserSync m →
      m.map.get u = none ∨ (known ∧ m.map.get u = some ⟨1, some b⟩)) :
    ((s.step op).direct.map.get u = none ∨
      (known ∧ (s.step op).direct.map.get u = some ⟨1, some b⟩)) ∧
    (s.identity = b → known →
      (s.step op).direct.map.get u = some ⟨1, some b⟩ ∧ ((s.step op).users.get u).isSome = true) := by
  have viewEq : ∀ s' : Conns U B T H, UNet.view s' u = UNet.view s u →
      (s'.direct.map.get u = none ∨ (known ∧ s'.direct.map.get u = some ⟨1, some b⟩)) ∧
      (s.identity = b → known →
        s'.direct.map.get u = some ⟨1, some b⟩ ∧ (s'.users.get u).isSome = true) := by
    intro s' h
    have h1 : s'.direct.map.get u = s.direct.map.get u := congrArg UNet.View.e h
    have h2 : (s'.users.get u).isSome = (s.users.get u).isSome := congrArg UNet.View.c h
    rw [h1, h2]; exact ⟨htab, hhere⟩
  by_cases hun : UNet.Unrelated u op
  · exact viewEq _ (UNet.view_unrelated s u op hun)
  · cases op with
    | addUser u' h ts =>
      have : u' = u := Classical.not_not.1 hun
      subst this; exact absurd rfl (hadd h ts)
    | removeUser u' =>
      have : u' = u := Classical.not_not.1 hun
      subst this
      have hne : ¬ s.identity = b := fun e => hrem e rfl
      refine ⟨?_, fun e => absurd e hne⟩
      have hv := congrArg UNet.View.e (UNet.view_removeUser s u')
      have : (UNet.view s u').e.bind VV.value ≠ some s.identity := by
        show (s.direct.map.get u').bind VV.value ≠ _
        rcases htab with h | ⟨_, h⟩ <;> rw [h]
        · simp
        · intro e; exact hne (Option.some.inj e).symm
      rw [UNet.remV, if_neg this] at hv
      have hv' : (s.removeUser u').direct.map.get u' = s.direct.map.get u' := hv
      show (s.removeUser u').direct.map.get u' = _ ∨ (_ ∧ (s.removeUser u').direct.map.get u' = _)
      rw [hv']; exact htab
    | partialUserSync =>
      have hv := UNet.view_sync s u
      have h1 : s.getPartialUserSync.1.direct.map.get u = s.direct.map.get u := by
        have := congrArg UNet.View.e hv
        refine (show s.getPartialUserSync.1.direct.map.get u = _ from this).trans ?_
        show (if (UNet.view s u).m then (s.direct.map.get u).bind VMap.adopted else s.direct.map.get u) = _
        split
        · rcases htab with h | ⟨_, h⟩ <;> rw [h]
          · rfl
          · simp [VMap.adopted]
        · rfl
      have h2 : s.getPartialUserSync.1.users = s.users := rfl
      simp only [Conns.step]
      rw [h1, h2]; exact ⟨htab, hhere⟩
    | applyUserSync m =>
      simp only [Conns.step]
      rcases hmsg m rfl with hm | ⟨hk, hm⟩
      · exact viewEq _ (UNet.view_apply_none s u m hm)
      · by_cases hb : s.identity = b
        · have hloc := (hhere hb hk).1
          refine viewEq _ (UNet.view_apply_lost s u m _ hm ?_)
          show ¬ VMap.takes s.direct.ident m.ident (s.direct.map.get u) _
          rw [hloc, hid hb]
          rintro (h | ⟨_, h⟩)
          · simp at h
          · exact hmax _ h
        · refine ⟨?_, fun e => absurd e hb⟩
          have hmerged : (s.direct.merge m).1.map.get u = none ∨
              (s.direct.merge m).1.map.get u = some ⟨1, some b⟩ := by
            rw [VMap.map_merge, hm]
            simp only
            split
            · right; simp [VMap.adopted]
            · rcases htab with h | ⟨_, h⟩
              · exact Or.inl h
              · exact Or.inr h
          rw [entry_apply s m u (by
            rcases hmerged with h | h <;> rw [h]
            · simp
            · intro e; exact hb (Option.some.inj e).symm)]
          rcases hmerged with h | h
          · exact Or.inl h
          · exact Or.inr ⟨hk, h⟩
    | _ => exact absurd trivial hun

theorem only_act {n : MNet U B T H} {b : B} {u : U} {known : Prop} (hmax : ∀ b', ¬ b < b')
    (h : Only n b u known) (x : B) (op : Op U B T H) (hadd : ∀ h ts, op ≠ .addUser u h ts)
    (hrem : x = b → op ≠ .removeUser u)
    (hmsg : ∀ m, op = .applyUserSync m →
      m.map.get u = none ∨ (known ∧ m.map.get u = some ⟨1, some b⟩)) : Only (n.act x op) b u known := by
  have hc := only_call (n.st x) b u known op hmax
    (fun e => by rw [h.dident]; rw [h.ident] at e; exact e) (h.tab x)
    (fun e k => by rw [h.ident] at e; subst e; exact h.here k) hadd
    (fun e => hrem (by rw [h.ident] at e; exact e)) hmsg
  refine ⟨identity_act n x op h.ident, ?_, ?_, h.task, h.ch, ?_⟩
  · intro y; rw [st_act]; split
    · rename_i e; subst e; rw [direct_ident_step]; exact h.dident _
    · exact h.dident y
  · intro y; rw [st_act]; split
    · exact hc.1
    · exact h.tab y
  · intro k
    unfold At getUserConnection
    rw [st_act]; split
    · rename_i e; subst e; exact hc.2 (h.ident _) k
    · exact h.here k

theorem only_setCh {n : MNet U B T H} {b : B} {u : U} {known : Prop} (h : Only n b u known) (x y : B)
    (q : List (SyncMsg U B T))
    (hq : ∀ m ∈ q, entryOf u m = none ∨ (known ∧ entryOf u m = some ⟨1, some b⟩)) :
    Only (n.setCh x y q) b u known := by
  refine ⟨h.ident, h.dident, h.tab, h.task, ?_, h.here⟩
  intro x' y' m hm
  simp only [setCh] at hm
  split at hm
  · exact hq m hm
  · exact h.ch x' y' m hm

theorem only_tasks {n : MNet U B T H} {b : B} {u : U} {known : Prop} (h : Only n b u known)
    (ts : List (SyncTask U B T))
    (hq : ∀ τ ∈ ts, entryOf u τ.msg = none ∨ (known ∧ entryOf u τ.msg = some ⟨1, some b⟩)) :
    Only { n with tasks := ts } b u known :=
  ⟨h.ident, h.dident, h.tab, hq, h.ch, h.here⟩

theorem only_spawn {n : MNet U B T H} {b : B} {u : U} {known : Prop} (h : Only n b u known)
    (τ : SyncTask U B T) (hq : entryOf u τ.msg = none ∨ (known ∧ entryOf u τ.msg = some ⟨1, some b⟩)) :
    Only (n.spawn τ) b u known :=
  only_tasks h _ (by
    intro σ hσ
    rcases List.mem_append.1 hσ with h1 | h1
    · exact h.task σ h1
    · simp only [List.mem_singleton] at h1; subst h1; exact hq)

theorem only_set {n : MNet U B T H} {b : B} {u : U} {known : Prop} (h : Only n b u known) (i : Nat)
    (here : B) (m : SyncMsg U B T) (d d' : Option (List B)) (hi : n.tasks[i]? = some ⟨here, m, d⟩) :
    Only { n with tasks := n.tasks.set i ⟨here, m, d'⟩ } b u known :=
  only_tasks h _ (by
    intro σ hσ
    rcases List.mem_or_eq_of_mem_set hσ with h1 | rfl
    · exact h.task σ h1
    · exact h.task ⟨here, m, d⟩ (List.mem_of_getElem? hi))

theorem only_step {n : MNet U B T H} {b : B} {u : U} {known : Prop} (hmax : ∀ b', ¬ b < b')
    (h : Only n b u known) (l : MLabel U B T H) (hl : ¬ Connects u l) (hd : l ≠ .disconnect b u)
    (hr : known → l ≠ .restart b) : Only (n.step l) b u known := by
  cases l with
  | connect x u' hd ts =>
    exact only_act hmax h x _ (by intro h' ts' e; cases e; exact hl rfl) (by simp) (by simp)
  | disconnect x u' =>
    exact only_act hmax h x _ (by simp) (by rintro rfl e; cases e; exact hd rfl) (by simp)
  | subscribe x u' ts => exact only_act hmax h x (.subscribeUser u' ts) (by simp) (by simp) (by simp)
  | unsubscribe x u' ts => exact only_act hmax h x (.unsubscribeUser u' ts) (by simp) (by simp) (by simp)
  | startTopic x =>
    have h1 := only_act hmax h x .partialTopicSync (by simp) (by simp) (by simp)
    simp only [MNet.step]; split
    · exact h1
    · exact only_spawn h1 _ (Or.inl rfl)
  | startUser x =>
    have h1 := only_act hmax h x .partialUserSync (by simp) (by simp) (by simp)
    simp only [MNet.step]; split
    · exact h1
    · rename_i m hm
      apply only_spawn h1
      have h2 := UNet.sync_msg (n.st x) u
      rw [hm] at h2
      show m.map.get u = none ∨ (known ∧ m.map.get u = _)
      have h3 : m.map.get u = if (UNet.view (n.st x) u).m then (n.st x).direct.map.get u else none := h2
      rw [h3]; split
      · exact h.tab x
      · exact Or.inl rfl
  | readDests i =>
    simp only [MNet.step]; split
    · rename_i x m hi; exact only_set h i x m _ _ hi
    · exact h
  | send i ok =>
    simp only [MNet.step]; split
    · rename_i x m d ds hi
      have h1 := only_set h i x m _ (some ds) hi
      split
      · split
        · apply only_setCh h1
          intro m' hm'
          rcases List.mem_append.1 hm' with h2 | h2
          · exact h.ch _ _ m' h2
          · simp only [List.mem_singleton] at h2; subst h2
            exact h.task _ (List.mem_of_getElem? hi)
        · exact only_setCh (only_act hmax h1 x (.removeBroker d) (by simp) (by simp) (by simp)) _ _ _ (by simp)
      · exact h1
    · exact h
  | linkUp x y c c' =>
    simp only [MNet.step]; split
    · exact h
    · have h1 := only_act hmax h x (.addBroker y c) (by simp) (by simp) (by simp)
      have h2 := only_act hmax h1 y (.addBroker x c') (by simp) (by simp) (by simp)
      have h3 := only_setCh (only_setCh h2 x y [] (by simp)) y x [] (by simp)
      exact ⟨h3.ident, h3.dident, h3.tab, h3.task, h3.ch, h3.here⟩
  | fullTopic x y =>
    simp only [MNet.step]; split
    · have h1 : Only { n with fullT := n.fullT.erase (x, y) } b u known :=
        ⟨h.ident, h.dident, h.tab, h.task, h.ch, h.here⟩
      split
      · exact h1
      · exact only_spawn h1 _ (Or.inl rfl)
    · exact h
  | fullUser x y =>
    simp only [MNet.step]; split
    · have h1 : Only { n with fullU := n.fullU.erase (x, y) } b u known :=
        ⟨h.ident, h.dident, h.tab, h.task, h.ch, h.here⟩
      split
      · exact h1
      · rename_i m hm
        apply only_spawn h1
        unfold getFullUserSync at hm
        split at hm
        · cases hm
        · cases hm; exact h.tab x
    · exact h
  | drop x y =>
    exact only_setCh (only_act hmax h x (.removeBroker y) (by simp) (by simp) (by simp)) _ _ _ (by simp)
  | deliver x y =>
    simp only [MNet.step]; split
    · split
      · exact h
      · rename_i m rest hq
        refine only_setCh (only_act hmax h y (.applyUserSync m) (by simp) (by simp) ?_) _ _ _ ?_
        · rintro m' e; cases e
          exact h.ch x y (.user m) (by rw [hq]; simp)
        · intro m' hm'; exact h.ch x y m' (by rw [hq]; simp [hm'])
      · rename_i m rest hq
        refine only_setCh (only_act hmax h y (.applyTopicSync x m) (by simp) (by simp) (by simp)) _ _ _ ?_
        intro m' hm'; exact h.ch x y m' (by rw [hq]; simp [hm'])
    · exact h
  | restart x =>
    have hst : ∀ y, (n.step (.restart x)).st y = if y = x then Conns.new x else n.st y := fun _ => rfl
    refine ⟨?_, ?_, ?_, ?_, ?_, ?_⟩
    · intro y; rw [hst]; split
      · rename_i e; subst e; rfl
      · exact h.ident y
    · intro y; rw [hst]; split
      · rename_i e; subst e; rfl
      · exact h.dident y
    · intro y; rw [hst]; split
      · left; simp [Conns.new, VMap.new]
      · exact h.tab y
    · intro τ hτ; exact h.task τ (List.mem_filter.1 hτ).1
    · intro y z m hm
      simp only [MNet.step] at hm
      split at hm
      · cases hm
      · exact h.ch y z m hm
    · intro k
      have hne : b ≠ x := by rintro rfl; exact hr k rfl
      unfold At
      rw [hst, if_neg hne]; exact h.here k

theorem only_run {b : B} {u : U} {known : Prop} (hmax : ∀ b', ¬ b < b') (ls : List (MLabel U B T H))
    (n : MNet U B T H) (h : Only n b u known)
    (hl : ∀ l ∈ ls, ¬ Connects u l ∧ l ≠ .disconnect b u) (hr : known → ∀ l ∈ ls, l ≠ .restart b) :
    Only (n.run ls) b u known := by
  induction ls generalizing n with
  | nil => exact h
  | cons l ls ih =>
    have h1 := hl l (by simp)
    exact ih (n.step l) (only_step hmax h l h1.1 h1.2 (fun k => hr k l (by simp)))
      (fun l' h' => hl l' (by simp [h'])) (fun k l' h' => hr k l' (by simp [h']))

/-- **C73, partial.** What holds of `StaysConnected`: a user who connects once, to the broker with the
greatest identity, stays connected until their connection ends or the broker is restarted, whatever links
come and go, whichever other brokers are restarted, in whatever order syncs are sent, and whichever other
users come and go. Missing: users of the other brokers, for
whom the claim is false (`C73_false`). -/
theorem C73_greatest_stays_partial (l1 l2 : List (MLabel U B T H)) (b : B) (hmax : ∀ b', ¬ b < b')
    (u : U) (h : H) (ts : List T) (hl : ∀ l ∈ l1 ++ l2, ¬ Connects u l ∧ l ≠ .disconnect b u)
    (hr : ∀ l ∈ l2, l ≠ .restart b) :
    At ((start : MNet U B T H).run (l1 ++ .connect b u h ts :: l2)) b u := by
  have h0 : Only (start : MNet U B T H) b u False :=
    ⟨fun _ => rfl, fun _ => rfl, fun _ => Or.inl rfl, by simp [start], by simp [start], False.elim⟩
  have h1 := only_run hmax l1 _ h0 (fun l hl' => hl l (by simp [hl'])) False.elim
  rw [Mesh.run_append]
  generalize (start : MNet U B T H).run l1 = n at h1
  have h2 : Only (n.step (.connect b u h ts)) b u True := by
    have hnone : ∀ x, (n.st x).direct.map.get u = none := fun x => (h1.tab x).resolve_right (fun c => c.1)
    have hv := UNet.view_addUser (n.st b) u h ts
    have he : ((n.st b).addUser u h ts).direct.map.get u = some ⟨1, some b⟩ := by
      have := congrArg UNet.View.e hv
      rw [UNet.addV, h1.ident] at this
      refine (show _ = _ from this).trans ?_
      simp [UNet.nextVer, UNet.view, hnone]
    refine ⟨identity_act n b _ h1.ident, ?_, ?_, ?_, ?_, ?_⟩
    · intro x; simp only [MNet.step]; rw [st_act]; split
      · rename_i e; subst e; rw [direct_ident_step]; exact h1.dident _
      · exact h1.dident x
    · intro x; simp only [MNet.step]; rw [st_act]; split
      · exact Or.inr ⟨trivial, he⟩
      · exact Or.inl (hnone x)
    · intro τ hτ; exact Or.inl ((h1.task τ hτ).resolve_right (fun c => c.1))
    · intro x y m hm; exact Or.inl ((h1.ch x y m hm).resolve_right (fun c => c.1))
    · intro _
      unfold At getUserConnection
      simp only [MNet.step]; rw [st_act_self]
      exact ⟨he, congrArg UNet.View.c hv⟩
  exact ((only_run hmax l2 _ h2 (fun l hl' => hl l (by simp [hl'])) (fun _ => hr)).here trivial).2

/-- A run as in `echo` and `reconnect`, with the user at the greater of two brokers. -/
def echoGreatest : List (MLabel Nat (Fin 2) Nat Nat) :=
  [.startUser 1, .readDests 0, .send 0 true, .deliver 1 0, .fullUser 0 1, .send 1 true, .deliver 0 1,
   .drop 0 1, .drop 1 0, .linkUp 0 1 105 106, .fullUser 0 1, .send 2 true, .deliver 0 1,
   .restart 0, .linkUp 0 1 107 108, .fullUser 1 0, .send 1 true, .deliver 1 0]

example : (∀ b' : Fin 2, ¬ 1 < b') ∧
    (∀ l ∈ [.restart 1, .linkUp 0 1 100 101] ++ echoGreatest, ¬ Connects 7 l ∧ l ≠ .disconnect 1 7) ∧
    ∀ l ∈ echoGreatest, l ≠ .restart 1 := by
  refine ⟨by decide, ?_, ?_⟩
  · intro l hl
    simp only [echoGreatest, List.cons_append, List.nil_append, List.mem_cons, List.not_mem_nil, or_false] at hl
    rcases hl with rfl | rfl | rfl | rfl | rfl | rfl | rfl | rfl | rfl | rfl | rfl | rfl | rfl | rfl | rfl |
      rfl | rfl | rfl | rfl | rfl <;> exact ⟨id, by simp⟩
  · intro l hl
    simp only [echoGreatest, List.mem_cons, List.not_mem_nil, or_false] at hl
    rcases hl with rfl | rfl | rfl | rfl | rfl | rfl | rfl | rfl | rfl | rfl | rfl | rfl | rfl | rfl | rfl |
      rfl | rfl | rfl <;> simp

def afterEcho (k : Nat) : MNet Nat (Fin 2) Nat Nat :=
  (start : MNet Nat (Fin 2) Nat Nat).run ([.restart 1, .linkUp 0 1 100 101, .connect 1 7 102 []] ++ echoGreatest.take k)

/-- Broker 0 does repeat the entry to broker 1, twice; restarted, it forgets it and is told again. -/
example : ((afterEcho 6).ch 0 1).map (entryOf 7) = [some ⟨1, some 1⟩] ∧
    ((afterEcho 12).ch 0 1).map (entryOf 7) = [some ⟨1, some 1⟩] ∧
    (afterEcho 13).ch 0 1 = [] ∧ At (afterEcho 13) 1 7 ∧
    ((afterEcho 14).st 0).getBrokerOfUser 7 = none ∧ ((afterEcho 18).st 0).getBrokerOfUser 7 = some 1 ∧
    At (afterEcho 18) 1 7 := by
  unfold At
  refine ⟨by decide +kernel, by decide +kernel, by rfl, by decide +kernel, by decide +kernel,
    by decide +kernel, by decide +kernel⟩

/-! ## C74 -/

/-- Everything about users has been announced and has arrived, between `b` and `b'`. -/
structure UsersSettled (n : MNet U B T H) (b b' : B) : Prop where
  announced : (n.st b).getPartialUserSync.2 = none
  initial : (b, b') ∉ n.fullU
  sent : ∀ τ ∈ n.tasks, τ.here = b → ¬ IsTopic τ.msg → ∃ ds, τ.dests = some ds ∧ b' ∉ ds
  arrived : ∀ m ∈ n.ch b b', IsTopic m

/-- The claim of C74, for the runs satisfying `P`: of two linked brokers between which nothing is left to
be said, the one forwards messages for a user to the other if the user is connected there, and only
then. -/
def LinkedAgree {U B T H : Type} [DecidableEq U] [DecidableEq B] [DecidableEq T] [DecidableEq H]
    [LT B] [DecidableLT B] (P : List (MLabel U B T H) → Prop) : Prop :=
  ∀ (ls : List (MLabel U B T H)) (b b' : B), P ls →
    Linked ((start : MNet U B T H).run ls) b b' →
    UsersSettled ((start : MNet U B T H).run ls) b b' →
    UsersSettled ((start : MNet U B T H).run ls) b' b → ∀ u,
      ((((start : MNet U B T H).run ls).st b').getBrokerOfUser u = some b ↔
        At ((start : MNet U B T H).run ls) b u)

/-- No link fails and no broker is restarted. -/
def NoLinkFails (ls : List (MLabel U B T H)) : Prop :=
  ∀ l ∈ ls, (∀ b b', l ≠ .drop b b') ∧ (∀ i, l ≠ .send i false) ∧ ∀ b, l ≠ .restart b

/-- Three brokers. User 7 is connected to broker 1, and everybody knows. Broker 1's link to broker 2
fails; the user leaves broker 1, of which only broker 0 is told, and connects to broker 0, which announces
it with the first version again. Broker 2 holds the same version already and has the greater identity. -/
def lostLink : List (MLabel Nat Nat Nat Nat) :=
  [.linkUp 0 1 100 101, .linkUp 1 2 102 103, .linkUp 0 2 104 105,
   .fullUser 0 1, .fullUser 1 0, .fullUser 1 2, .fullUser 2 1, .fullUser 0 2, .fullUser 2 0,
   .connect 1 7 106 [], .startUser 1, .readDests 0, .send 0 true, .send 0 true, .deliver 1 0, .deliver 1 2,
   .drop 1 2, .drop 2 1,
   .disconnect 1 7, .startUser 1, .readDests 1, .send 1 true, .deliver 1 0,
   .connect 0 7 107 [], .startUser 0, .readDests 2, .send 2 true, .send 2 true, .deliver 0 1, .deliver 0 2]

/-- Two brokers whose link never fails. User 7 is connected to broker 0, and broker 1 knows. The user leaves
and comes back; broker 0 announces both, but the second announcement is sent first. -/
def overtaken : List (MLabel Nat Nat Nat Nat) :=
  [.linkUp 0 1 100 101, .fullUser 0 1, .fullUser 1 0,
   .connect 0 7 102 [], .startUser 0, .readDests 0, .send 0 true, .deliver 0 1,
   .disconnect 0 7, .startUser 0, .connect 0 7 103 [], .startUser 0,
   .readDests 1, .readDests 2, .send 2 true, .send 1 true, .deliver 0 1, .deliver 0 1]

/-- Is everything about users announced and sent and delivered, as a computation. -/
def settledB (n : MNet Nat Nat Nat Nat) (b b' : Nat) : Bool :=
  (n.st b).getPartialUserSync.2.isNone && !n.fullU.contains (b, b') &&
  n.tasks.all (fun τ => τ.dests == some []) && (n.ch b b').isEmpty

theorem settledB_sound (n : MNet Nat Nat Nat Nat) (b b' : Nat) (h : settledB n b b' = true) :
    UsersSettled n b b' := by
  simp only [settledB, Bool.and_eq_true, Option.isNone_iff_eq_none, Bool.not_eq_true',
    List.contains_eq_mem, decide_eq_false_iff_not, List.all_eq_true, beq_iff_eq, List.isEmpty_iff] at h
  obtain ⟨⟨⟨h1, h2⟩, h3⟩, h4⟩ := h
  refine ⟨h1, h2, fun τ hτ _ _ => ⟨[], h3 τ hτ, by simp⟩, by rw [h4]; simp⟩

/-- **C74 does not hold** when links fail, even between two brokers whose own link never failed: after
`lostLink` brokers 0 and 2 are linked and have nothing left to tell each other, the user is connected to
broker 0, and broker 2 keeps forwarding the user's messages to broker 1. -/
theorem C74_false : ¬ LinkedAgree (fun _ : List (MLabel Nat Nat Nat Nat) => True) := by
  intro h
  have := (h lostLink 0 2 trivial ⟨by decide +kernel, by decide +kernel⟩
    (settledB_sound _ _ _ (by decide +kernel)) (settledB_sound _ _ _ (by decide +kernel)) 7).2
    (by unfold At; decide +kernel)
  revert this
  decide +kernel

/-- **C74 does not hold** even if no link ever fails: after `overtaken` the user is connected to broker 0,
and broker 1 does not know them. -/
theorem C74_false_stable_links : ¬ LinkedAgree (NoLinkFails (U := Nat) (B := Nat) (T := Nat) (H := Nat)) := by
  intro h
  have := (h overtaken 0 1 (by
    intro l hl
    simp only [overtaken, List.mem_cons, List.not_mem_nil, or_false] at hl
    rcases hl with rfl | rfl | rfl | rfl | rfl | rfl | rfl | rfl | rfl | rfl | rfl | rfl | rfl | rfl | rfl |
      rfl | rfl | rfl <;> exact ⟨by simp, by simp, by simp⟩) ⟨by decide +kernel, by decide +kernel⟩
    (settledB_sound _ _ _ (by decide +kernel)) (settledB_sound _ _ _ (by decide +kernel)) 7).2
    (by unfold At; decide +kernel)
  revert this
  decide +kernel

example : (((start : MNet Nat Nat Nat Nat).run lostLink).st 2).getBrokerOfUser 7 = some 1 ∧
    (((start : MNet Nat Nat Nat Nat).run overtaken).st 1).getBrokerOfUser 7 = none := by
  decide +kernel

end Verif.Props.MeshUsers

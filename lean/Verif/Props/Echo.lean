import Verif.Props.BrokerFrames
import Verif.Props.Agree

/-!
# Property C119: what a user's own messages bring back to them

One connection of one user, from its registration on, against everything the broker's other tasks do to the table: they run
between two frames, and between any two sends of one frame. Which of the user's own messages are handed back to them is read off
the sequence of the frames alone.
-/

set_option linter.unusedSectionVars false

namespace Verif.Props.Echo
open Verif Verif.Conns Verif.Broker Verif.Props.Broker Verif.Props.Agree

variable {B H σ : Type} [DecidableEq B] [DecidableEq H] [LT B] [DecidableLT B]

/-! ## Specification -/

/-- The topics the user is subscribed to after a message of theirs. -/
def tune (valid : Topic → Bool) (S : Topic → Bool) : Msg → Topic → Bool
  | .subscribe ts => fun t => S t || (ts.contains t && valid t)
  | .unsubscribe ts => fun t => S t && !(ts.contains t && valid t)
  | _ => S

/-- Is this message of the user's for the user themself? A broadcast on a topic they are subscribed to at that moment, or a direct
message under their own key. -/
def forMe (valid : Topic → Bool) (u : Bytes) (S : Topic → Bool) : Msg → Bool
  | .broadcast ts _ => ts.any fun t => valid t && S t
  | .direct r _ => r = u
  | _ => false

/-- Those of the frames that are for the sender themself, in order. -/
def echoes (decode : Bytes → Option Msg) (valid : Topic → Bool) (u : Bytes) : (Topic → Bool) → List Bytes → List Bytes
  | _, [] => []
  | S, raw :: rest =>
    match decode raw with
    | none => []
    | some m => (if forMe valid u S m then [raw] else []) ++ echoes decode valid u (tune valid S m) rest

/-- A call by a task that does not act for the user `u`: it does not register `u` and does not change their subscriptions. (It may
remove the user.) -/
def Foreign (u : Bytes) : TOp B H → Prop
  | .addUser u' _ _ | .subscribeUser u' _ | .unsubscribeUser u' _ => u' ≠ u
  | _ => True

/-- Everything that happens around one received frame is done by such tasks. -/
def Others (u : Bytes) (r : Recv B H) : Prop :=
  (∀ o ∈ r.idle, Foreign u o) ∧ ∀ n, (∀ o ∈ (r.sch n).before, Foreign u o) ∧ ∀ o ∈ (r.sch n).between, Foreign u o

/-- What the loop has sent to the user on whose connection it runs. -/
def toSelf (u : Bytes) (l : LoopOut B H σ) : List (Sent B H) := l.sent.flatMap fun g => g.2.filter fun x => x.dest = .user u

/-! ## Proofs -/

theorem conn_back_step (u : Bytes) (c : H) (s : Table B H) (o : TOp B H) (ho : ∀ h ts, o ≠ .addUser u h ts)
    (h : (s.step o).users.get u = some c) : s.users.get u = some c := by
  cases o with
  | addUser u' h' ts =>
    have e : u' ≠ u := fun e => ho h' ts (by rw [e])
    simpa [step, addUser, AMap.get_insert, e, removeUser_users_get] using h
  | removeUser u' =>
    simp only [step, removeUser_users_get] at h
    split at h
    · cases h
    · exact h
  | addBroker b h' => simpa [step, addBroker] using h
  | removeBroker b => simpa [step] using h
  | subscribeUser | unsubscribeUser | subscribeBroker | unsubscribeBroker => exact h
  | applyUserSync m =>
    simp only [step, applyUserSync] at h
    rw [foldl_removeUser_users_get] at h
    split at h
    · cases h
    · exact h
  | applyTopicSync b m =>
    simp only [step, applyTopicSync] at h
    split at h
    · simpa using h
    · rw [(foldl_applyTopicChange_frame _ b _).2.1] at h
      exact h
  | partialUserSync =>
    simp only [step, getPartialUserSync] at h
    exact h
  | partialTopicSync =>
    simp only [step, getPartialTopicSync] at h
    split at h <;> exact h

theorem Foreign.noAdd {u : Bytes} {ops : List (TOp B H)} (h : ∀ o ∈ ops, Foreign u o) : ∀ o ∈ ops, ∀ h ts, o ≠ .addUser u h ts := by
  intro o ho hd ts e
  have := h o ho
  rw [e] at this
  exact this rfl

theorem conn_back (u : Bytes) (c : H) (ops : List (TOp B H)) (s : Table B H) (ho : ∀ o ∈ ops, ∀ h ts, o ≠ .addUser u h ts)
    (h : (s.run ops).users.get u = some c) : s.users.get u = some c := by
  induction ops generalizing s with
  | nil => exact h
  | cons o ops ih =>
    rw [run_cons] at h
    exact conn_back_step u c s o (ho o (by simp)) (ih _ (fun o' h' => ho o' (by simp [h'])) h)

theorem wanted_foreign (u : Bytes) (ops : List (TOp B H)) (ho : ∀ o ∈ ops, Foreign u o) (acc : Topic → Prop) :
    wanted u ops acc = acc := by
  induction ops with
  | nil => rfl
  | cons o ops ih =>
    have h1 := ho o (by simp)
    have ih := ih (fun o' h' => ho o' (by simp [h']))
    cases o <;> simp only [wanted] <;> first | exact ih | (rw [if_neg h1]; exact ih)

/-- The calls made while a list of sends is worked off. -/
theorem trySends_calls (u : Bytes) (s : Table B H) (raw : Bytes) (sch : Sched B H) (ds : List (Dest B))
    (ho : ∀ n, (∀ o ∈ (sch n).before, Foreign u o) ∧ ∀ o ∈ (sch n).between, Foreign u o) :
    ∃ ops : List (TOp B H), (∀ o ∈ ops, Foreign u o) ∧ (trySends s raw sch ds).1 = s.run ops := by
  induction ds generalizing s sch with
  | nil => exact ⟨[], by simp, rfl⟩
  | cons d ds ih =>
    have h1 : ∃ ops : List (TOp B H), (∀ o ∈ ops, Foreign u o) ∧ (trySend s d raw (sch 0)).1 = s.run ops := by
      rw [trySend_eq]
      cases connOf (s.run (sch 0).before) d with
      | none => exact ⟨_, (ho 0).1, rfl⟩
      | some c =>
        simp only
        split
        · exact ⟨_, (ho 0).1, rfl⟩
        · cases d with
          | user u' =>
            refine ⟨(sch 0).before ++ (sch 0).between ++ [.removeUser u'], ?_, ?_⟩
            · intro o h
              simp only [List.mem_append, List.mem_singleton] at h
              rcases h with (h | h) | h
              · exact (ho 0).1 o h
              · exact (ho 0).2 o h
              · subst h; trivial
            · simp only [run, List.foldl_append, List.foldl_cons, List.foldl_nil]; rfl
          | broker b =>
            refine ⟨(sch 0).before ++ (sch 0).between ++ [.removeBroker b], ?_, ?_⟩
            · intro o h
              simp only [List.mem_append, List.mem_singleton] at h
              rcases h with (h | h) | h
              · exact (ho 0).1 o h
              · exact (ho 0).2 o h
              · subst h; trivial
            · simp only [run, List.foldl_append, List.foldl_cons, List.foldl_nil]; rfl
    obtain ⟨o1, f1, e1⟩ := h1
    obtain ⟨o2, f2, e2⟩ := ih (trySend s d raw (sch 0)).1 (fun n => sch (n + 1)) (fun n => ho (n + 1))
    refine ⟨o1 ++ o2, ?_, ?_⟩
    · intro o h
      rcases List.mem_append.1 h with h | h
      · exact f1 o h
      · exact f2 o h
    · simp only [trySends]
      rw [e2, e1]
      simp only [run, List.foldl_append]

/-- A user among the destinations who is still connected afterwards has got their copy. -/
theorem trySends_self (u : Bytes) (c : H) (s : Table B H) (raw : Bytes) (sch : Sched B H) (ds : List (Dest B)) (hnd : ds.Nodup)
    (ho : ∀ n, (∀ o ∈ (sch n).before, Foreign u o) ∧ ∀ o ∈ (sch n).between, Foreign u o)
    (hend : (trySends s raw sch ds).1.users.get u = some c) (hm : Dest.user u ∈ ds) :
    copies (trySends s raw sch ds).2 (.user u) = [⟨.user u, c, raw, true⟩] := by
  induction ds generalizing s sch with
  | nil => cases hm
  | cons d ds ih =>
    rw [List.nodup_cons] at hnd
    simp only [trySends] at hend ⊢
    rw [copies_append]
    by_cases hd : d = .user u
    · subst hd
      rw [copies_nil_of_not_mem _ _ _ _ _ hnd.1, List.append_nil]
      obtain ⟨o2, f2, e2⟩ := trySends_calls u (trySend s (.user u) raw (sch 0)).1 raw (fun n => sch (n + 1)) ds (fun n => ho (n + 1))
      rw [e2] at hend
      have hc := conn_back u c o2 _ (Foreign.noAdd f2) hend
      rw [trySend_eq] at hc ⊢
      cases hg : connOf (s.run (sch 0).before) (.user u) with
      | none =>
        rw [hg] at hc
        simp only [connOf, getUserConnection] at hg hc
        rw [hg] at hc; cases hc
      | some c' =>
        rw [hg] at hc
        simp only at hc ⊢
        cases hok : (sch 0).ok with
        | false =>
          rw [hok] at hc
          simp [drop, removeUser_users_get] at hc
        | true =>
          rw [hok] at hc
          simp only [if_true] at hc ⊢
          simp only [connOf, getUserConnection] at hg
          rw [hg] at hc
          cases hc
          simp [copies]
    · have hm' : Dest.user u ∈ ds := by
        rcases List.mem_cons.1 hm with h | h
        · exact absurd h.symm hd
        · exact h
      have : copies (trySend s d raw (sch 0)).2 (.user u) = [] := by
        rw [trySend_sent]
        cases connOf (s.run (sch 0).before) d with
        | none => simp [copies]
        | some c => simp [copies, hd]
      rw [this, List.nil_append]
      exact ih _ _ hnd.2 (fun n => ho (n + 1)) hend hm'

/-- The calls made while a frame of the user is handled. -/
theorem frame_calls (cfg : Cfg B σ) (s : Table B H) (h : σ) (u raw : Bytes) (sch : Sched B H)
    (ho : ∀ n, (∀ o ∈ (sch n).before, Foreign u o) ∧ ∀ o ∈ (sch n).between, Foreign u o) :
    ∃ ops : List (TOp B H), (∀ o ∈ ops, ∀ h ts, o ≠ .addUser u h ts) ∧ (userFrame cfg s h u raw sch).table = s.run ops := by
  have sends : ∀ ds : List (Dest B), ∃ ops : List (TOp B H), (∀ o ∈ ops, ∀ h ts, o ≠ .addUser u h ts) ∧
      (trySends s raw sch ds).1 = s.run ops := fun ds => by
    obtain ⟨ops, f, e⟩ := trySends_calls u s raw sch ds ho
    exact ⟨ops, Foreign.noAdd f, e⟩
  have nothing : ∃ ops : List (TOp B H), (∀ o ∈ ops, ∀ h ts, o ≠ .addUser u h ts) ∧ s = s.run ops := ⟨[], by simp, rfl⟩
  unfold userFrame
  split
  · exact nothing
  · simp only
    split
    · exact nothing
    · exact nothing
    · split
      · exact sends _
      · split
        · exact sends _
        · exact nothing
      · split
        · exact ⟨[.subscribeUser u _], by simp, rfl⟩
        · exact nothing
      · split
        · exact ⟨[.unsubscribeUser u _], by simp, rfl⟩
        · exact nothing
      · exact nothing

/-- One frame of the user that keeps the connection: the calls made, and what is sent to the user. -/
theorem frame_self (cfg : Cfg B σ) (hh : NoHook cfg) (id : B) (s : Table B H) (hs : ∃ ops, s = (Conns.new id).run ops) (h : σ)
    (u raw : Bytes) (sch : Sched B H) (S : Topic → Bool) (c : H) (m : Msg) (hd : cfg.decode raw = some m)
    (ho : ∀ n, (∀ o ∈ (sch n).before, Foreign u o) ∧ ∀ o ∈ (sch n).between, Foreign u o)
    (hS : ∀ t, s.bcUsers.Bwd u t ↔ S t = true)
    (hok : (userFrame cfg s h u raw sch).ok = true)
    (hend : (userFrame cfg s h u raw sch).table.users.get u = some c) :
    s.users.get u = some c ∧
    (∃ ops, (userFrame cfg s h u raw sch).table = (Conns.new id).run ops) ∧
    (∀ t, (userFrame cfg s h u raw sch).table.bcUsers.Bwd u t ↔ tune cfg.valid S m t = true) ∧
    copies (userFrame cfg s h u raw sch).sent (.user u) = if forMe cfg.valid u S m then [⟨.user u, c, raw, true⟩] else [] := by
  have hi : s.IndexInv := by
    obtain ⟨ops, rfl⟩ := hs
    exact indexInv_run _ ⟨RMap.inv_new, RMap.inv_new⟩ ops
  have e1 : (cfg.userHook h m).2.2 = .process := by rw [hh h m]
  have e2 : (cfg.userHook h m).2.1 = m := by rw [hh h m]
  -- sends of a frame
  have sends : ∀ ds : List (Dest B), ds.Nodup → (trySends s raw sch ds).1.users.get u = some c →
      s.users.get u = some c ∧ (∃ ops, (trySends s raw sch ds).1 = (Conns.new id).run ops) ∧
      (∀ t, (trySends s raw sch ds).1.bcUsers.Bwd u t ↔ S t = true) ∧
      copies (trySends s raw sch ds).2 (.user u) = if Dest.user u ∈ ds then [⟨.user u, c, raw, true⟩] else [] := by
    intro ds hnd he
    obtain ⟨ops, f, e⟩ := trySends_calls u s raw sch ds ho
    have hc : s.users.get u = some c := conn_back u c ops s (Foreign.noAdd f) (e ▸ he)
    refine ⟨hc, ?_, ?_, ?_⟩
    · obtain ⟨ops0, rfl⟩ := hs
      exact ⟨ops0 ++ ops, by rw [e]; simp only [run, List.foldl_append]⟩
    · intro t
      rw [e] at he ⊢
      have := wanted_run u ops s hi (fun t => S t = true) (fun _ => hS) (by rw [he]; rfl) t
      rw [this, wanted_foreign u ops f]
    · split
      · rename_i hm
        exact trySends_self u c s raw sch ds hnd ho he hm
      · rename_i hm
        exact copies_nil_of_not_mem _ _ _ _ _ hm
  cases m with
  | direct r body =>
    simp only [userFrame, hd, e1, e2, handleDirect] at hend ⊢
    have hnd : (directDests s r false).Nodup := by
      unfold directDests
      split
      · simp
      · split <;> simp
    obtain ⟨a1, a2, a3, a4⟩ := sends _ hnd hend
    refine ⟨a1, a2, a3, ?_⟩
    rw [a4]
    obtain ⟨ops0, rfl⟩ := hs
    have h8 := Props.Connections.C08_routed_iff_connected id ops0 u
    rw [show ((Conns.new id : Table B H).run ops0).getUserConnection u = some c from a1] at h8
    have h8 := h8.2 rfl
    have hid : ((Conns.new id : Table B H).run ops0).identity = id := identity_run _ _
    have hmem : Dest.user u ∈ directDests ((Conns.new id : Table B H).run ops0) r false ↔ r = u := by
      constructor
      · intro h'
        unfold directDests at h'
        split at h'
        · cases h'
        · split at h'
          · simp at h'; exact h'.symm
          · simp at h'
      · rintro rfl
        unfold directDests
        rw [h8, hid]
        simp
    simp only [hmem, forMe, decide_eq_true_eq]
  | broadcast ts body =>
    simp only [userFrame, hd, e1, e2, handleBroadcast] at hok hend ⊢
    cases hp : (prune cfg.valid ts).2 with
    | false => rw [hp] at hok; simp at hok
    | true =>
      simp only [hp, if_true] at hend ⊢
      obtain ⟨a1, a2, a3, a4⟩ := sends _ (nodup_broadcastDests s _ _) hend
      refine ⟨a1, a2, a3, ?_⟩
      rw [a4]
      have hmem : Dest.user u ∈ broadcastDests s (prune cfg.valid ts).1 false ↔ forMe cfg.valid u S (.broadcast ts body) = true := by
        rw [user_mem_broadcastDests]
        simp only [forMe, List.any_eq_true, Bool.and_eq_true, prune_mem, RMap.mem_getKeysByValue, hS, and_assoc]
      simp only [hmem]
  | subscribe ts =>
    simp only [userFrame, hd, e1, e2] at hok hend ⊢
    cases hp : (prune cfg.valid ts).2 with
    | false => rw [hp] at hok; simp at hok
    | true =>
      simp only [hp, if_true] at hend ⊢
      have hc : s.users.get u = some c := hend
      refine ⟨hc, ?_, ?_, ?_⟩
      · obtain ⟨ops0, rfl⟩ := hs
        exact ⟨ops0 ++ [.subscribeUser u (prune cfg.valid ts).1], by simp only [run, List.foldl_append]; rfl⟩
      · intro t
        have := wanted_run u [.subscribeUser u (prune cfg.valid ts).1] s hi (fun t => S t = true) (fun _ => hS)
          (by show ((s.subscribeUser u _).users.get u).isSome; rw [hend]; rfl) t
        rw [show s.run [.subscribeUser u (prune cfg.valid ts).1] = s.subscribeUser u (prune cfg.valid ts).1 from rfl] at this
        rw [this]
        simp [wanted, tune, prune_mem]
      · simp [copies, forMe]
  | unsubscribe ts =>
    simp only [userFrame, hd, e1, e2] at hok hend ⊢
    cases hp : (prune cfg.valid ts).2 with
    | false => rw [hp] at hok; simp at hok
    | true =>
      simp only [hp, if_true] at hend ⊢
      have hc : s.users.get u = some c := hend
      refine ⟨hc, ?_, ?_, ?_⟩
      · obtain ⟨ops0, rfl⟩ := hs
        exact ⟨ops0 ++ [.unsubscribeUser u (prune cfg.valid ts).1], by simp only [run, List.foldl_append]; rfl⟩
      · intro t
        have := wanted_run u [.unsubscribeUser u (prune cfg.valid ts).1] s hi (fun t => S t = true) (fun _ => hS)
          (by show ((s.unsubscribeUser u _).users.get u).isSome; rw [hend]; rfl) t
        rw [show s.run [.unsubscribeUser u (prune cfg.valid ts).1] = s.unsubscribeUser u (prune cfg.valid ts).1 from rfl] at this
        rw [this]
        simp only [wanted, tune, prune_mem, if_true, Bool.and_eq_true, Bool.not_eq_true', Bool.and_eq_false_iff]
        refine and_congr Iff.rfl ?_
        by_cases h1 : t ∈ ts <;> cases h2 : cfg.valid t <;> simp [h1]
      · simp [copies, forMe]
  | _ => simp [userFrame, hd, e1, e2] at hok

theorem loop_self (cfg : Cfg B σ) (hh : NoHook cfg) (id : B) (u : Bytes) (c : H) (rs : List (Recv B H))
    (ho : ∀ r ∈ rs, Others u r) (s : Table B H) (hs : ∃ ops, s = (Conns.new id).run ops) (h : σ) (S : Topic → Bool)
    (hS : (s.users.get u).isSome → ∀ t, s.bcUsers.Bwd u t ↔ S t = true)
    (hrun : (userLoop cfg s h u rs).running = true) (hend : (userLoop cfg s h u rs).table.users.get u = some c) :
    s.users.get u = some c ∧
    toSelf u (userLoop cfg s h u rs) =
      (echoes cfg.decode cfg.valid u S (rs.filterMap (·.raw))).map fun raw => ⟨.user u, c, raw, true⟩ := by
  induction rs generalizing s h S with
  | nil => exact ⟨hend, rfl⟩
  | cons r rs ih =>
    have hor := ho r (by simp)
    simp only [userLoop] at hrun hend ⊢
    cases hraw : r.raw with
    | none => rw [hraw] at hrun; simp at hrun
    | some raw =>
      simp only [hraw] at hrun hend ⊢
      cases hok : (userFrame cfg (s.run r.idle) h u raw r.sch).ok with
      | false => rw [hok] at hrun; simp at hrun
      | true =>
        simp only [hok, if_true] at hrun hend ⊢
        cases hd : cfg.decode raw with
        | none => simp [userFrame, hd] at hok
        | some m =>
          have hi : s.IndexInv := by
            obtain ⟨ops, rfl⟩ := hs
            exact indexInv_run _ ⟨RMap.inv_new, RMap.inv_new⟩ ops
          have hs1 : ∃ ops, s.run r.idle = (Conns.new id : Table B H).run ops := by
            obtain ⟨ops, rfl⟩ := hs
            exact ⟨ops ++ r.idle, by simp only [run, List.foldl_append]⟩
          obtain ⟨ops, f, e⟩ := frame_calls cfg (s.run r.idle) h u raw r.sch hor.2
          have hS1 : ((s.run r.idle).users.get u).isSome → ∀ t, (s.run r.idle).bcUsers.Bwd u t ↔ S t = true := by
            intro hc t
            rw [wanted_run u r.idle s hi (fun t => S t = true) hS hc t, wanted_foreign u r.idle hor.1]
          have frame := fun c' hc' =>
            frame_self cfg hh id (s.run r.idle) hs1 h u raw r.sch S c' m hd hor.2
              (hS1 (by rw [conn_back u c' ops _ f (e ▸ hc')]; rfl)) hok hc'
          have hs2 : ∃ ops', (userFrame cfg (s.run r.idle) h u raw r.sch).table = (Conns.new id : Table B H).run ops' := by
            obtain ⟨ops1, e1⟩ := hs1
            exact ⟨ops1 ++ ops, by rw [e, e1]; simp only [run, List.foldl_append]⟩
          obtain ⟨i1, i2⟩ := ih (fun r' h' => ho r' (by simp [h'])) _ hs2 _ (tune cfg.valid S m)
            (fun hc => by
              obtain ⟨c', hc'⟩ := Option.isSome_iff_exists.1 hc
              exact (frame c' hc').2.2.1) hrun hend
          obtain ⟨a1, -, -, a4⟩ := frame c i1
          refine ⟨conn_back u c r.idle s (Foreign.noAdd hor.1) a1, ?_⟩
          simp only [toSelf, copies] at i2 a4 ⊢
          simp only [List.flatMap_cons, List.filterMap_cons, hraw, echoes, hd, List.map_append]
          rw [i2, a4]
          split <;> rfl

/-- **C119.** A user registers at a broker with a connection `c` and a list of topics, whatever has happened there before; then
their frames are handled, in order, while the broker's other tasks make any calls on the table between the frames and between the
sends, and any sends fail. If the user is connected at the end, what was sent to them on account of their own messages is: each
broadcast of theirs on a topic that exists and that they were subscribed to when they sent it, by the topics of the registration and
the subscriptions and unsubscriptions before it; and each direct message under their own key. Each was sent once, unchanged, in the
order in which they wrote them, on the connection they registered, and the send succeeded. -/
theorem C119_own_messages (cfg : Cfg B σ) (hh : NoHook cfg) (id : B) (ops : List (TOp B H)) (h : σ) (u : Bytes) (c : H)
    (topics : List Topic) (rs : List (Recv B H)) (ho : ∀ r ∈ rs, Others u r) :
    let l := userLoop cfg (((Conns.new id).run ops).addUser u c topics) h u rs
    l.running = true → (l.table.getUserConnection u).isSome →
    l.table.getUserConnection u = some c ∧
    toSelf u l = (echoes cfg.decode cfg.valid u (fun t => topics.contains t) (rs.filterMap (·.raw))).map
      fun raw => ⟨.user u, c, raw, true⟩ := by
  intro l hrun hend
  obtain ⟨c', hc'⟩ := Option.isSome_iff_exists.1 hend
  have hi : ((Conns.new id : Table B H).run ops).IndexInv := indexInv_run _ ⟨RMap.inv_new, RMap.inv_new⟩ ops
  have hs : ∃ ops', ((Conns.new id : Table B H).run ops).addUser u c topics = (Conns.new id).run ops' :=
    ⟨ops ++ [.addUser u c topics], by simp only [run, List.foldl_append]; rfl⟩
  have hS : (((((Conns.new id : Table B H).run ops).addUser u c topics)).users.get u).isSome → ∀ t,
      (((Conns.new id : Table B H).run ops).addUser u c topics).bcUsers.Bwd u t ↔ (topics.contains t) = true := by
    intro hc t
    simp only [addUser, removeUser_bcUsers, RMap.bwd_associate]
    rw [RMap.bwd_removeKey hi.1]
    simp
  obtain ⟨a1, a2⟩ := loop_self cfg hh id u c' rs ho _ hs h _ hS hrun hc'
  have : c' = c := by
    simpa [addUser, AMap.get_insert] using a1.symm
  subst this
  exact ⟨hc', a2⟩

/-- A codec for the example: the first byte is the kind of message, the second a topic or a key. -/
def toy : Cfg Nat Unit where
  decode
    | [0, t] => some (.subscribe [t])
    | [1, t] => some (.unsubscribe [t])
    | [2, t, x] => some (.broadcast [t] [x])
    | [3, k, x] => some (.direct [k] [x])
    | _ => none
  decUserSync _ := none
  decTopicSync _ := none
  valid t := decide (t < 8)
  userHook h m := (h, m, .process)
  brokerHook h m := (h, m, .process)

/-- Non-trivial instance of C119. User 9 registers for topic 1 at a broker with another user. A broadcast on topic 2 does not come
back; after subscribing to it the next one does, also one whose copy to the other user fails; after unsubscribing the next does not;
their broadcast on topic 1 and their message to themself do; a message to the other user does not. In between another user comes and
another subscribes. -/
example :
    let r : Bytes → Recv Nat Nat := fun raw => ⟨[.subscribeUser [5] [2]], some raw, fun n => ⟨[.addUser [6] 70 [1, 2]], n ≠ 0, []⟩⟩
    let good : Bytes → Recv Nat Nat := fun raw => ⟨[.partialUserSync], some raw, fun _ => ⟨[], true, []⟩⟩
    let rs := [r [2, 2, 40], r [0, 2], good [2, 2, 41], good [2, 1, 42], r [1, 2], r [2, 2, 43], good [3, 9, 44], r [3, 5, 45]]
    let l := userLoop toy (((Conns.new 0).run [.addUser [5] 50 [2], .addUser [9] 60 [2]]).addUser [9] 90 [1]) () [9] rs
    NoHook toy ∧ (∀ x ∈ rs, Others [9] x) ∧ l.running = true ∧ l.table.getUserConnection [9] = some 90 ∧
    (toSelf [9] l).map (·.bytes) = [[2, 2, 41], [2, 1, 42], [3, 9, 44]] := by
  refine ⟨fun _ _ => rfl, ?_, by decide +kernel, by decide +kernel, by decide +kernel⟩
  intro x hx
  simp only [List.mem_cons, List.not_mem_nil, or_false] at hx
  rcases hx with rfl | rfl | rfl | rfl | rfl | rfl | rfl | rfl <;> simp [Others, Foreign]

end Verif.Props.Echo

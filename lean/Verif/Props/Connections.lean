import Verif.Lemmas.Connections

/-!
# Properties C08-C11: the connection table

A history is any list of calls (`Conns.Op`) starting from a new table; the sync maps inside the calls
are arbitrary.
-/

set_option linter.unusedSectionVars false

namespace Verif.Props.Connections
open Verif Verif.Conns

variable {U B T H : Type} [DecidableEq U] [DecidableEq B] [DecidableEq T] [DecidableEq H]
  [LT B] [DecidableLT B]

/-! ## C08 -/

/-- The routing invariant: a user is routed here iff they are connected here. -/
def Routed (s : Conns U B T H) : Prop :=
  ∀ u, s.direct.get u = some s.identity ↔ (s.users.get u).isSome

theorem routed_removeUser (s : Conns U B T H) (h : Routed s) (u : U) : Routed (s.removeUser u) := by
  intro u'
  rw [removeUser_direct_get, removeUser_users_get, removeUser_identity]
  have := h u'
  by_cases hu : u = u'
  · subst hu
    by_cases hd : s.direct.get u = some s.identity
    · simp [hd]
    · simp [hd]
  · simp only [hu, false_and, if_false]; exact this

theorem routed_step (s : Conns U B T H) (op : Op U B T H) (h : Routed s) : Routed (s.step op) := by
  cases op with
  | addUser u hd ts =>
    intro u'
    have h' := routed_removeUser { s with gaugeUsers := s.gaugeUsers + 1 } h u u'
    simp only [step, addUser]
    simp only [VMap.insert, VMap.get_modifyLocal, AMap.get_insert]
    by_cases hu : u = u'
    · simp [hu]
    · simp only [hu, if_false]; exact h'
  | removeUser u => exact routed_removeUser s h u
  | addBroker b hd =>
    intro u
    simp only [step, addBroker, removeBroker_direct, removeBroker_users, removeBroker_identity]
    exact h u
  | removeBroker b =>
    intro u
    simp only [step, removeBroker_direct, removeBroker_users, removeBroker_identity]
    exact h u
  | subscribeUser u ts => exact h
  | unsubscribeUser u ts => exact h
  | subscribeBroker b ts => exact h
  | unsubscribeBroker b ts => exact h
  | applyUserSync m =>
    intro u
    simp only [step, applyUserSync]
    rw [foldl_removeUser_direct_get _ Prod.fst, foldl_removeUser_users_get _ Prod.fst,
      (foldl_removeUser_frame _ Prod.fst _).1]
    by_cases hu : u ∈ ((s.direct.merge m).2).map Prod.fst
    · simp only [hu, true_and, if_true]
      by_cases hd : (s.direct.merge m).1.get u = some s.identity <;> simp [hd]
    · simp only [hu, false_and, if_false]
      have hun : (s.direct.merge m).1.map.get u = s.direct.map.get u := by
        rw [VMap.map_merge]
        cases hr : m.map.get u with
        | none => rfl
        | some e =>
          have : ¬ VMap.takes s.direct.ident m.ident (s.direct.map.get u) e := by
            intro ht
            apply hu
            rw [List.mem_map]
            exact ⟨(u, e.value), (VMap.mem_changes_merge _ _ _ _).2 ⟨e, hr, ht, rfl⟩, rfl⟩
          simp [this]
      have hg : (s.direct.merge m).1.get u = s.direct.get u := by
        simp only [VMap.get, hun]
      rw [hg]; exact h u
  | applyTopicSync b m =>
    simp only [step, applyTopicSync]
    cases hb : s.brokers.get b with
    | none =>
      intro u
      simp only [removeBroker_direct, removeBroker_users, removeBroker_identity]
      exact h u
    | some e =>
      intro u
      obtain ⟨h1, h2, _, h4, _⟩ := foldl_applyTopicChange_frame
        { s with brokers := s.brokers.insert b { e with topicSync := (e.topicSync.merge m).1 } }
        b (e.topicSync.merge m).2
      simp only [h1, h2, h4]
      exact h u
  | partialUserSync =>
    intro u
    simp only [step, getPartialUserSync, VMap.get_diff_self]
    exact h u
  | partialTopicSync =>
    simp only [step, getPartialTopicSync]
    split <;> exact h

theorem routed_new (b : B) : Routed (Conns.new b : Conns U B T H) := by
  intro u; simp [Conns.new, VMap.new, VMap.get]

/-- **C08.** Whatever happened before, the broker answers "this user is here" exactly when it holds a
connection of that user. -/
theorem C08_routed_iff_connected (b : B) (ops : List (Op U B T H)) (u : U) :
    ((Conns.new b).run ops).getBrokerOfUser u = some b ↔
    (((Conns.new b).run ops).getUserConnection u).isSome := by
  have := run_induction Routed routed_step _ (routed_new (U := U) (T := T) (H := H) b) ops u
  rw [identity_run] at this
  exact this

/-- Non-trivial instance of C08: user 1 connects here, a peer's newer map claims user 1 (kicked),
user 2 connects; a stale map then claims user 2 and loses. -/
example :
    let m1 : DirectMap Nat Nat := ⟨AMap.ofList [(1, ⟨5, some 9⟩)], FSet.empty, 9⟩
    let m2 : DirectMap Nat Nat := ⟨AMap.ofList [(2, ⟨0, some 9⟩)], FSet.empty, 9⟩
    let s := (Conns.new 3 : Conns Nat Nat Nat Nat).run
      [.addUser 1 100 [0], .applyUserSync m1, .addUser 2 101 [1], .partialUserSync, .applyUserSync m2]
    (s.getBrokerOfUser 1 = some 9 ∧ s.getUserConnection 1 = none) ∧
    (s.getBrokerOfUser 2 = some 3 ∧ s.getUserConnection 2 = some 101) := by
  refine ⟨⟨by rfl, by rfl⟩, by rfl, by rfl⟩

/-! ## C09 -/

/-- Tokens of all connections ever added in a history. -/
def tokens : List (Op U B T H) → List H
  | [] => []
  | .addUser _ h _ :: ops => h :: tokens ops
  | .addBroker _ h :: ops => h :: tokens ops
  | _ :: ops => tokens ops

/-- The connection most recently added for a user. -/
def lastUser (u : U) : List (Op U B T H) → Option H → Option H
  | [], acc => acc
  | .addUser u' h _ :: ops, acc => lastUser u ops (if u' = u then some h else acc)
  | _ :: ops, acc => lastUser u ops acc

/-- The connection most recently added for a broker. -/
def lastBroker (b : B) : List (Op U B T H) → Option H → Option H
  | [], acc => acc
  | .addBroker b' h :: ops, acc => lastBroker b ops (if b' = b then some h else acc)
  | _ :: ops, acc => lastBroker b ops acc

/-- The connection is currently registered, for some user or some broker. -/
def Registered (s : Conns U B T H) (h : H) : Prop :=
  (∃ u, s.getUserConnection u = some h) ∨ (∃ b, s.getBrokerConnection b = some h)

/-- Effect of one call on the registered user connections. -/
theorem users_step (s : Conns U B T H) (op : Op U B T H) (u : U) :
    (s.step op).users.get u = s.users.get u ∨ (s.step op).users.get u = none ∨
    ∃ h ts, op = .addUser u h ts ∧ (s.step op).users.get u = some h := by
  cases op with
  | addUser u' h ts =>
    simp only [step, addUser, AMap.get_insert]
    by_cases hu : u' = u
    · subst hu; right; right; exact ⟨h, ts, rfl, by simp⟩
    · left; simp only [hu, if_false]; rw [removeUser_users_get]; simp [hu]
  | removeUser u' =>
    simp only [step, removeUser_users_get]
    by_cases hu : u' = u <;> simp [hu]
  | addBroker b h => left; simp [step, addBroker]
  | removeBroker b => left; simp [step]
  | subscribeUser u ts => left; rfl
  | unsubscribeUser u ts => left; rfl
  | subscribeBroker b ts => left; rfl
  | unsubscribeBroker b ts => left; rfl
  | applyUserSync m =>
    simp only [step, applyUserSync]
    rw [foldl_removeUser_users_get _ Prod.fst]
    split
    · right; left; rfl
    · left; rfl
  | applyTopicSync b m =>
    left
    simp only [step, applyTopicSync]
    cases hb : s.brokers.get b with
    | none => simp
    | some e =>
      simp only []
      rw [(foldl_applyTopicChange_frame _ b _).2.1]
  | partialUserSync => left; rfl
  | partialTopicSync =>
    left
    simp only [step, getPartialTopicSync]
    split <;> rfl

/-- Effect of one call on the registered broker connections. -/
theorem brokers_step (s : Conns U B T H) (op : Op U B T H) (b : B) :
    (s.step op).getBrokerConnection b = s.getBrokerConnection b ∨
    (s.step op).getBrokerConnection b = none ∨
    ∃ h, op = .addBroker b h ∧ (s.step op).getBrokerConnection b = some h := by
  unfold getBrokerConnection
  cases op with
  | addUser u h ts => left; simp [step, addUser]
  | removeUser u => left; simp [step]
  | addBroker b' h =>
    simp only [step, addBroker, AMap.get_insert]
    by_cases hb : b' = b
    · subst hb; right; right; exact ⟨h, rfl, by simp⟩
    · left; simp only [hb, if_false]; rw [removeBroker_brokers_get]; simp [hb]
  | removeBroker b' =>
    simp only [step, removeBroker_brokers_get]
    by_cases hb : b' = b <;> simp [hb]
  | subscribeUser u ts => left; rfl
  | unsubscribeUser u ts => left; rfl
  | subscribeBroker b ts => left; rfl
  | unsubscribeBroker b ts => left; rfl
  | applyUserSync m =>
    left
    simp only [step, applyUserSync]
    rw [(foldl_removeUser_frame _ Prod.fst _).2.1]
  | applyTopicSync b' m =>
    simp only [step, applyTopicSync]
    cases hb : s.brokers.get b' with
    | none =>
      simp only [removeBroker_brokers_get]
      by_cases hbb : b' = b <;> simp [hbb]
    | some e =>
      left
      simp only []
      rw [(foldl_applyTopicChange_frame _ b' _).2.2.1]
      simp only [AMap.get_insert]
      by_cases hbb : b' = b
      · subst hbb; simp [hb]
      · simp [hbb]
  | partialUserSync => left; rfl
  | partialTopicSync =>
    left
    simp only [step, getPartialTopicSync]
    split <;> rfl

theorem lastUser_run (u : U) (ops : List (Op U B T H)) (s : Conns U B T H) (acc : Option H)
    (hs : ∀ h, s.users.get u = some h → acc = some h) (h : H)
    (hr : (s.run ops).users.get u = some h) : lastUser u ops acc = some h := by
  induction ops generalizing s acc with
  | nil => exact hs h hr
  | cons op ops ih =>
    rw [run_cons] at hr
    have hst := users_step s op u
    have gen : ∀ acc', (∀ h, (s.step op).users.get u = some h → acc' = some h) →
        lastUser u ops acc' = some h := fun acc' hacc => ih _ acc' hacc hr
    cases op with
    | addUser u' h' ts =>
      simp only [lastUser]
      apply gen
      intro h2 hh2
      by_cases hu : u' = u
      · subst hu
        simp [step, addUser] at hh2
        simp [hh2]
      · simp only [hu, if_false]
        apply hs
        simp only [step, addUser, AMap.get_insert, hu, if_false, removeUser_users_get] at hh2
        exact hh2
    | _ =>
      simp only [lastUser]
      apply gen
      intro h2 hh2
      rcases hst with h3 | h3 | ⟨_, _, h3, _⟩
      · apply hs; rw [← h3]; exact hh2
      · rw [h3] at hh2; simp at hh2
      · simp at h3

theorem lastBroker_run (b : B) (ops : List (Op U B T H)) (s : Conns U B T H) (acc : Option H)
    (hs : ∀ h, s.getBrokerConnection b = some h → acc = some h) (h : H)
    (hr : (s.run ops).getBrokerConnection b = some h) : lastBroker b ops acc = some h := by
  induction ops generalizing s acc with
  | nil => exact hs h hr
  | cons op ops ih =>
    rw [run_cons] at hr
    have hst := brokers_step s op b
    have gen : ∀ acc', (∀ h, (s.step op).getBrokerConnection b = some h → acc' = some h) →
        lastBroker b ops acc' = some h := fun acc' hacc => ih _ acc' hacc hr
    cases op with
    | addBroker b' h' =>
      simp only [lastBroker]
      apply gen
      intro h2 hh2
      by_cases hb : b' = b
      · subst hb
        simp [step, addBroker, getBrokerConnection] at hh2
        simp [hh2]
      · simp only [hb, if_false]
        apply hs
        simp only [step, addBroker, getBrokerConnection, AMap.get_insert, hb, if_false,
          removeBroker_brokers_get] at hh2
        exact hh2
    | _ =>
      simp only [lastBroker]
      apply gen
      intro h2 hh2
      rcases hst with h3 | h3 | ⟨_, h3, _⟩
      · apply hs; rw [← h3]; exact hh2
      · rw [h3] at hh2; simp at hh2
      · simp at h3

/-- **C09.** The connection registered for a user (broker) is the one most recently added for them. -/
theorem C09_latest_connection (id : B) (ops : List (Op U B T H)) :
    (∀ u h, ((Conns.new id).run ops).getUserConnection u = some h → lastUser u ops none = some h) ∧
    (∀ b h, ((Conns.new id).run ops).getBrokerConnection b = some h →
      lastBroker b ops none = some h) :=
  ⟨fun u h hr => lastUser_run u ops _ none (by simp [Conns.new]) h hr,
   fun b h hr => lastBroker_run b ops _ none (by simp [Conns.new, getBrokerConnection]) h hr⟩

/-- Bookkeeping of tokens: every token ever added is either registered once or aborted. -/
structure Tok (s : Conns U B T H) (used : List H) : Prop where
  reg_used : ∀ h, Registered s h → h ∈ used
  ab_used : ∀ h, h ∈ s.aborted → h ∈ used ∧ ¬ Registered s h
  cover : ∀ h, h ∈ used → h ∈ s.aborted ∨ Registered s h
  injU : ∀ u u' h, s.getUserConnection u = some h → s.getUserConnection u' = some h → u = u'
  injB : ∀ b b' h, s.getBrokerConnection b = some h → s.getBrokerConnection b' = some h → b = b'
  disj : ∀ u b h, s.getUserConnection u = some h → s.getBrokerConnection b ≠ some h

theorem Tok.congr {s s' : Conns U B T H} {used : List H} (h : Tok s used)
    (hu : ∀ u, s'.getUserConnection u = s.getUserConnection u)
    (hb : ∀ b, s'.getBrokerConnection b = s.getBrokerConnection b)
    (ha : s'.aborted = s.aborted) : Tok s' used := by
  have hreg : ∀ h, Registered s' h ↔ Registered s h := by
    intro h; simp [Registered, hu, hb]
  constructor
  · intro x hx; exact h.reg_used x ((hreg x).1 hx)
  · intro x hx; rw [ha] at hx; rw [hreg]; exact h.ab_used x hx
  · intro x hx; rw [ha, hreg]; exact h.cover x hx
  · intro u u' x; rw [hu, hu]; exact h.injU u u' x
  · intro u u' x; rw [hb, hb]; exact h.injB u u' x
  · intro u b x; rw [hu, hb]; exact h.disj u b x

theorem Tok.removeUser {s : Conns U B T H} {used : List H} (h : Tok s used) (u : U) :
    Tok (s.removeUser u) used := by
  have hb : ∀ b, (s.removeUser u).getBrokerConnection b = s.getBrokerConnection b := by
    intro b; simp [getBrokerConnection]
  have hug : ∀ u', (s.removeUser u).getUserConnection u' =
      if u = u' then none else s.getUserConnection u' := fun u' => removeUser_users_get s u u'
  cases hu : s.users.get u with
  | none =>
    refine h.congr ?_ hb ?_
    · intro u'; rw [hug]
      by_cases e : u = u'
      · subst e; simp [getUserConnection, hu]
      · simp [e]
    · rw [removeUser_aborted, hu]
  | some x =>
    have hux : s.getUserConnection u = some x := hu
    have hreg : ∀ y, Registered (s.removeUser u) y ↔ Registered s y ∧ y ≠ x := by
      intro y
      simp only [Registered, hb, hug]
      constructor
      · rintro (⟨u', h1⟩ | ⟨b, h1⟩)
        · by_cases e : u = u'
          · simp [e] at h1
          · simp only [e, if_false] at h1
            refine ⟨Or.inl ⟨u', h1⟩, ?_⟩
            rintro rfl
            exact e (h.injU u u' _ hux h1)
        · refine ⟨Or.inr ⟨b, h1⟩, ?_⟩
          rintro rfl
          exact h.disj u b _ hux h1
      · rintro ⟨⟨u', h1⟩ | ⟨b, h1⟩, hne⟩
        · left
          refine ⟨u', ?_⟩
          by_cases e : u = u'
          · subst e; rw [hux] at h1; simp only [Option.some.injEq] at h1; exact absurd h1.symm hne
          · simpa [e] using h1
        · right; exact ⟨b, h1⟩
    have hab : (s.removeUser u).aborted = x :: s.aborted := by rw [removeUser_aborted, hu]
    constructor
    · intro y hy; exact h.reg_used y ((hreg y).1 hy).1
    · intro y hy
      rw [hab, List.mem_cons] at hy
      rw [hreg]
      rcases hy with rfl | hy
      · exact ⟨h.reg_used _ (Or.inl ⟨u, hux⟩), fun hh => hh.2 rfl⟩
      · exact ⟨(h.ab_used y hy).1, fun hh => (h.ab_used y hy).2 hh.1⟩
    · intro y hy
      rw [hab, hreg, List.mem_cons]
      by_cases e : y = x
      · left; left; exact e
      · rcases h.cover y hy with h1 | h1
        · left; right; exact h1
        · right; exact ⟨h1, e⟩
    · intro u1 u2 y
      rw [hug, hug]
      intro h1 h2
      by_cases e1 : u = u1 <;> by_cases e2 : u = u2 <;> simp [e1, e2] at h1 h2
      exact h.injU u1 u2 y h1 h2
    · intro b1 b2 y; rw [hb, hb]; exact h.injB b1 b2 y
    · intro u1 b y
      rw [hug, hb]
      intro h1
      by_cases e1 : u = u1
      · simp [e1] at h1
      · simp only [e1, if_false] at h1; exact h.disj u1 b y h1

theorem Tok.removeBroker {s : Conns U B T H} {used : List H} (h : Tok s used) (b : B) :
    Tok (s.removeBroker b) used := by
  have hu : ∀ u, (s.removeBroker b).getUserConnection u = s.getUserConnection u := by
    intro u; simp [getUserConnection]
  have hbg : ∀ b', (s.removeBroker b).getBrokerConnection b' =
      if b = b' then none else s.getBrokerConnection b' := by
    intro b'; simp only [getBrokerConnection, removeBroker_brokers_get]
    split <;> rfl
  cases hb : s.brokers.get b with
  | none =>
    refine h.congr hu ?_ ?_
    · intro b'; rw [hbg]
      by_cases e : b = b'
      · subst e; simp [getBrokerConnection, hb]
      · simp [e]
    · rw [removeBroker_aborted, hb]
  | some x =>
    have hux : s.getBrokerConnection b = some x.handle := by simp [getBrokerConnection, hb]
    have hreg : ∀ y, Registered (s.removeBroker b) y ↔ Registered s y ∧ y ≠ x.handle := by
      intro y
      simp only [Registered, hu, hbg]
      constructor
      · rintro (⟨u, h1⟩ | ⟨b', h1⟩)
        · refine ⟨Or.inl ⟨u, h1⟩, ?_⟩
          rintro rfl
          exact h.disj u b _ h1 hux
        · by_cases e : b = b'
          · simp [e] at h1
          · simp only [e, if_false] at h1
            refine ⟨Or.inr ⟨b', h1⟩, ?_⟩
            rintro rfl
            exact e (h.injB b b' _ hux h1)
      · rintro ⟨⟨u, h1⟩ | ⟨b', h1⟩, hne⟩
        · left; exact ⟨u, h1⟩
        · right
          refine ⟨b', ?_⟩
          by_cases e : b = b'
          · subst e; rw [hux] at h1; simp only [Option.some.injEq] at h1; exact absurd h1.symm hne
          · simpa [e] using h1
    have hab : (s.removeBroker b).aborted = x.handle :: s.aborted := by rw [removeBroker_aborted, hb]
    constructor
    · intro y hy; exact h.reg_used y ((hreg y).1 hy).1
    · intro y hy
      rw [hab, List.mem_cons] at hy
      rw [hreg]
      rcases hy with rfl | hy
      · exact ⟨h.reg_used _ (Or.inr ⟨b, hux⟩), fun hh => hh.2 rfl⟩
      · exact ⟨(h.ab_used y hy).1, fun hh => (h.ab_used y hy).2 hh.1⟩
    · intro y hy
      rw [hab, hreg, List.mem_cons]
      by_cases e : y = x.handle
      · left; left; exact e
      · rcases h.cover y hy with h1 | h1
        · left; right; exact h1
        · right; exact ⟨h1, e⟩
    · intro u1 u2 y; rw [hu, hu]; exact h.injU u1 u2 y
    · intro b1 b2 y
      rw [hbg, hbg]
      intro h1 h2
      by_cases e1 : b = b1 <;> by_cases e2 : b = b2 <;> simp [e1, e2] at h1 h2
      exact h.injB b1 b2 y h1 h2
    · intro u b1 y
      rw [hu, hbg]
      intro h1 h2
      by_cases e1 : b = b1
      · simp [e1] at h2
      · simp only [e1, if_false] at h2; exact h.disj u b1 y h1 h2

/-- Registering a fresh token in a free slot keeps the bookkeeping. -/
theorem Tok.insert {s s' : Conns U B T H} {used : List H} (h : Tok s used) (x : H) (hx : x ∉ used)
    (su : Option U) (sb : Option B)
    (hslot : (su.isSome ∧ sb = none) ∨ (su = none ∧ sb.isSome))
    (hfreeU : ∀ u, su = some u → s.getUserConnection u = none)
    (hfreeB : ∀ b, sb = some b → s.getBrokerConnection b = none)
    (hu : ∀ u, s'.getUserConnection u = if su = some u then some x else s.getUserConnection u)
    (hb : ∀ b, s'.getBrokerConnection b = if sb = some b then some x else s.getBrokerConnection b)
    (ha : s'.aborted = s.aborted) : Tok s' (x :: used) := by
  have hnU : ∀ u, s.getUserConnection u ≠ some x := fun u hh => hx (h.reg_used x (Or.inl ⟨u, hh⟩))
  have hnB : ∀ b, s.getBrokerConnection b ≠ some x := fun u hh => hx (h.reg_used x (Or.inr ⟨u, hh⟩))
  have hreg : ∀ y, Registered s' y ↔ Registered s y ∨ y = x := by
    intro y
    simp only [Registered, hu, hb]
    constructor
    · rintro (⟨u, h1⟩ | ⟨b, h1⟩)
      · split at h1
        · right; simpa using h1.symm
        · left; left; exact ⟨u, h1⟩
      · split at h1
        · right; simpa using h1.symm
        · left; right; exact ⟨b, h1⟩
    · rintro ((⟨u, h1⟩ | ⟨b, h1⟩) | rfl)
      · left; refine ⟨u, ?_⟩
        split
        · rename_i e; rw [hfreeU u e] at h1; simp at h1
        · exact h1
      · right; refine ⟨b, ?_⟩
        split
        · rename_i e; rw [hfreeB b e] at h1; simp at h1
        · exact h1
      · rcases hslot with ⟨h1, _⟩ | ⟨_, h1⟩
        · obtain ⟨u, rfl⟩ := Option.isSome_iff_exists.1 h1
          left; exact ⟨u, by simp⟩
        · obtain ⟨b, rfl⟩ := Option.isSome_iff_exists.1 h1
          right; exact ⟨b, by simp⟩
  constructor
  · intro y hy
    rcases (hreg y).1 hy with h1 | rfl
    · exact List.mem_cons_of_mem _ (h.reg_used y h1)
    · exact List.mem_cons_self ..
  · intro y hy
    rw [ha] at hy
    obtain ⟨h1, h2⟩ := h.ab_used y hy
    refine ⟨List.mem_cons_of_mem _ h1, ?_⟩
    rw [hreg]
    rintro (h3 | rfl)
    · exact h2 h3
    · exact hx h1
  · intro y hy
    rw [ha, hreg]
    rcases List.mem_cons.1 hy with rfl | hy
    · right; right; rfl
    · rcases h.cover y hy with h1 | h1
      · left; exact h1
      · right; left; exact h1
  · intro u1 u2 y
    rw [hu, hu]
    intro h1 h2
    split at h1 <;> split at h2
    · rename_i e1 e2; rw [e1] at e2; simpa using e2
    · simp only [Option.some.injEq] at h1; subst h1; exact absurd h2 (hnU _)
    · simp only [Option.some.injEq] at h2; subst h2; exact absurd h1 (hnU _)
    · exact h.injU u1 u2 y h1 h2
  · intro u1 u2 y
    rw [hb, hb]
    intro h1 h2
    split at h1 <;> split at h2
    · rename_i e1 e2; rw [e1] at e2; simpa using e2
    · simp only [Option.some.injEq] at h1; subst h1; exact absurd h2 (hnB _)
    · simp only [Option.some.injEq] at h2; subst h2; exact absurd h1 (hnB _)
    · exact h.injB u1 u2 y h1 h2
  · intro u b y
    rw [hu, hb]
    intro h1 h2
    split at h1 <;> split at h2
    · rename_i e1 e2; subst e1; subst e2; simp at hslot
    · simp only [Option.some.injEq] at h1; subst h1; exact hnB _ h2
    · simp only [Option.some.injEq] at h2; subst h2; exact hnU _ h1
    · exact h.disj u b y h1 h2

theorem Tok.perm {s : Conns U B T H} {a b : List H} (h : Tok s a) (hab : ∀ x, x ∈ a ↔ x ∈ b) :
    Tok s b :=
  ⟨fun x hx => (hab x).1 (h.reg_used x hx),
   fun x hx => ⟨(hab x).1 (h.ab_used x hx).1, (h.ab_used x hx).2⟩,
   fun x hx => h.cover x ((hab x).2 hx), h.injU, h.injB, h.disj⟩

theorem tok_run (ops : List (Op U B T H)) (s : Conns U B T H) (used : List H) (h : Tok s used)
    (hnd : (tokens ops).Nodup) (hfresh : ∀ x ∈ tokens ops, x ∉ used) :
    Tok (s.run ops) (tokens ops ++ used) := by
  induction ops generalizing s used with
  | nil => exact h
  | cons op ops ih =>
    rw [run_cons]
    -- calls that add no token
    have quiet : tokens (op :: ops) = tokens ops → Tok (s.step op) used →
        Tok ((s.step op).run ops) (tokens (op :: ops) ++ used) := by
      intro ht h'
      rw [ht]
      exact ih _ used h' (ht ▸ hnd) (ht ▸ hfresh)
    cases op with
    | addUser u x ts =>
      simp only [tokens, List.nodup_cons, List.mem_cons, forall_eq_or_imp] at hnd hfresh
      have h1 : Tok ({ s with gaugeUsers := s.gaugeUsers + 1 } : Conns U B T H) used :=
        h.congr (fun _ => rfl) (fun _ => rfl) rfl
      have h2 := h1.removeUser u
      have h3 : Tok (s.step (.addUser u x ts)) (x :: used) := by
        refine h2.insert x hfresh.1 (some u) none (Or.inl ⟨rfl, rfl⟩) ?_ (by simp) ?_ ?_ rfl
        · rintro u' e
          simp only [Option.some.injEq] at e
          subst e
          simp [getUserConnection, removeUser_users_get]
        · intro u'
          simp only [step, addUser, getUserConnection, AMap.get_insert, Option.some.injEq]
        · intro b
          simp [step, addUser, getBrokerConnection]
      refine (ih _ (x :: used) h3 hnd.2 ?_).perm ?_
      · intro y hy hmem
        rcases List.mem_cons.1 hmem with rfl | hmem
        · exact hnd.1 hy
        · exact hfresh.2 y hy hmem
      · intro y; simp only [tokens, List.mem_append, List.mem_cons]; grind
    | addBroker b x =>
      simp only [tokens, List.nodup_cons, List.mem_cons, forall_eq_or_imp] at hnd hfresh
      have h1 : Tok ({ s with gaugeBrokers := s.gaugeBrokers + 1 } : Conns U B T H) used :=
        h.congr (fun _ => rfl) (fun _ => rfl) rfl
      have h2 := h1.removeBroker b
      have h3 : Tok (s.step (.addBroker b x)) (x :: used) := by
        refine h2.insert x hfresh.1 none (some b) (Or.inr ⟨rfl, rfl⟩) (by simp) ?_ ?_ ?_ rfl
        · rintro u' e
          simp only [Option.some.injEq] at e
          subst e
          simp [getBrokerConnection, removeBroker_brokers_get]
        · intro u'
          simp [step, addBroker, getUserConnection]
        · intro b'
          simp only [step, addBroker, getBrokerConnection, AMap.get_insert, Option.some.injEq]
          split <;> simp
      refine (ih _ (x :: used) h3 hnd.2 ?_).perm ?_
      · intro y hy hmem
        rcases List.mem_cons.1 hmem with rfl | hmem
        · exact hnd.1 hy
        · exact hfresh.2 y hy hmem
      · intro y; simp only [tokens, List.mem_append, List.mem_cons]; grind
    | removeUser u => exact quiet rfl (h.removeUser u)
    | removeBroker b => exact quiet rfl (h.removeBroker b)
    | subscribeUser u ts => exact quiet rfl (h.congr (fun _ => rfl) (fun _ => rfl) rfl)
    | unsubscribeUser u ts => exact quiet rfl (h.congr (fun _ => rfl) (fun _ => rfl) rfl)
    | subscribeBroker b ts => exact quiet rfl (h.congr (fun _ => rfl) (fun _ => rfl) rfl)
    | unsubscribeBroker b ts => exact quiet rfl (h.congr (fun _ => rfl) (fun _ => rfl) rfl)
    | applyUserSync m =>
      refine quiet rfl ?_
      simp only [step, applyUserSync]
      exact foldl_removeUser_preserves (fun s => Tok s used) (fun s u hs => hs.removeUser u) Prod.fst
        _ _ (h.congr (fun _ => rfl) (fun _ => rfl) rfl)
    | applyTopicSync b m =>
      refine quiet rfl ?_
      simp only [step, applyTopicSync]
      cases hb : s.brokers.get b with
      | none => exact h.removeBroker b
      | some e =>
        obtain ⟨_, h2, h3, _, _, _, _, h8, _⟩ := foldl_applyTopicChange_frame
          { s with brokers := s.brokers.insert b { e with topicSync := (e.topicSync.merge m).1 } }
          b (e.topicSync.merge m).2
        refine h.congr ?_ ?_ ?_
        · intro u; simp only [getUserConnection, h2]
        · intro b'
          simp only [getBrokerConnection, h3, AMap.get_insert]
          by_cases hbb : b = b'
          · subst hbb; simp [hb]
          · simp [hbb]
        · exact h8
    | partialUserSync => exact quiet rfl (h.congr (fun _ => rfl) (fun _ => rfl) rfl)
    | partialTopicSync =>
      refine quiet rfl ?_
      simp only [step, getPartialTopicSync]
      split
      · exact h
      · exact h.congr (fun _ => rfl) (fun _ => rfl) rfl

/-- **C09.** If every connection added is a new one, then a connection that was added is aborted
exactly when it is no longer registered, and no connection is registered twice. -/
theorem C09_aborted_iff_replaced (id : B) (ops : List (Op U B T H)) (hnd : (tokens ops).Nodup) :
    let s := (Conns.new id).run ops
    (∀ h ∈ tokens ops, h ∈ s.aborted ↔ ¬ Registered s h) ∧
    (∀ h, Registered s h → h ∈ tokens ops) ∧
    (∀ u u' h, s.getUserConnection u = some h → s.getUserConnection u' = some h → u = u') ∧
    (∀ b b' h, s.getBrokerConnection b = some h → s.getBrokerConnection b' = some h → b = b') := by
  intro s
  have h0 : Tok (Conns.new id : Conns U B T H) [] := by
    constructor <;> simp [Conns.new, Registered, getUserConnection, getBrokerConnection]
  have h := tok_run ops _ [] h0 hnd (by simp)
  rw [List.append_nil] at h
  refine ⟨fun x hx => ⟨fun ha => (h.ab_used x ha).2, fun hn => ?_⟩, h.reg_used, h.injU, h.injB⟩
  rcases h.cover x hx with h1 | h1
  · exact h1
  · exact absurd h1 hn

/-- Non-trivial instance of C09: user 1 connects twice, broker 7 twice, user 2 is removed. -/
example :
    let ops : List (Op Nat Nat Nat Nat) :=
      [.addUser 1 100 [], .addBroker 7 101, .addUser 1 102 [0], .addUser 2 103 [], .addBroker 7 104,
       .removeUser 2]
    (tokens ops).Nodup ∧ ((Conns.new 3).run ops).aborted = [103, 101, 100] ∧
    ((Conns.new 3).run ops).getUserConnection 1 = some 102 ∧
    ((Conns.new 3).run ops).getBrokerConnection 7 = some 104 := by
  refine ⟨by decide, by rfl, by rfl, by rfl⟩

/-! ## C10 -/

def Gauged (s : Conns U B T H) : Prop :=
  s.gaugeUsers = s.users.size ∧ s.gaugeBrokers = s.brokers.size

theorem gauged_removeUser (s : Conns U B T H) (u : U) (h : Gauged s) : Gauged (s.removeUser u) := by
  obtain ⟨h1, h2⟩ := h
  constructor
  · rw [removeUser_gaugeUsers, removeUser_users_size, h1]
  · rw [removeUser_gaugeBrokers, removeUser_brokers, h2]

theorem gauged_removeBroker (s : Conns U B T H) (b : B) (h : Gauged s) :
    Gauged (s.removeBroker b) := by
  obtain ⟨h1, h2⟩ := h
  constructor
  · rw [removeBroker_gaugeUsers, removeBroker_users, h1]
  · rw [removeBroker_gaugeBrokers, removeBroker_brokers_size, h2]

theorem gauged_step (s : Conns U B T H) (op : Op U B T H) (h : Gauged s) : Gauged (s.step op) := by
  cases op with
  | addUser u hd ts =>
    obtain ⟨h1, h2⟩ := h
    have hr1 := removeUser_gaugeUsers { s with gaugeUsers := s.gaugeUsers + 1 } u
    have hr2 := removeUser_users_size { s with gaugeUsers := s.gaugeUsers + 1 } u
    have hn : (({ s with gaugeUsers := s.gaugeUsers + 1 } : Conns U B T H).removeUser u).users.get u
        = none := by simp [removeUser_users_get]
    constructor
    · simp only [step, addUser]
      rw [AMap.size_insert, AMap.size_erase_of_none hn, hr1, Int.natCast_add, hr2, h1]
      simp only []
      omega
    · simp only [step, addUser, removeUser_gaugeBrokers, removeUser_brokers]; exact h2
  | removeUser u => exact gauged_removeUser s u h
  | addBroker b hd =>
    obtain ⟨h1, h2⟩ := h
    have hr1 := removeBroker_gaugeBrokers { s with gaugeBrokers := s.gaugeBrokers + 1 } b
    have hr2 := removeBroker_brokers_size { s with gaugeBrokers := s.gaugeBrokers + 1 } b
    have hn : (({ s with gaugeBrokers := s.gaugeBrokers + 1 } : Conns U B T H).removeBroker b
        ).brokers.get b = none := by simp [removeBroker_brokers_get]
    constructor
    · simp only [step, addBroker, removeBroker_gaugeUsers, removeBroker_users]; exact h1
    · simp only [step, addBroker]
      rw [AMap.size_insert, AMap.size_erase_of_none hn, hr1, Int.natCast_add, hr2, h2]
      simp only []
      omega
  | removeBroker b => exact gauged_removeBroker s b h
  | subscribeUser u ts => exact h
  | unsubscribeUser u ts => exact h
  | subscribeBroker b ts => exact h
  | unsubscribeBroker b ts => exact h
  | applyUserSync m =>
    exact foldl_removeUser_preserves Gauged (fun s u hs => gauged_removeUser s u hs) Prod.fst _ _ h
  | applyTopicSync b m =>
    simp only [step, applyTopicSync]
    cases hb : s.brokers.get b with
    | none => exact gauged_removeBroker s b h
    | some e =>
      obtain ⟨_, h2, h3, _, _, _, _, _, h9, h10⟩ := foldl_applyTopicChange_frame
        { s with brokers := s.brokers.insert b { e with topicSync := (e.topicSync.merge m).1 } }
        b (e.topicSync.merge m).2
      constructor
      · simp only [h9, h2]; exact h.1
      · simp only [h10, h3]
        rw [AMap.size_insert, AMap.size_erase_of_some (by simp [hb])]
        exact h.2
  | partialUserSync => exact h
  | partialTopicSync =>
    simp only [step, getPartialTopicSync]
    split <;> exact h

/-- **C10.** The gauges always equal the number of connected users and brokers (each counted once),
and so does the load figure (`num_users`) the heartbeat reports. -/
theorem C10_gauges_exact (id : B) (ops : List (Op U B T H)) :
    let s := (Conns.new id).run ops
    s.gaugeUsers = (s.allUsers.length : Int) ∧ s.gaugeBrokers = (s.allBrokers.length : Int) ∧
    s.numUsers = s.allUsers.length ∧
    (s.allUsers.Nodup ∧ ∀ u, u ∈ s.allUsers ↔ (s.getUserConnection u).isSome) ∧
    (s.allBrokers.Nodup ∧ ∀ b, b ∈ s.allBrokers ↔ (s.getBrokerConnection b).isSome) := by
  intro s
  have h : Gauged s := run_induction Gauged gauged_step _ ⟨rfl, rfl⟩ ops
  refine ⟨?_, ?_, ?_, ⟨s.users.keys_nodup, fun u => AMap.mem_keys⟩, s.brokers.keys_nodup, fun b => ?_⟩
  · rw [h.1]; simp [allUsers, AMap.keys, AMap.size]
  · rw [h.2]; simp [allBrokers, AMap.keys, AMap.size]
  · simp [numUsers, allUsers, AMap.keys, AMap.size]
  · rw [allBrokers, AMap.mem_keys]; simp [getBrokerConnection]

/-- Non-trivial instance of C10: a reconnect, a removal of an unknown user, a kick by user sync. -/
example :
    let m1 : DirectMap Nat Nat := ⟨AMap.ofList [(1, ⟨5, some 9⟩)], FSet.empty, 9⟩
    let s := (Conns.new 3 : Conns Nat Nat Nat Nat).run
      [.addUser 1 100 [], .addUser 2 101 [], .addUser 2 102 [], .removeUser 5, .applyUserSync m1,
       .addBroker 9 103]
    s.gaugeUsers = 1 ∧ s.gaugeBrokers = 1 ∧ s.allUsers = [2] := by
  refine ⟨by rfl, by rfl, by rfl⟩

/-! ## C11 -/

/-- Side condition of C11: subscribe calls are made only for currently connected users or brokers. -/
def SubscribesConnected (s : Conns U B T H) : List (Op U B T H) → Prop
  | [] => True
  | op :: ops =>
    (match op with
      | .subscribeUser u _ => (s.getUserConnection u).isSome
      | .subscribeBroker b _ => (s.getBrokerConnection b).isSome
      | _ => True) ∧ SubscribesConnected (s.step op) ops

/-- Index invariants together with "only connected peers are in the index". -/
structure Subs (s : Conns U B T H) : Prop where
  invU : s.bcUsers.Inv
  invB : s.bcBrokers.Inv
  conU : ∀ u t, s.bcUsers.Bwd u t → (s.users.get u).isSome
  conB : ∀ b t, s.bcBrokers.Bwd b t → (s.brokers.get b).isSome

theorem Subs.removeUser {s : Conns U B T H} (h : Subs s) (u : U) : Subs (s.removeUser u) := by
  refine ⟨?_, ?_, ?_, ?_⟩
  · rw [removeUser_bcUsers]; exact RMap.inv_removeKey h.invU u
  · rw [removeUser_bcBrokers]; exact h.invB
  · intro u' t
    rw [removeUser_bcUsers, RMap.bwd_removeKey h.invU, removeUser_users_get]
    rintro ⟨h1, h2⟩
    have : ¬ u = u' := fun e => h1 e.symm
    simp only [this, if_false]; exact h.conU u' t h2
  · intro b t; rw [removeUser_bcBrokers, removeUser_brokers]; exact h.conB b t

theorem Subs.removeBroker {s : Conns U B T H} (h : Subs s) (b : B) : Subs (s.removeBroker b) := by
  refine ⟨?_, ?_, ?_, ?_⟩
  · rw [removeBroker_bcUsers]; exact h.invU
  · rw [removeBroker_bcBrokers]; exact RMap.inv_removeKey h.invB b
  · intro u t; rw [removeBroker_bcUsers, removeBroker_users]; exact h.conU u t
  · intro b' t
    rw [removeBroker_bcBrokers, RMap.bwd_removeKey h.invB, removeBroker_brokers_get]
    rintro ⟨h1, h2⟩
    have : ¬ b = b' := fun e => h1 e.symm
    simp only [this, if_false]; exact h.conB b' t h2

theorem Subs.subscribeBroker {s : Conns U B T H} (h : Subs s) (b : B) (ts : List T)
    (hc : (s.brokers.get b).isSome) : Subs (s.subscribeBroker b ts) := by
  refine ⟨h.invU, RMap.inv_associate h.invB b ts, h.conU, ?_⟩
  intro b' t hb
  simp only [Conns.subscribeBroker, RMap.bwd_associate] at hb ⊢
  rcases hb with ⟨rfl, _⟩ | hb
  · exact hc
  · exact h.conB b' t hb

theorem Subs.unsubscribeBroker {s : Conns U B T H} (h : Subs s) (b : B) (ts : List T) :
    Subs (s.unsubscribeBroker b ts) := by
  refine ⟨h.invU, RMap.inv_dissociate h.invB b ts, h.conU, ?_⟩
  intro b' t hb
  simp only [Conns.unsubscribeBroker, RMap.bwd_dissociate] at hb ⊢
  exact h.conB b' t hb.2

theorem Subs.foldl_topic (b : B) (l : List (T × Option SubStatus)) (s : Conns U B T H) (h : Subs s)
    (hc : (s.brokers.get b).isSome) : Subs (l.foldl (applyTopicChange b) s) := by
  induction l generalizing s with
  | nil => exact h
  | cons c l ih =>
    rw [List.foldl_cons]
    apply ih
    · unfold applyTopicChange
      split
      · exact h.subscribeBroker b _ hc
      · exact h.unsubscribeBroker b _
    · rw [(applyTopicChange_frame s b c).2.2.1]; exact hc

theorem subs_step (s : Conns U B T H) (op : Op U B T H) (h : Subs s)
    (hc : match op with
      | .subscribeUser u _ => ((s.getUserConnection u).isSome : Prop)
      | .subscribeBroker b _ => (s.getBrokerConnection b).isSome
      | _ => True) : Subs (s.step op) := by
  cases op with
  | addUser u hd ts =>
    have h1 : Subs ({ s with gaugeUsers := s.gaugeUsers + 1 } : Conns U B T H) :=
      ⟨h.invU, h.invB, h.conU, h.conB⟩
    have h2 := h1.removeUser u
    refine ⟨RMap.inv_associate h2.invU u ts, h2.invB, ?_, h2.conB⟩
    intro u' t hb
    simp only [step, addUser, RMap.bwd_associate, AMap.get_insert] at hb ⊢
    by_cases e : u = u'
    · simp [e]
    · simp only [e, if_false]
      rcases hb with ⟨e', _⟩ | hb
      · exact absurd e'.symm e
      · exact h2.conU u' t hb
  | removeUser u => exact h.removeUser u
  | addBroker b hd =>
    have h1 : Subs ({ s with gaugeBrokers := s.gaugeBrokers + 1 } : Conns U B T H) :=
      ⟨h.invU, h.invB, h.conU, h.conB⟩
    have h2 := h1.removeBroker b
    refine ⟨h2.invU, h2.invB, h2.conU, ?_⟩
    intro b' t hb
    simp only [step, addBroker, AMap.get_insert] at hb ⊢
    by_cases e : b = b'
    · simp [e]
    · simp only [e, if_false]; exact h2.conB b' t hb
  | removeBroker b => exact h.removeBroker b
  | subscribeUser u ts =>
    refine ⟨RMap.inv_associate h.invU u ts, h.invB, ?_, h.conB⟩
    intro u' t hb
    simp only [step, subscribeUser, RMap.bwd_associate] at hb ⊢
    rcases hb with ⟨rfl, _⟩ | hb
    · exact hc
    · exact h.conU u' t hb
  | unsubscribeUser u ts =>
    refine ⟨RMap.inv_dissociate h.invU u ts, h.invB, ?_, h.conB⟩
    intro u' t hb
    simp only [step, unsubscribeUser, RMap.bwd_dissociate] at hb ⊢
    exact h.conU u' t hb.2
  | subscribeBroker b ts => exact h.subscribeBroker b ts (by simpa [getBrokerConnection] using hc)
  | unsubscribeBroker b ts => exact h.unsubscribeBroker b ts
  | applyUserSync m =>
    exact foldl_removeUser_preserves Subs (fun s u hs => hs.removeUser u) Prod.fst _ _
      ⟨h.invU, h.invB, h.conU, h.conB⟩
  | applyTopicSync b m =>
    simp only [step, applyTopicSync]
    cases hb : s.brokers.get b with
    | none => exact h.removeBroker b
    | some e =>
      refine Subs.foldl_topic b _ _ ⟨h.invU, h.invB, h.conU, ?_⟩ (by simp)
      intro b' t hb'
      simp only [AMap.get_insert]
      split
      · rfl
      · exact h.conB b' t hb'
  | partialUserSync => exact ⟨h.invU, h.invB, h.conU, h.conB⟩
  | partialTopicSync =>
    simp only [step, getPartialTopicSync]
    split
    · exact h
    · exact ⟨h.invU, h.invB, h.conU, h.conB⟩

theorem subs_run (ops : List (Op U B T H)) (s : Conns U B T H) (h : Subs s)
    (hw : SubscribesConnected s ops) : Subs (s.run ops) := by
  induction ops generalizing s with
  | nil => exact h
  | cons op ops ih => exact ih _ (subs_step s op h hw.1) hw.2

theorem subs_new (id : B) : Subs (Conns.new id : Conns U B T H) :=
  ⟨RMap.inv_new, RMap.inv_new, by simp [Conns.new, RMap.Bwd, RMap.new],
    by simp [Conns.new, RMap.Bwd, RMap.new]⟩

/-- **C11.** Only currently connected users and brokers are ever in the interested set. -/
theorem C11_interested_are_connected (id : B) (ops : List (Op U B T H))
    (hw : SubscribesConnected (Conns.new id) ops) (topics : List T) (usersOnly : Bool) :
    let s := (Conns.new id).run ops
    (∀ u ∈ (s.getInterestedByTopic topics usersOnly).2, (s.getUserConnection u).isSome) ∧
    (∀ b ∈ (s.getInterestedByTopic topics usersOnly).1, (s.getBrokerConnection b).isSome) := by
  intro s
  have h : Subs s := subs_run ops _ (subs_new id) hw
  obtain ⟨h1, h2, _, _⟩ := mem_interested s topics usersOnly
  constructor
  · intro u hu
    obtain ⟨t, _, ht⟩ := (h1 u).1 hu
    exact h.conU u t ht
  · intro b hb
    obtain ⟨_, t, _, ht⟩ := (h2 b).1 hb
    simpa [getBrokerConnection] using h.conB b t ht

/-- **C11**, after a disconnect: right after `remove_user` (`remove_broker`) the peer is in no
interested set, in any reachable state, without the side condition. -/
theorem C11_removed_not_interested (id : B) (ops : List (Op U B T H)) (topics : List T)
    (usersOnly : Bool) (u : U) (b : B) :
    u ∉ (((Conns.new id).run (ops ++ [.removeUser u])).getInterestedByTopic topics usersOnly).2 ∧
    b ∉ (((Conns.new id).run (ops ++ [.removeBroker b])).getInterestedByTopic topics usersOnly).1 := by
  have hr := indexInv_run (Conns.new id : Conns U B T H) ⟨RMap.inv_new, RMap.inv_new⟩ ops
  rw [run_append, run_append]
  generalize (Conns.new id : Conns U B T H).run ops = s0 at hr ⊢
  constructor
  · rw [(mem_interested _ topics usersOnly).1 u]
    rintro ⟨t, _, ht⟩
    simp only [run, List.foldl_cons, List.foldl_nil, step, removeUser_bcUsers] at ht
    rw [RMap.bwd_removeKey hr.1] at ht
    exact ht.1 rfl
  · rw [(mem_interested _ topics usersOnly).2.1 b]
    rintro ⟨_, t, _, ht⟩
    simp only [run, List.foldl_cons, List.foldl_nil, step, removeBroker_bcBrokers] at ht
    rw [RMap.bwd_removeKey hr.2] at ht
    exact ht.1 rfl

/-- The side condition of C11 cannot be dropped: a subscribe processed after the removal (which the
receive loop can do between the failed send that removes the user and the abort taking effect) leaves
a subscription of a user who is not connected. -/
theorem C11_side_condition_needed :
    ∃ ops : List (Op Nat Nat Nat Nat),
      let s := (Conns.new 0).run ops
      1 ∈ (s.getInterestedByTopic [5] true).2 ∧ s.getUserConnection 1 = none :=
  ⟨[.addUser 1 100 [], .removeUser 1, .subscribeUser 1 [5]], by decide, rfl⟩

/-- Non-trivial instance of C11: subscriptions, a reconnect with other topics, a broker interest set
by a topic sync, then removals. -/
example :
    let tm : TopicSync Nat := ⟨AMap.ofList [(5, ⟨1, some .subscribed⟩)], FSet.empty, 0⟩
    let ops : List (Op Nat Nat Nat Nat) :=
      [.addUser 1 100 [5], .subscribeUser 1 [6], .addUser 2 101 [5], .addBroker 8 102,
       .applyTopicSync 8 tm, .removeUser 2, .addUser 1 103 [5]]
    SubscribesConnected (Conns.new 0) ops ∧
    ((Conns.new 0).run ops).getInterestedByTopic [5, 6, 5] false = ([8], [1]) := by
  refine ⟨?_, by rfl⟩
  simp only [SubscribesConnected]
  decide

end Verif.Props.Connections

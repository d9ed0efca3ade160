import Verif.Props.Linking

/-!
# Property C112, continued: what users see of it
-/

set_option linter.unusedSectionVars false

namespace Verif.Props.Linking
open Verif Verif.Conns Verif.LNet Verif.Props.Connections

section
variable {U B T : Type} [DecidableEq U] [DecidableEq B] [DecidableEq T] [LT B] [DecidableLT B]

/-- A subscribe frame comes from a user connected to that broker; users name valid topics only (others
are cut off or rejected before they reach the table, C16 and C17). -/
def Orderly (valid : T → Bool) (n : LNet U B T) : LLabel U B T → Prop
  | .connect _ _ _ ts => ∀ t ∈ ts, valid t = true
  | .subscribe b u ts => ((n.st b).getUserConnection u).isSome ∧ ∀ t ∈ ts, valid t = true
  | _ => True

/-- Every step of the schedule is orderly in the state in which it happens. -/
def AllOrderly (valid : T → Bool) (n : LNet U B T) : List (LLabel U B T) → Prop
  | [] => True
  | l :: ls => Orderly valid n l ∧ AllOrderly valid (n.step l) ls

/-- In one step other than a restart every table stays or makes one call. -/
theorem step_call_up (n : LNet U B T) (l : LLabel U B T) (x : B) (hr : ∀ b, l ≠ .restart b) :
    (n.step l).st x = n.st x ∨ ∃ op, (n.step l).st x = (n.st x).step op ∧
      (Mesh.Plain op ∨ (∃ u h ts, l = .connect x u h ts ∧ op = .addUser u h ts) ∨
        (∃ u ts, l = .subscribe x u ts ∧ op = .subscribeUser u ts) ∨
        ∃ u ts, l = .unsubscribe x u ts ∧ op = .unsubscribeUser u ts) := by
  have one : ∀ (b : B) (op : Op U B T Nat) (n' : LNet U B T), n'.st = (n.act b op).st →
      (b = x → (Mesh.Plain op ∨ (∃ u h ts, l = .connect x u h ts ∧ op = .addUser u h ts) ∨
        (∃ u ts, l = .subscribe x u ts ∧ op = .subscribeUser u ts) ∨
        ∃ u ts, l = .unsubscribe x u ts ∧ op = .unsubscribeUser u ts)) →
      n'.st x = n.st x ∨ ∃ op, n'.st x = (n.st x).step op ∧
      (Mesh.Plain op ∨ (∃ u h ts, l = .connect x u h ts ∧ op = .addUser u h ts) ∨
        (∃ u ts, l = .subscribe x u ts ∧ op = .subscribeUser u ts) ∨
        ∃ u ts, l = .unsubscribe x u ts ∧ op = .unsubscribeUser u ts) := by
    intro b op n' h1 h2
    rw [h1]
    by_cases e : x = b
    · subst e; right; exact ⟨op, st_act_self _ _ _, h2 rfl⟩
    · left; exact st_act_ne _ _ _ e
  cases l with
  | connect b u h ts =>
    exact one b (.addUser u h ts) _ rfl (by rintro rfl; exact Or.inr (Or.inl ⟨u, h, ts, rfl, rfl⟩))
  | disconnect b u => exact one b (.removeUser u) _ rfl (fun _ => Or.inl trivial)
  | subscribe b u ts =>
    exact one b (.subscribeUser u ts) _ rfl (by rintro rfl; exact Or.inr (Or.inr (Or.inl ⟨u, ts, rfl, rfl⟩)))
  | unsubscribe b u ts =>
    exact one b (.unsubscribeUser u ts) _ rfl
      (by rintro rfl; exact Or.inr (Or.inr (Or.inr ⟨u, ts, rfl, rfl⟩)))
  | startTopic b =>
    refine one b .partialTopicSync _ ?_ (fun _ => Or.inl trivial)
    simp only [LNet.step]; split <;> rfl
  | startUser b =>
    refine one b .partialUserSync _ ?_ (fun _ => Or.inl trivial)
    simp only [LNet.step]; split <;> rfl
  | readDests i => left; simp only [LNet.step]; split <;> rfl
  | lookup i => left; simp only [LNet.step]; split <;> rfl
  | push i ok =>
    simp only [LNet.step]
    split
    · rename_i b m ds d c _
      split
      · left; rfl
      · exact one b (.removeBroker d) _ rfl (fun _ => Or.inl trivial)
    · left; rfl
  | authenticated c b b' => left; simp only [LNet.step]; split <;> rfl
  | register c b b' =>
    simp only [LNet.step]
    split
    · exact one b (.addBroker b' c) _ rfl (fun _ => Or.inl trivial)
    · left; rfl
  | fullTopic b b' =>
    left; simp only [LNet.step]; split
    · split <;> rfl
    · rfl
  | fullUser b b' =>
    left; simp only [LNet.step]; split
    · split <;> rfl
    · rfl
  | drop b b' => exact one b (.removeBroker b') _ rfl (fun _ => Or.inl trivial)
  | deliver c b b' =>
    simp only [LNet.step]
    split
    · split
      · left; rfl
      · rename_i m rest _; exact one b' (.applyUserSync m) _ rfl (fun _ => Or.inl trivial)
      · rename_i m rest _; exact one b' (.applyTopicSync b m) _ rfl (fun _ => Or.inl trivial)
    · left; rfl
  | strayUser c b b' =>
    simp only [LNet.step]
    split
    · split
      · rename_i m rest _; exact one b' (.applyUserSync m) _ rfl (fun _ => Or.inl trivial)
      · left; rfl
    · left; rfl
  | strayTopic c b b' =>
    simp only [LNet.step]
    split
    · split
      · rename_i m rest _; exact one b' (.applyTopicSync b m) _ rfl (fun _ => Or.inl trivial)
      · left; rfl
    · left; rfl
  | restart b => exact absurd rfl (hr b)

/-- In one step every table stays, makes one call, or is new. -/
theorem step_call (n : LNet U B T) (l : LLabel U B T) (x : B) :
    (n.step l).st x = n.st x ∨ (∃ op, (n.step l).st x = (n.st x).step op ∧
      (Mesh.Plain op ∨ (∃ u h ts, l = .connect x u h ts ∧ op = .addUser u h ts) ∨
        (∃ u ts, l = .subscribe x u ts ∧ op = .subscribeUser u ts) ∨
        ∃ u ts, l = .unsubscribe x u ts ∧ op = .unsubscribeUser u ts)) ∨
    (n.step l).st x = Conns.new x := by
  by_cases hr : ∃ b, l = .restart b
  · obtain ⟨b, rfl⟩ := hr
    by_cases e : x = b
    · subst e; right; right; show (if x = x then _ else _) = _; rw [if_pos rfl]
    · left; show (if x = b then _ else _) = _; rw [if_neg e]
  · rcases step_call_up n l x (fun b e => hr ⟨b, e⟩) with h | h
    · exact Or.inl h
    · exact Or.inr (Or.inl h)

/-- Only connected users are subscribed, only to valid topics. -/
def Good (valid : T → Bool) (n : LNet U B T) : Prop :=
  ∀ b, Subs (n.st b) ∧ ∀ u t, (n.st b).bcUsers.Bwd u t → valid t = true

theorem good_step (valid : T → Bool) (n : LNet U B T) (l : LLabel U B T) (hg : Good valid n)
    (ho : Orderly valid n l) : Good valid (n.step l) := by
  intro x
  obtain ⟨h1, h2⟩ := hg x
  rcases step_call n l x with e | ⟨op, e, hop⟩ | e
  · rw [e]; exact ⟨h1, h2⟩
  rotate_left
  · rw [e]; exact ⟨subs_new x, by simp [Conns.new, RMap.Bwd, RMap.new]⟩
  · rw [e]
    have hidx : (n.st x).IndexInv := ⟨h1.invU, h1.invB⟩
    rcases hop with hp | ⟨u, h, ts, rfl, rfl⟩ | ⟨u, ts, rfl, rfl⟩ | ⟨u, ts, rfl, rfl⟩
    · refine ⟨subs_step _ op h1 ?_, fun u t hb => h2 u t (Mesh.bwd_plain _ hidx op hp u t hb)⟩
      cases op <;> first | trivial | exact absurd hp id
    · refine ⟨subs_step _ _ h1 trivial, ?_⟩
      intro u' t hb
      simp only [Conns.step, addUser, RMap.bwd_associate, removeUser_bcUsers] at hb
      rw [RMap.bwd_removeKey hidx.1] at hb
      rcases hb with ⟨_, hb⟩ | ⟨_, hb⟩
      · exact ho t hb
      · exact h2 u' t hb
    · refine ⟨subs_step _ _ h1 ho.1, ?_⟩
      intro u' t hb
      simp only [Conns.step, subscribeUser, RMap.bwd_associate] at hb
      rcases hb with ⟨_, hb⟩ | hb
      · exact ho.2 t hb
      · exact h2 u' t hb
    · refine ⟨subs_step _ _ h1 trivial, ?_⟩
      intro u' t hb
      simp only [Conns.step, unsubscribeUser] at hb
      rw [RMap.bwd_dissociate] at hb
      exact h2 u' t hb.2

theorem good_run (valid : T → Bool) (ls : List (LLabel U B T)) (n : LNet U B T) (hg : Good valid n)
    (ho : AllOrderly valid n ls) : Good valid (n.run ls) := by
  induction ls generalizing n with
  | nil => exact hg
  | cons l ls ih => exact ih (n.step l) (good_step valid n l hg ho.1) ho.2

/-- The topics `u` asked for at broker `b`: those of the last connection there, and the later changes. -/
def asked (b : B) (u : U) : List (LLabel U B T) → List T → List T
  | [], ts => ts
  | .connect b' u' _ new :: ls, ts => asked b u ls (if b' = b ∧ u' = u then new else ts)
  | .subscribe b' u' new :: ls, ts => asked b u ls (if b' = b ∧ u' = u then ts ++ new else ts)
  | .unsubscribe b' u' old :: ls, ts =>
    asked b u ls (if b' = b ∧ u' = u then ts.filter (· ∉ old) else ts)
  | _ :: ls, ts => asked b u ls ts

theorem asked_run (ls : List (LLabel U B T)) (n : LNet U B T) (b : B) (u : U) (ts : List T)
    (hidx : (n.st b).IndexInv)
    (hts : ((n.st b).getUserConnection u).isSome → ∀ t, (n.st b).bcUsers.Bwd u t ↔ t ∈ ts)
    (hend : (((n.run ls).st b).getUserConnection u).isSome) (t : T) :
    ((n.run ls).st b).bcUsers.Bwd u t ↔ t ∈ asked b u ls ts := by
  induction ls generalizing n ts with
  | nil => exact hts hend t
  | cons l ls ih =>
    have hidx' : ((n.step l).st b).IndexInv := by
      rcases step_call n l b with e | ⟨op, e, _⟩ | e
      · rw [e]; exact hidx
      · rw [e]; exact indexInv_step _ op hidx
      · rw [e]; exact ⟨RMap.inv_new, RMap.inv_new⟩
    -- the label does not concern the topics of `u` at `b`
    have other : (∀ u' h new, l = .connect b u' h new → u' ≠ u) → (∀ u' new, l = .subscribe b u' new → u' ≠ u) →
        (∀ u' old, l = .unsubscribe b u' old → u' ≠ u) →
        (((n.step l).st b).getUserConnection u).isSome → ∀ t, ((n.step l).st b).bcUsers.Bwd u t ↔ t ∈ ts := by
      intro h1 h2 h3 hc t
      rcases step_call n l b with e |
        ⟨op, e, hp | ⟨u', h, new, rfl, rfl⟩ | ⟨u', new, rfl, rfl⟩ | ⟨u', old, rfl, rfl⟩⟩ | e
      · rw [e] at hc ⊢; exact hts hc t
      · rw [e] at hc ⊢
        obtain ⟨h4, h5⟩ := Mesh.plain_keeps _ hidx op hp u hc
        exact (h5 t).trans (hts h4 t)
      · have hne := h1 u' h new rfl
        rw [e] at hc ⊢
        simp only [getUserConnection, Conns.step, addUser, AMap.get_insert, if_neg hne, removeUser_users_get] at hc
        simp only [Conns.step, addUser, RMap.bwd_associate, removeUser_bcUsers]
        rw [RMap.bwd_removeKey hidx.1, ← hts hc t]
        exact ⟨fun h => h.elim (fun h => absurd h.1.symm hne) (fun h => h.2),
          fun h => Or.inr ⟨fun e => hne e.symm, h⟩⟩
      · have hne := h2 u' new rfl
        rw [e] at hc ⊢
        simp only [Conns.step, subscribeUser, RMap.bwd_associate]
        rw [← hts hc t]
        exact ⟨fun h => h.elim (fun h => absurd h.1.symm hne) id, Or.inr⟩
      · have hne := h3 u' old rfl
        rw [e] at hc ⊢
        simp only [Conns.step, unsubscribeUser]
        rw [RMap.bwd_dissociate, ← hts hc t]
        exact ⟨fun h => h.2, fun h => ⟨fun h' => hne h'.1.symm, h⟩⟩
      · rw [e] at hc; simp [Conns.new, getUserConnection] at hc
    have same : asked b u (l :: ls) ts = asked b u ls ts →
        (∀ u' h new, l = .connect b u' h new → u' ≠ u) → (∀ u' new, l = .subscribe b u' new → u' ≠ u) →
        (∀ u' old, l = .unsubscribe b u' old → u' ≠ u) →
        (((n.run (l :: ls)).st b).bcUsers.Bwd u t ↔ t ∈ asked b u (l :: ls) ts) := by
      intro h0 h1 h2 h3
      rw [h0]
      exact ih (n.step l) ts hidx' (other h1 h2 h3) hend
    cases l with
    | connect b' u' h new =>
      by_cases e : b' = b ∧ u' = u
      · obtain ⟨rfl, rfl⟩ := e
        simp only [asked, and_self, if_true]
        refine ih (n.step (.connect b' u' h new)) new hidx' (fun _ t => ?_) hend
        simp only [LNet.step, st_act_self, Conns.step, addUser, RMap.bwd_associate, removeUser_bcUsers]
        rw [RMap.bwd_removeKey hidx.1]
        simp
      · refine same (by simp only [asked, if_neg e]) ?_ (by simp) (by simp)
        rintro u'' _ _ h rfl
        cases h; exact e ⟨rfl, rfl⟩
    | subscribe b' u' new =>
      by_cases e : b' = b ∧ u' = u
      · obtain ⟨rfl, rfl⟩ := e
        simp only [asked, and_self, if_true]
        refine ih (n.step (.subscribe b' u' new)) _ hidx' (fun hc t => ?_) hend
        simp only [LNet.step, st_act_self, Conns.step, subscribeUser, RMap.bwd_associate] at hc ⊢
        rw [hts hc t, List.mem_append]
        simp [or_comm]
      · refine same (by simp only [asked, if_neg e]) (by simp) ?_ (by simp)
        rintro u'' _ h rfl
        cases h; exact e ⟨rfl, rfl⟩
    | unsubscribe b' u' old =>
      by_cases e : b' = b ∧ u' = u
      · obtain ⟨rfl, rfl⟩ := e
        simp only [asked, and_self, if_true]
        refine ih (n.step (.unsubscribe b' u' old)) _ hidx' (fun hc t => ?_) hend
        simp only [LNet.step, st_act_self, Conns.step, unsubscribeUser] at hc ⊢
        rw [RMap.bwd_dissociate, hts hc t]
        simp [and_comm]
      · refine same (by simp only [asked, if_neg e]) (by simp) (by simp) ?_
        rintro u'' _ h rfl
        cases h; exact e ⟨rfl, rfl⟩
    | _ => exact same rfl (by simp) (by simp) (by simp)

/-- **C112, the subscriptions** (as C72): while a user is connected to a broker, they are subscribed there to the
topics they asked for, no more and no less. -/
theorem C112_subscribed_iff_asked (ls : List (LLabel U B T)) (b : B) (u : U)
    (hc : ((((start : LNet U B T).run ls).st b).getUserConnection u).isSome) (t : T) :
    u ∈ ((((start : LNet U B T).run ls).st b).getInterestedByTopic [t] true).2 ↔ t ∈ asked b u ls [] := by
  rw [(mem_interested _ [t] true).1 u]
  simp only [List.mem_singleton, exists_eq_left]
  refine asked_run ls start b u [] ⟨RMap.inv_new, RMap.inv_new⟩ (fun h => ?_) hc t
  simp [start, Conns.new, getUserConnection] at h

theorem ident_run (ls : List (LLabel U B T)) (n : LNet U B T) (h : ∀ b, (n.st b).identity = b) (b : B) :
    ((n.run ls).st b).identity = b := by
  induction ls generalizing n with
  | nil => exact h b
  | cons l ls ih =>
    refine ih (n.step l) (fun x => ?_)
    rcases step_call n l x with e | ⟨op, e, _⟩ | e
    · rw [e]; exact h x
    · rw [e, identity_step]; exact h x
    · rw [e]; rfl

theorem good_start (valid : T → Bool) : Good valid (start : LNet U B T) :=
  fun b => ⟨subs_new b, by simp [start, Conns.new, RMap.Bwd, RMap.new]⟩

end

/-! ## A broadcast -/

section
open Verif.Props.Network Verif.Broker Verif.Net
variable {B σ : Type} [DecidableEq B] [LT B] [DecidableLT B]

/-- **C112, what users see of it** (`C72_broadcast_after_calm` without its simplifications). Brokers are started,
crash and are started again, connections between them are made, any number at once, registered by each end in
its own time, replaced and given up, users come and go and change their topics, syncs run, in any order. Then things
calm down: any two brokers of `M` have the same connection registered for each other, and none to others, their topic
syncs have arrived (and none of them was handled out of place as far as that connection is concerned,
`NeverMisled`), no user is connected twice. From then on a broadcast published once, at any broker of `M`, is in the end received exactly
once by every user connected to a broker of `M` who has asked there for one of its valid topics, and by nobody
else. -/
theorem C112_broadcast_partial (cfg : Cfg B σ) (hT : Transparent cfg)
    (ls : List (LLabel Bytes B Topic)) (hlen : ls.length < 2 ^ 64)
    (hord : AllOrderly cfg.valid (LNet.start : LNet Bytes B Topic) ls) (M : B → Prop)
    (hlinks : ∀ b b', M b → M b' → b ≠ b' → ∃ c, Linked ((LNet.start : LNet Bytes B Topic).run ls) c b b' ∧
      TopicsSettled ((LNet.start : LNet Bytes B Topic).run ls) c b b' ∧ NeverMisled c b b' LNet.start ls)
    (honly : ∀ b b', M b → ((LNet.start : LNet Bytes B Topic).run ls).conn b b' ≠ none → M b')
    (htwice : ∀ b b' u, M b → M b' →
      ((((LNet.start : LNet Bytes B Topic).run ls).st b).getUserConnection u).isSome →
      ((((LNet.start : LNet Bytes B Topic).run ls).st b').getUserConnection u).isSome → b = b')
    (hook : B → Dest B → σ) (ls' : List (Label B Nat)) (hl : ∀ l ∈ ls', Static cfg l) (k : Nat) (b : B)
    (hb : M b) (a raw : Bytes) (ts : List Topic) (payload : Bytes)
    (hd : cfg.decode raw = some (.broadcast ts payload))
    (honce : ls'.filter (publishes k) = [.publish b a k raw]) (u : Bytes) :
    let tab := ((LNet.start : LNet Bytes B Topic).run ls).st
    let n := (Net.start tab hook).run cfg ls'
    let wants := ∃ b', M b' ∧ ((tab b').getUserConnection u).isSome ∧
      ∃ t ∈ ts, cfg.valid t = true ∧ t ∈ asked b' u ls []
    copiesReceived n u k ≤ 1 ∧ (¬ wants → copiesReceived n u k = 0) ∧
    (Quiescent n → wants → copiesReceived n u k = 1) := by
  have hinv := inv_any (U := Bytes) (B := B) (T := Topic) ls hlen
  have hid := ident_run ls (LNet.start : LNet Bytes B Topic) (fun _ => rfl)
  have hgood := good_run cfg.valid ls _ (good_start cfg.valid) hord
  have hex := C112_interest_partial (U := Bytes) (T := Topic) (B := B) ls hlen
  have hask := C112_subscribed_iff_asked (U := Bytes) (T := Topic) (B := B) ls
  generalize hnet : (LNet.start : LNet Bytes B Topic).run ls = net at *
  intro tab n wants
  classical
  let home : Bytes → Option B := fun u =>
    if h : ∃ b', M b' ∧ ((tab b').getUserConnection u).isSome then some h.choose else none
  have hhome : ∀ u b', M b' → (((tab b').getUserConnection u).isSome ↔ home u = some b') := by
    intro u b' hM
    constructor
    · intro hc
      have h : ∃ b', M b' ∧ ((tab b').getUserConnection u).isSome := ⟨b', hM, hc⟩
      show (if h : _ then _ else _) = _
      rw [dif_pos h]
      rw [htwice _ b' u h.choose_spec.1 hM h.choose_spec.2 hc]
    · intro hc
      by_cases h : ∃ b', M b' ∧ ((tab b').getUserConnection u).isSome
      · have : home u = some h.choose := dif_pos h
        rw [this] at hc; cases hc; exact h.choose_spec.2
      · have : home u = none := dif_neg h
        rw [this] at hc; cases hc
  have hin : ∀ u b', home u = some b' → M b' := by
    intro u b' hc
    by_cases h : ∃ b', M b' ∧ ((tab b').getUserConnection u).isSome
    · have : home u = some h.choose := dif_pos h
      rw [this] at hc; cases hc; exact h.choose_spec.1
    · have : home u = none := dif_neg h
      rw [this] at hc; cases hc
  have hmesh : Network.Mesh M tab home := by
    refine ⟨fun b _ => hid b, fun b b' h1 h2 h3 => ?_, ?_, hin, fun b u hM => hhome u b hM⟩
    · obtain ⟨c, h4, _⟩ := hlinks b b' h1 h2 h3
      show (net.conn b b').isSome
      rw [h4.1]; rfl
    intro b b' hM hk
    refine ⟨honly b b' hM (fun e => ?_), ?_⟩
    · have hk' : (net.conn b b').isSome := hk
      rw [e] at hk'; cases hk'
    rintro rfl
    obtain ⟨c, hc⟩ := Option.isSome_iff_exists.1 hk
    exact joins_ne hinv (hinv.reg _ _ c hc).1 rfl
  let sub : Bytes → Topic → Prop := fun u t => ∃ b', home u = some b' ∧ (tab b').bcUsers.Bwd u t
  have hsync : TopicsInSync cfg.valid M tab home sub := by
    refine ⟨?_, ?_, ?_⟩
    · intro b u t hM hh
      rw [RMap.mem_getKeysByValue]
      exact ⟨fun h => ⟨b, hh, h⟩, fun ⟨b', h1, h2⟩ => by rw [hh] at h1; cases h1; exact h2⟩
    · intro b b' t hM hM' hne
      obtain ⟨c, h1, h2, hm⟩ := hlinks b' b hM' hM (fun e => hne e.symm)
      have h3 := hex c b' b hm h1 h2 t
      rw [(mem_interested _ [t] false).2.1 b'] at h3
      simp only [true_and, List.mem_singleton, exists_eq_left] at h3
      rw [RMap.mem_getKeysByValue]
      rintro ⟨u, h4, b'', h5, h6⟩
      rw [h4] at h5; cases h5; exact h3.2 ((TopicSync.subscribed_iff _ _).2 ⟨u, h6⟩)
    · rintro u t ⟨b', _, h⟩
      exact (hgood b').2 u t h
  have hw : wants ↔ ((home u).isSome ∧ ∃ t ∈ ts, cfg.valid t = true ∧ sub u t) := by
    constructor
    · rintro ⟨b', h1, h2, t, h3, h4, h5⟩
      have h6 := (hhome u b' h1).1 h2
      refine ⟨by rw [h6]; rfl, t, h3, h4, b', h6, ?_⟩
      obtain ⟨t', h7, h8⟩ := ((mem_interested (tab b') [t] true).1 u).1 ((hask b' u h2 t).2 h5)
      simp only [List.mem_singleton] at h7; subst h7; exact h8
    · rintro ⟨_, t, h3, h4, b', h6, h7⟩
      have h1 := hin u b' h6
      exact ⟨b', h1, (hhome u b' h1).2 h6, t, h3, h4, (hask b' u ((hhome u b' h1).2 h6) t).1
        (((mem_interested (tab b') [t] true).1 u).2 ⟨t, by simp, h7⟩)⟩
  have hfin := C18_broadcast_exactly_once cfg hT M tab home sub hmesh hsync hook ls' hl k b hb a raw ts
    payload hd honce u
  exact ⟨hfin.1, fun h => hfin.2.1 (fun h' => h (hw.2 h')), fun hq h => hfin.2.2 hq (hw.1 h)⟩

end


/-! ### A case

Brokers 0 and 1 register connection 0. Each starts to announce what its user wants. Broker 0 has looked connection 0
up when it registers connection 1 in its place; the announcement still goes out on connection 0 and is handled there.
Broker 1 registers connection 1 later; both send what they have on it. -/

def usersRun : List (LLabel Bytes Nat Topic) :=
  [.authenticated 0 0 1, .register 0 0 1, .connect 0 [3] 13 [0], .register 0 1 0, .connect 1 [2] 12 [0],
   .subscribe 0 [3] [1], .unsubscribe 0 [3] [0], .startTopic 0, .readDests 0, .lookup 0, .authenticated 1 1 0,
   .register 1 0 1, .push 0 true, .deliver 0 0 1, .startTopic 1, .fullTopic 0 1, .fullTopic 0 1, .register 1 1 0,
   .fullTopic 1 0, .fullTopic 1 0, .readDests 1, .lookup 1, .push 1 true, .lookup 2, .push 2 true, .lookup 3, .push 3 true,
   .lookup 4, .push 4 true, .lookup 5, .push 5 true, .deliver 1 0 1, .deliver 1 0 1, .deliver 1 1 0, .deliver 1 1 0, .deliver 1 1 0]

def usersEnd : LNet Bytes Nat Topic := (LNet.start : LNet Bytes Nat Topic).run usersRun

section
open Verif.Props.Network Verif.Broker Verif.Net

def orderlyB (n : LNet Bytes Nat Topic) : List (LLabel Bytes Nat Topic) → Bool
  | [] => true
  | l :: ls =>
    (match l with
     | .connect _ _ _ ts => ts.all demoNet.valid
     | .subscribe b u ts => ((n.st b).getUserConnection u).isSome && ts.all demoNet.valid
     | _ => true) && orderlyB (n.step l) ls

theorem orderlyB_sound (ls : List (LLabel Bytes Nat Topic)) (n : LNet Bytes Nat Topic)
    (h : orderlyB n ls = true) : AllOrderly demoNet.valid n ls := by
  induction ls generalizing n with
  | nil => trivial
  | cons l ls ih =>
    simp only [orderlyB, Bool.and_eq_true] at h
    refine ⟨?_, ih _ h.2⟩
    have h1 := h.1
    cases l <;> simp_all [Orderly]

/-- The hypotheses of `C112_broadcast_partial` hold after `usersRun` for the brokers 0 and 1, and messages reach those
who asked for them. -/
example : AllOrderly demoNet.valid (LNet.start : LNet Bytes Nat Topic) usersRun ∧
    (∀ b b', b < 2 → b' < 2 → b ≠ b' → ∃ c, Linked usersEnd c b b' ∧ TopicsSettled usersEnd c b b' ∧
      NeverMisled c b b' LNet.start usersRun) ∧
    (∀ b b', b < 2 → usersEnd.conn b b' ≠ none → b' < 2) ∧
    (∀ b b' u, b < 2 → b' < 2 → ((usersEnd.st b).getUserConnection u).isSome →
      ((usersEnd.st b').getUserConnection u).isSome → b = b') ∧
    asked 0 [3] usersRun [] = [1] ∧ asked 1 [2] usersRun [] = [0] ∧
    (let n := (Net.start usersEnd.st (fun _ _ => 0)).run demoNet Mesh.demoPublish
     n.wire.length = 0 ∧ n.pend.length = 0 ∧ copiesReceived n [2] 7 = 1 ∧ copiesReceived n [3] 7 = 0 ∧
     copiesReceived n [3] 8 = 1 ∧ copiesReceived n [2] 8 = 1) := by
  refine ⟨orderlyB_sound _ _ (by decide +kernel), ?_, ?_, ?_, rfl, rfl, by decide +kernel⟩
  · intro b b' h h' hne
    rcases Mesh.two b h with rfl | rfl <;> rcases Mesh.two b' h' with rfl | rfl
    · exact absurd rfl hne
    · exact ⟨1, ⟨by decide +kernel, by decide +kernel⟩, settledB_sound _ _ _ _ (by decide +kernel),
        neverB_sound _ _ _ _ _ (by decide +kernel)⟩
    · exact ⟨1, ⟨by decide +kernel, by decide +kernel⟩, settledB_sound _ _ _ _ (by decide +kernel),
        neverB_sound _ _ _ _ _ (by decide +kernel)⟩
    · exact absurd rfl hne
  · intro b b' h hk
    have hm : b' ∈ (usersEnd.st b).brokers.keys := by
      rw [AMap.mem_keys]
      apply Option.isSome_iff_ne_none.2
      intro e
      exact hk (by simp [conn, getBrokerConnection, e])
    have : ∀ b < 2, ∀ b' ∈ (usersEnd.st b).brokers.keys, b' < 2 := by decide +kernel
    exact this b h b' hm
  · intro b b' u h h' hu hu'
    have hm : u ∈ (usersEnd.st b).users.keys := AMap.mem_keys.2 hu
    have : ∀ b < 2, ∀ b' < 2, ∀ u ∈ (usersEnd.st b).users.keys,
        ((usersEnd.st b').getUserConnection u).isSome → b = b' := by decide +kernel
    exact this b h b' h' u hm hu'
end

end Verif.Props.Linking

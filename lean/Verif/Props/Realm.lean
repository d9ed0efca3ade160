import Verif.Model.Realm
import Verif.Lemmas.Sessions
import Verif.Lemmas.NetworkStatic
import Verif.Props.AuthWorld
import Verif.Props.Mesh
import Verif.Props.Handshake

/-!
# C101: what a user reads was written, and is read, by holders of whitelisted keys
-/

set_option linter.unusedSectionVars false

namespace Verif.Props.Realm
open Verif Verif.Auth Verif.Disc Verif.Broker Verif.Realm Verif.Props.Auth Verif.Props.AuthWorld

variable {Pub Priv L σ : Type}

/-! ## Histories -/

theorem auths_append (a b : List (Realm.Lab L)) : auths (a ++ b) = auths a ++ auths b := by
  induction a with
  | nil => rfl
  | cons l a ih => cases l <;> simp [auths, ih]

theorem exec_prefix {α : Type} {p : Prog α} {a b : List Ev} {r : Option α} (h : Exec p (a ++ b) r) :
    ∃ r', Exec p a r' := by
  induction a generalizing p with
  | nil => exact ⟨none, .stop _⟩
  | cons e a ih =>
    cases h with
    | op e k x tr r h =>
      obtain ⟨r', h'⟩ := ih h
      exact ⟨r', .op e k x a r' h'⟩

theorem plays_prefix [DecidableEq Pub] {S : Scheme Pub Priv} {a b : List Ev} {role : Role Pub Priv}
    (h : Plays S (a ++ b) role) : Plays S a role := by
  cases role <;> exact exec_prefix h.choose_spec

theorem consistent_prefix {st : Store L} {a b : List (GEv L)} (h : Consistent st (a ++ b)) : Consistent st a := by
  rintro pre g post rfl
  exact h pre g (post ++ b) (by simp)

theorem clock_prefix {a b : List Ev} (h : ClockSane (a ++ b)) : ClockSane a :=
  fun now hn => h now (List.mem_append_left _ hn)

/-- Before the end of this history of authentication, a marshal has received `k` with a fresh timestamp and a signature
over it that verifies under `k`, has been told that the key is whitelisted, and has issued a permit for `k`; broker `b`
has then been told, on that permit, that its user is `k`. -/
def Vouched (S : Scheme Pub Priv) (global : Bool) (h : List (GEv L)) (b : BrokerId) (k : Bytes) : Prop :=
  ∃ p pre j b0 a ls mid i ls' post,
    h = pre ++ .act j ⟨.issue b0 k, a⟩ ls :: (mid ++ .act i ⟨.validate b p, some (some k)⟩ ls' :: post) ∧
    (a = some p ∨ a = none) ∧ MayRedeem global b0 b ∧
    ∃ ts sig now pub canon,
      proj j pre = [⟨.recv, some (.authKey k ts sig)⟩, ⟨.clock, some now⟩, ⟨.check canon, some true⟩, ⟨.least, some b0⟩] ∧
      S.deserialize k = some pub ∧
      S.rawVerify pub (ascii "espresso-cdn-user-marshal-auth" ++ le8 ts) sig = true ∧
      Fresh now ts ∧ S.serialize pub = some canon

theorem Vouched.mono {S : Scheme Pub Priv} {global : Bool} {h : List (GEv L)} {b : BrokerId} {k : Bytes}
    (hv : Vouched S global h b k) (h' : List (GEv L)) : Vouched S global (h ++ h') b k := by
  obtain ⟨p, pre, j, b0, a, ls, mid, i, ls', post, rfl, hr⟩ := hv
  exact ⟨p, pre, j, b0, a, ls, mid, i, ls', post ++ h', by simp, hr⟩

/-- User `u` has asked broker `b` for topic `t`: with the login, or by a subscribe message. -/
def Asked (cfg : Cfg BrokerId σ) (hist : List (Realm.Lab L)) (b : BrokerId) (u : Bytes) (t : Topic) : Prop :=
  (∃ proc topics, Lab.login b proc u topics ∈ hist ∧ t ∈ topics) ∨
  ∃ i id raw topics, Lab.write b i u id raw ∈ hist ∧ cfg.decode raw = some (.subscribe topics) ∧ t ∈ topics

theorem Asked.mono {cfg : Cfg BrokerId σ} {hist hist' : List (Realm.Lab L)} {b : BrokerId} {u : Bytes} {t : Topic}
    (hs : hist ⊆ hist') (h : Asked cfg hist b u t) : Asked cfg hist' b u t := by
  rcases h with ⟨p, ts, h, ht⟩ | ⟨i, id, raw, ts, h, hd, ht⟩
  · exact .inl ⟨p, ts, hs h, ht⟩
  · exact .inr ⟨i, id, raw, ts, hs h, hd, ht⟩

/-- The frame is a direct message to `u`, or a broadcast on a topic `u` has asked broker `b` for. -/
def Meant (cfg : Cfg BrokerId σ) (hist : List (Realm.Lab L)) (b : BrokerId) (u raw : Bytes) : Prop :=
  (∃ payload, cfg.decode raw = some (.direct u payload)) ∨
  ∃ ts payload, cfg.decode raw = some (.broadcast ts payload) ∧ ∃ t ∈ ts, Asked cfg hist b u t

theorem Meant.mono {cfg : Cfg BrokerId σ} {hist hist' : List (Realm.Lab L)} {b : BrokerId} {u raw : Bytes}
    (hs : hist ⊆ hist') (h : Meant cfg hist b u raw) : Meant cfg hist' b u raw := by
  rcases h with h | ⟨ts, pl, hd, t, ht, ha⟩
  · exact .inl h
  · exact .inr ⟨ts, pl, hd, t, ht, ha.mono hs⟩

/-- Somebody at the other end of a user's session has written the frame. -/
def Written (hist : List (Realm.Lab L)) (f : Realm.Frame) : Prop := ∃ b i k, Lab.write b i k f.id f.raw ∈ hist

/-! ## The tables -/

theorem mem_prune {valid : Topic → Bool} {ts : List Topic} {t : Topic} (h : t ∈ (prune valid ts).1) : t ∈ ts :=
  (Net.mem_dedup' ts t).1 (List.mem_filter.1 h).1

/-- A subscription is there because it was, because the user has just connected with it, or because of a subscribe
call. -/
theorem bwd_step (s : Table BrokerId Nat) (hidx : s.IndexInv) (op : TOp BrokerId Nat) (u : Bytes) (t : Topic)
    (h : (s.step op).bcUsers.Bwd u t) :
    s.bcUsers.Bwd u t ∨ (∃ c ts, op = .addUser u c ts ∧ t ∈ ts) ∨ ∃ ts, op = .subscribeUser u ts ∧ t ∈ ts := by
  cases op with
  | addUser u' c ts =>
    simp only [Conns.step, Conns.addUser, RMap.bwd_associate] at h
    rcases h with ⟨rfl, ht⟩ | h
    · exact .inr (.inl ⟨c, ts, rfl, ht⟩)
    · rw [Conns.removeUser_bcUsers, RMap.bwd_removeKey hidx.1] at h
      exact .inl h.2
  | subscribeUser u' ts =>
    simp only [Conns.step, Conns.subscribeUser, RMap.bwd_associate] at h
    rcases h with ⟨rfl, ht⟩ | h
    · exact .inr (.inr ⟨ts, rfl, ht⟩)
    · exact .inl h
  | unsubscribeUser u' ts =>
    simp only [Conns.step, Conns.unsubscribeUser, RMap.bwd_dissociate] at h
    exact .inl h.2
  | subscribeBroker => exact .inl h
  | _ => refine .inl (Props.Mesh.bwd_plain s hidx _ ?_ u t h); trivial

/-- What a receive loop asks of the table subscribes nobody but its own user, to topics of the frame. -/
theorem act_subscribes {cfg : Cfg BrokerId σ} (hT : Net.Transparent cfg) {hook hk : σ} {raw : Bytes}
    {who : Sessions.Who BrokerId} {u : Bytes} {ts : List Topic}
    (h : Sessions.act cfg hook raw who = (hk, .op (.subscribeUser u ts))) :
    (∃ topics, who = .user u topics) ∧ ∃ topics, cfg.decode raw = some (.subscribe topics) ∧ ts = (prune cfg.valid topics).1 := by
  cases who with
  | user key topics =>
    simp only [Sessions.act, Sessions.userAct] at h
    cases hd : cfg.decode raw with
    | none => rw [hd] at h; cases h
    | some m =>
      rw [hd] at h
      simp only [(hT hook m).1] at h
      cases m with
      | subscribe tp =>
        dsimp only at h
        split at h
        · cases h; exact ⟨⟨topics, rfl⟩, tp, rfl, rfl⟩
        · cases h
      | broadcast tp _ => dsimp only at h; split at h <;> cases h
      | unsubscribe tp => dsimp only at h; split at h <;> cases h
      | _ => cases h
  | broker id =>
    simp only [Sessions.act, Sessions.brokerAct] at h
    cases hd : cfg.decode raw with
    | none => rw [hd] at h; cases h
    | some m =>
      rw [hd] at h
      simp only [(hT hook m).2] at h
      cases m with
      | userSync d =>
        dsimp only at h
        split at h <;> cases h
      | topicSync d =>
        dsimp only at h
        split at h <;> cases h
      | _ => cases h

/-- A frame is routed to a user only if it is a direct message to them or a broadcast on one of their topics. -/
theorem routed_user {cfg : Cfg BrokerId σ} (hT : Net.Transparent cfg) (s : Table BrokerId Nat) (hook : σ)
    (who : Sessions.Who BrokerId) (raw u : Bytes) (hu : Dest.user u ∈ routed cfg s hook raw who) :
    (∃ payload, cfg.decode raw = some (.direct u payload)) ∨
    ∃ ts payload, cfg.decode raw = some (.broadcast ts payload) ∧ ∃ t ∈ ts, s.bcUsers.Bwd u t := by
  have hdir : ∀ r o, Dest.user u ∈ directDests s r o → r = u := by
    intro r o hm
    unfold directDests at hm
    split at hm
    · simp at hm
    · split at hm
      · simpa [eq_comm] using hm
      · split at hm <;> simp at hm
  have hbc : ∀ ts o, Dest.user u ∈ broadcastDests s ts o → ∃ t ∈ ts, s.bcUsers.Bwd u t := by
    intro ts o hm
    have : u ∈ (s.getInterestedByTopic ts o).2 := by simpa [broadcastDests] using hm
    exact ((Conns.mem_interested s ts o).1 u).1 this
  cases who with
  | user a b =>
    simp only [routed, userRoute] at hu
    cases hd : cfg.decode raw with
    | none => simp [hd] at hu
    | some m =>
      simp only [hd, (hT hook m).1] at hu
      cases m with
      | direct r p => exact .inl ⟨p, by rw [hdir _ _ hu]⟩
      | broadcast ts p =>
        dsimp only at hu
        split at hu
        · obtain ⟨t, h1, h2⟩ := hbc _ _ hu
          exact .inr ⟨ts, p, rfl, t, mem_prune h1, h2⟩
        · simp at hu
      | _ => simp at hu
  | broker a =>
    simp only [routed, brokerRoute] at hu
    cases hd : cfg.decode raw with
    | none => simp [hd] at hu
    | some m =>
      simp only [hd, (hT hook m).2] at hu
      cases m with
      | direct r p => exact .inl ⟨p, by rw [hdir _ _ hu]⟩
      | broadcast ts p =>
        obtain ⟨t, h1, h2⟩ := hbc _ _ hu
        exact .inr ⟨ts, p, rfl, t, h1, h2⟩
      | _ => simp at hu

/-! ## Sessions -/

/-- Whose a session is does not change; a session that was not there before is the one that has just begun. -/
theorem sess_back {cfg : Cfg BrokerId σ} {s s' : Sessions.St BrokerId σ} {l : Sessions.Lab BrokerId}
    {os : List (TOp BrokerId Nat)} (h : Sessions.Step cfg s l os s') {i : Nat} {x' : Sessions.Sess BrokerId σ}
    (hx : s'.sess[i]? = some x') :
    (∃ x, s.sess[i]? = some x ∧ x.who = x'.who) ∨ l = .connect x'.who := by
  have set : ∀ (j : Nat) (y y' : Sessions.Sess BrokerId σ), s.sess[j]? = some y →
      (s.sess.set j y')[i]? = some x' → y'.who = y.who → ∃ x, s.sess[i]? = some x ∧ x.who = x'.who := by
    intro j y y' hy hg hw
    by_cases hj : j = i
    · subst hj
      have := (List.getElem?_eq_some_iff.1 hy).1
      simp only [List.getElem?_set_self this, Option.some.injEq] at hg
      subst hg
      exact ⟨y, hy, hw.symm⟩
    · rw [List.getElem?_set_ne hj] at hg
      exact ⟨x', hg, rfl⟩
  cases h with
  | connect who hook =>
    simp only at hx
    by_cases hi : i < s.sess.length
    · rw [List.getElem?_append_left hi] at hx
      exact .inl ⟨x', hx, rfl⟩
    · rw [List.getElem?_append_right (by omega)] at hx
      generalize i - s.sess.length = k at hx
      cases k with
      | zero =>
        simp only [List.getElem?_cons_zero, Option.some.injEq] at hx
        subst hx; exact .inr rfl
      | succ k => simp at hx
  | spawn j y hy hf => exact .inl (set j y _ hy hx rfl)
  | register j y hy hf => exact .inl (set j y _ hy hx rfl)
  | wake j y hy hf _ => exact .inl (set j y _ hy hx rfl)
  | sleep j y hy hf => exact .inl (set j y _ hy hx rfl)
  | cancelled j y hy hf _ => exact .inl (set j y _ hy hx rfl)
  | frameOp j y hy => exact .inl (set j y _ hy hx rfl)
  | frameIdle j y hy => exact .inl (set j y _ hy hx rfl)
  | frameFail j y hy => exact .inl (set j y _ hy hx rfl)
  | recvErr j y hy => exact .inl (set j y _ hy hx rfl)
  | remove j y hy => exact .inl (set j y _ hy hx rfl)
  | sendErr => exact .inl ⟨x', hx, rfl⟩
  | sendRemove => exact .inl ⟨x', hx, rfl⟩
  | kick => exact .inl ⟨x', hx, rfl⟩
  | userSync => exact .inl ⟨x', hx, rfl⟩
  | topicSync => exact .inl ⟨x', hx, rfl⟩

/-- New subscriptions in the table of a broker come from a session that registers, or from a frame. -/
theorem subs_step {cfg : Cfg BrokerId σ} {s s' : Sessions.St BrokerId σ} {l : Sessions.Lab BrokerId}
    {os : List (TOp BrokerId Nat)} (h : Sessions.Step cfg s l os s') (hidx : s.table.IndexInv) (u : Bytes) (t : Topic)
    (hb : s'.table.bcUsers.Bwd u t) :
    s.table.bcUsers.Bwd u t ∨ (∃ (i : Nat) (x : Sessions.Sess BrokerId σ) (ts : List Topic), s.sess[i]? = some x ∧ x.who = .user u ts ∧ t ∈ ts) ∨
    ∃ (i : Nat) (x : Sessions.Sess BrokerId σ) (raw : Bytes) (hk : σ) (ts : List Topic), l = .frame i raw ∧ s.sess[i]? = some x ∧
      Sessions.act cfg x.hook raw x.who = (hk, .op (.subscribeUser u ts)) ∧ t ∈ ts := by
  have plain : ∀ op : TOp BrokerId Nat, (s.table.step op).bcUsers.Bwd u t → (∀ c ts, op ≠ .addUser u c ts) →
      (∀ ts, op ≠ .subscribeUser u ts) → s.table.bcUsers.Bwd u t := by
    intro op hop h1 h2
    rcases bwd_step s.table hidx op u t hop with h | ⟨c, ts, h, _⟩ | ⟨ts, h, _⟩
    · exact h
    · exact absurd h (h1 c ts)
    · exact absurd h (h2 ts)
  cases h with
  | connect => exact .inl hb
  | spawn => exact .inl hb
  | wake => exact .inl hb
  | sleep => exact .inl hb
  | cancelled => exact .inl hb
  | frameIdle => exact .inl hb
  | frameFail => exact .inl hb
  | recvErr => exact .inl hb
  | sendErr => exact .inl hb
  | register i x hx hf =>
    rcases bwd_step s.table hidx _ u t hb with h | ⟨c, ts, h, ht⟩ | ⟨ts, h, ht⟩
    · exact .inl h
    · right; left
      cases hw : x.who with
      | user k ts' =>
        rw [hw] at h
        cases h
        exact ⟨i, x, _, hx, hw, ht⟩
      | broker k => rw [hw] at h; cases h
    · cases hw : x.who <;> rw [hw] at h <;> cases h
  | frameOp i x hx hf raw hk o ha =>
    rcases bwd_step s.table hidx _ u t hb with h | ⟨c, ts, h, ht⟩ | ⟨ts, h, ht⟩
    · exact .inl h
    · subst h
      rcases Sessions.act_op cfg _ _ _ _ _ ha with ⟨m, h⟩ | ⟨b, m, h, -⟩ | ⟨u, ts, topics, h | h, -⟩ <;> cases h
    · subst h
      exact .inr (.inr ⟨i, x, raw, hk, ts, rfl, hx, ha, ht⟩)
  | remove i x hx hf =>
    refine .inl (plain _ hb ?_ ?_) <;> cases x.who <;> simp [Sessions.Who.del]
  | sendRemove d a b hp =>
    refine .inl (plain _ hb ?_ ?_) <;> cases d <;> simp [Sessions.delDest]
  | kick u' => exact .inl (plain _ hb (by simp) (by simp))
  | userSync => exact .inl (plain _ hb (by simp) (by simp))
  | topicSync => exact .inl (plain _ hb (by simp) (by simp))

/-! ## The invariant -/

structure Inv (S : Scheme Pub Priv) (cfg : Cfg BrokerId σ) (hist : List (Realm.Lab L)) (w : World σ) : Prop where
  reach : ∀ b, ∃ ls os, Sessions.Run cfg (Sessions.St.new b) ls os (w.st b)
  login : ∀ (b : BrokerId) (i : Nat) (x : Sessions.Sess BrokerId σ) (u : Bytes) (ts : List Topic),
    (w.st b).sess[i]? = some x → x.who = .user u ts →
    ∃ pre proc topics post, hist = pre ++ .login b proc u topics :: post ∧ ts = (prune cfg.valid topics).1 ∧
      Exec (brokerVerifyUser S b) (proj proc (auths pre)) (some (some (u, topics)))
  asked : ∀ b u t, (w.st b).table.bcUsers.Bwd u t → Asked cfg hist b u t
  wireUser : ∀ y ∈ w.wire, ∀ u, OfUser w y.here y.conn u → Lab.write y.here y.conn u y.frame.id y.frame.raw ∈ hist
  wire : ∀ y ∈ w.wire, (∃ x, (w.st y.here).sess[y.conn]? = some x) ∧ (Written hist y.frame ∨ IsSync cfg y.frame.raw)
  pend : ∀ t ∈ w.pend, (Written hist t.frame ∨ IsSync cfg t.frame.raw) ∧
    ∀ u, t.dest = .user u → Meant cfg hist t.here u t.frame.raw

theorem Written.mono {hist hist' : List (Realm.Lab L)} (hs : hist ⊆ hist') {f : Realm.Frame} (h : Written hist f) :
    Written hist' f := by
  obtain ⟨b, i, k, h⟩ := h
  exact ⟨b, i, k, hs h⟩

/-- A longer history. -/
theorem Inv.mono {S : Scheme Pub Priv} {cfg : Cfg BrokerId σ} {hist : List (Realm.Lab L)} {w : World σ}
    (h : Inv S cfg hist w) (l : Realm.Lab L) : Inv S cfg (hist ++ [l]) w := by
  have hs : hist ⊆ hist ++ [l] := List.subset_append_left _ _
  refine ⟨h.reach, ?_, fun b u t hb => (h.asked b u t hb).mono hs, fun y hy u hu => hs (h.wireUser y hy u hu), ?_, ?_⟩
  · intro b i x u ts hx hw
    obtain ⟨pre, proc, topics, post, rfl, h1, h2⟩ := h.login b i x u ts hx hw
    exact ⟨pre, proc, topics, post ++ [l], by simp, h1, h2⟩
  · intro y hy
    obtain ⟨h1, h2⟩ := h.wire y hy
    exact ⟨h1, h2.imp_left (fun h => h.mono hs)⟩
  · intro t ht
    obtain ⟨h1, h2⟩ := h.pend t ht
    exact ⟨h1.imp_left (fun h => h.mono hs), fun u hu => (h2 u hu).mono hs⟩

theorem set_here (w : World σ) (b : BrokerId) (s : Sessions.St BrokerId σ) : (w.set b s).st b = s := by
  simp [World.set]

theorem set_other (w : World σ) (b : BrokerId) (s : Sessions.St BrokerId σ) {b' : BrokerId} (h : b' ≠ b) :
    (w.set b s).st b' = w.st b' := by
  simp [World.set, h]

/-- A broker makes a step: what is under way stays good; new sessions and new subscriptions have to be accounted
for. -/
theorem Inv.set {S : Scheme Pub Priv} {cfg : Cfg BrokerId σ} {hist : List (Realm.Lab L)} {w : World σ}
    (h : Inv S cfg hist w) {b : BrokerId} {s : Sessions.St BrokerId σ} {l : Sessions.Lab BrokerId}
    {os : List (TOp BrokerId Nat)} (hs : Sessions.Step cfg (w.st b) l os s)
    (hnew : ∀ u ts, l = .connect (.user u ts) →
      ∃ pre proc topics post, hist = pre ++ .login b proc u topics :: post ∧ ts = (prune cfg.valid topics).1 ∧
        Exec (brokerVerifyUser S b) (proj proc (auths pre)) (some (some (u, topics))))
    (hsub : ∀ (i : Nat) (x : Sessions.Sess BrokerId σ) (raw : Bytes) (hk : σ) (u : Bytes) (ts : List Topic) (t : Topic),
      l = .frame i raw → (w.st b).sess[i]? = some x →
      Sessions.act cfg x.hook raw x.who = (hk, .op (.subscribeUser u ts)) → t ∈ ts → Asked cfg hist b u t) :
    Inv S cfg hist (w.set b s) := by
  have hold : ∀ (b' : BrokerId) (i : Nat) (x : Sessions.Sess BrokerId σ), (w.st b').sess[i]? = some x →
      ∃ x', ((w.set b s).st b').sess[i]? = some x' ∧ x'.who = x.who := by
    intro b' i x hx
    by_cases hb : b' = b
    · subst hb
      rw [set_here]
      obtain ⟨x', h1, h2, -⟩ := Sessions.sess_step hs hx
      exact ⟨x', h1, h2⟩
    · rw [set_other w b s hb]; exact ⟨x, hx, rfl⟩
  refine ⟨?_, ?_, ?_, ?_, ?_, h.pend⟩
  · intro b'
    by_cases hb : b' = b
    · subst hb
      rw [set_here]
      obtain ⟨ls, os', hr⟩ := h.reach b'
      exact ⟨_, _, hr.then hs⟩
    · rw [set_other w b s hb]; exact h.reach b'
  · intro b' i x u ts hx hw
    by_cases hb : b' = b
    · subst hb
      rw [set_here] at hx
      rcases sess_back hs hx with ⟨x0, h1, h2⟩ | hl
      · exact h.login b' i x0 u ts h1 (h2.trans hw)
      · exact hnew u ts (by rw [hl, hw])
    · rw [set_other w b s hb] at hx
      exact h.login b' i x u ts hx hw
  · intro b' u t hbw
    by_cases hb : b' = b
    · subst hb
      rw [set_here] at hbw
      obtain ⟨ls, os', hr⟩ := h.reach b'
      rcases subs_step hs (Sessions.inv_run hr).index u t hbw with h1 | ⟨i, x, ts, hx, hw, ht⟩ | ⟨i, x, raw, hk, ts, hl, hx, ha, ht⟩
      · exact h.asked b' u t h1
      · obtain ⟨pre, proc, topics, post, rfl, rfl, -⟩ := h.login b' i x u ts hx hw
        exact .inl ⟨proc, topics, by simp, mem_prune ht⟩
      · exact hsub i x raw hk u ts t hl hx ha ht
    · rw [set_other w b s hb] at hbw
      exact h.asked b' u t hbw
  · intro y hy u hu
    refine h.wireUser y hy u ?_
    obtain ⟨⟨x, hx⟩, -⟩ := h.wire y hy
    obtain ⟨x', h1, h2⟩ := hold _ _ _ hx
    obtain ⟨x'', ts, h3, h4⟩ := hu
    rw [h1] at h3
    cases h3
    exact ⟨x, ts, hx, h2 ▸ h4⟩
  · intro y hy
    obtain ⟨⟨x, hx⟩, h2⟩ := h.wire y hy
    obtain ⟨x', h1, -⟩ := hold _ _ _ hx
    exact ⟨⟨x', h1⟩, h2⟩

/-- Frames leave. -/
theorem Inv.less {S : Scheme Pub Priv} {cfg : Cfg BrokerId σ} {hist : List (Realm.Lab L)} {w : World σ}
    (h : Inv S cfg hist w) (wire : List Realm.Item) (pend : List Realm.Todo) (inbox : List (BrokerId × Nat × Realm.Frame))
    (hw : ∀ y ∈ wire, y ∈ w.wire) (hp : ∀ y ∈ pend, y ∈ w.pend) : Inv S cfg hist ⟨w.st, wire, pend, inbox⟩ :=
  ⟨h.reach, h.login, h.asked, fun y hy => h.wireUser y (hw y hy), fun y hy => h.wire y (hw y hy),
    fun t ht => h.pend t (hp t ht)⟩

theorem mem_mid {A : Type} {front back : List A} {x y : A} (h : y ∈ front ++ back) : y ∈ front ++ x :: back := by
  rcases List.mem_append.1 h with h | h
  · exact List.mem_append_left _ h
  · exact List.mem_append_right _ (List.mem_cons_of_mem _ h)

theorem inv_run [DecidableEq Pub] {S : Scheme Pub Priv} {bkey : Pub} {cfg : Cfg BrokerId σ} (hT : Net.Transparent cfg)
    {hist : List (Realm.Lab L)} {w : World σ} (hr : Realm.Run S bkey cfg hist w) : Inv S cfg hist w := by
  induction hr with
  | nil =>
    refine ⟨fun b => ⟨[], [], .nil⟩, ?_, ?_, ?_, ?_, ?_⟩
    · intro b i x u ts hx; simp [World.new, Sessions.St.new] at hx
    · intro b u t hb
      simp [World.new, Sessions.St.new, Conns.new, RMap.Bwd, RMap.new] at hb
    all_goals intro y hy; cases hy
  | snoc hist w l w' hrun hs ih =>
    have hm : Inv S cfg (hist ++ [l]) w := ih.mono l
    cases hs with
    | auth g => exact hm
    | login b proc key topics s hexec honce h =>
      refine hm.set h ?_ (by intro i x raw hk u ts t hl; cases hl)
      intro u ts hl
      cases hl
      exact ⟨hist, proc, topics, [], rfl, rfl, hexec⟩
    | peer b v p sk b' s hv hp h =>
      exact hm.set h (by intro u ts hl; cases hl) (by intro i x raw hk u ts t hl; cases hl)
    | task b l os s hl h =>
      refine hm.set h ?_ ?_
      · rintro u ts rfl; exact hl.elim
      · rintro i x raw hk u ts t rfl; exact hl.elim
    | write b i key id raw hu =>
      refine ⟨hm.reach, hm.login, hm.asked, ?_, ?_, hm.pend⟩
      · intro y hy u hu'
        rcases List.mem_append.1 hy with hy | hy
        · exact hm.wireUser y hy u hu'
        · rw [List.mem_singleton.1 hy] at hu' ⊢
          obtain ⟨x, ts, h1, h2⟩ := hu
          obtain ⟨x', ts', h3, h4⟩ := hu'
          simp only at h3
          rw [h1] at h3
          cases h3
          rw [h2] at h4
          cases h4
          simp
      · intro y hy
        rcases List.mem_append.1 hy with hy | hy
        · exact hm.wire y hy
        · rw [List.mem_singleton.1 hy]
          obtain ⟨x, ts, h1, h2⟩ := hu
          exact ⟨⟨x, h1⟩, .inl ⟨b, i, key, by simp⟩⟩
    | own b' b i id raw hb hsync =>
      obtain ⟨x, h1, h2⟩ := hb
      refine ⟨hm.reach, hm.login, hm.asked, ?_, ?_, hm.pend⟩
      · intro y hy u hu'
        rcases List.mem_append.1 hy with hy | hy
        · exact hm.wireUser y hy u hu'
        · rw [List.mem_singleton.1 hy] at hu'
          obtain ⟨x', ts', h3, h4⟩ := hu'
          simp only at h3
          rw [h1] at h3
          cases h3
          rw [h2] at h4
          cases h4
      · intro y hy
        rcases List.mem_append.1 hy with hy | hy
        · exact hm.wire y hy
        · rw [List.mem_singleton.1 hy]
          exact ⟨⟨x, h1⟩, .inr hsync⟩
    | take b i x f front back os s hx hidle hw hfirst h =>
      have hmem : (⟨b, i, f⟩ : Realm.Item) ∈ w.wire := by rw [hw]; simp
      have hset := hm.set h (by intro u ts hl; cases hl) (by
        intro i' x' raw hk u ts t hl hx' ha ht
        cases hl
        rw [hx] at hx'
        cases hx'
        obtain ⟨⟨topics, hwho⟩, tp, hd, rfl⟩ := act_subscribes hT ha
        exact .inr ⟨_, _, _, tp, hm.wireUser _ hmem u ⟨x, topics, hx, hwho⟩, hd, mem_prune ht⟩)
      have hless := hset.less (front ++ back) w.pend w.inbox
        (by intro y hy; show y ∈ w.wire; rw [hw]; exact mem_mid hy) (fun _ h => h)
      refine ⟨hless.reach, hless.login, hless.asked, hless.wireUser, hless.wire, ?_⟩
      intro t ht
      rcases List.mem_append.1 ht with ht | ht
      · exact hm.pend t ht
      · obtain ⟨d, hd, rfl⟩ := List.mem_map.1 ht
        refine ⟨(hm.wire _ hmem).2, fun u hu => ?_⟩
        dsimp only at hu
        subst hu
        rcases routed_user hT _ _ _ _ _ hd with hdir | ⟨ts, pl, h1, t, h2, h3⟩
        · exact .inl hdir
        · exact .inr ⟨ts, pl, h1, t, h2, hm.asked b u t h3⟩
    | give b i u j f front back hp hfirst hl =>
      exact hm.less _ _ _ (fun _ h => h) (by intro y hy; rw [hp]; exact mem_mid hy)
    | drop b i f d front back hp hfirst =>
      exact hm.less _ _ _ (fun _ h => h) (by intro y hy; rw [hp]; exact mem_mid hy)
    | pass b i b' j c f front back hp hfirst hl hj =>
      have hless := hm.less w.wire (front ++ back) w.inbox (fun _ h => h) (by intro y hy; rw [hp]; exact mem_mid hy)
      obtain ⟨x, h1, h2⟩ := hj
      refine ⟨hless.reach, hless.login, hless.asked, ?_, ?_, hless.pend⟩
      · intro y hy u hu'
        rcases List.mem_append.1 hy with hy | hy
        · exact hm.wireUser y hy u hu'
        · rw [List.mem_singleton.1 hy] at hu'
          obtain ⟨x', ts', h3, h4⟩ := hu'
          simp only at h3
          rw [h1] at h3
          cases h3
          rw [h2] at h4
          cases h4
      · intro y hy
        rcases List.mem_append.1 hy with hy | hy
        · exact hm.wire y hy
        · rw [List.mem_singleton.1 hy]
          exact ⟨⟨x, h1⟩, (hm.pend ⟨b, i, f, .broker b'⟩ (by rw [hp]; simp)).1⟩

/-- A frame handed to a connection was handed to it for the user the table named, for whom it was meant. -/
theorem inbox_give [DecidableEq Pub] {S : Scheme Pub Priv} {bkey : Pub} {cfg : Cfg BrokerId σ} (hT : Net.Transparent cfg)
    {hist : List (Realm.Lab L)} {w : World σ} (hr : Realm.Run S bkey cfg hist w) {b : BrokerId} {j : Nat} {f : Realm.Frame}
    (h : (b, j, f) ∈ w.inbox) :
    ∃ pre i post w1 u, hist = pre ++ .give b i j :: post ∧ Realm.Run S bkey cfg pre w1 ∧
      (w1.st b).table.getUserConnection u = some j ∧ Meant cfg pre b u f.raw ∧ Written pre f := by
  induction hr with
  | nil => cases h
  | snoc hist w l w' hrun hs ih =>
    have old : (b, j, f) ∈ w.inbox → ∃ pre i post w1 u, hist ++ [l] = pre ++ .give b i j :: post ∧
        Realm.Run S bkey cfg pre w1 ∧ (w1.st b).table.getUserConnection u = some j ∧ Meant cfg pre b u f.raw ∧
        Written pre f := by
      intro h
      obtain ⟨pre, i, post, w1, u, rfl, h2⟩ := ih h
      exact ⟨pre, i, post ++ [l], w1, u, by simp, h2⟩
    cases hs with
    | give b1 i u j1 f1 front back hp hfirst hl =>
      rcases List.mem_append.1 h with h | h
      · exact old h
      · rw [List.mem_singleton] at h
        cases h
        obtain ⟨h1, h2⟩ := (inv_run hT hrun).pend ⟨b, i, f, .user u⟩ (by rw [hp]; simp)
        have hm := h2 u rfl
        refine ⟨hist, i, [], w, u, rfl, hrun, hl, hm, h1.resolve_right ?_⟩
        rintro ⟨d, hd⟩
        dsimp only at hm hd
        rcases hm with ⟨_, hm⟩ | ⟨_, _, hm, _⟩ <;> rcases hd with hd | hd <;> rw [hm] at hd <;> cases hd
    | _ => exact old h

/-- Writing happens on a session of the user. -/
theorem write_session [DecidableEq Pub] {S : Scheme Pub Priv} {bkey : Pub} {cfg : Cfg BrokerId σ}
    {hist : List (Realm.Lab L)} {w : World σ} (hr : Realm.Run S bkey cfg hist w) {b : BrokerId} {i : Nat} {k : Bytes} {id : Nat}
    {raw : Bytes} (h : Lab.write b i k id raw ∈ hist) :
    ∃ pre post w1, hist = pre ++ .write b i k id raw :: post ∧ Realm.Run S bkey cfg pre w1 ∧ OfUser w1 b i k := by
  induction hr with
  | nil => cases h
  | snoc hist w l w' hrun hs ih =>
    rcases List.mem_append.1 h with h | h
    · obtain ⟨pre, post, w1, rfl, h2⟩ := ih h
      exact ⟨pre, post ++ [l], w1, by simp, h2⟩
    · rw [List.mem_singleton] at h
      subst h
      cases hs with
      | write _ _ _ _ _ hu => exact ⟨hist, [], w, rfl, hrun, hu⟩

/-! ## C101 -/

/-- For any store for which being admitted means being vouched for. -/
theorem reads [DecidableEq Pub] (S : Scheme Pub Priv) (global : Bool) (bkey : Pub) (cfg : Cfg BrokerId σ)
    (hT : Net.Transparent cfg) (hist : List (Realm.Lab L)) (w : World σ) (hr : Realm.Run S bkey cfg hist w)
    (hadm : ∀ pre b proc k topics post, hist = pre ++ .login b proc k topics :: post →
      Exec (brokerVerifyUser S b) (proj proc (auths pre)) (some (some (k, topics))) → Vouched S global (auths pre) b k)
    (b : BrokerId) (j : Nat) (f : Realm.Frame) (h : (b, j, f) ∈ w.inbox) :
    ∃ pre b0 i0 k mid i post u w1 w2,
      hist = pre ++ .write b0 i0 k f.id f.raw :: (mid ++ .give b i j :: post) ∧
      Realm.Run S bkey cfg pre w1 ∧ OfUser w1 b0 i0 k ∧ Vouched S global (auths pre) b0 k ∧
      Realm.Run S bkey cfg (pre ++ .write b0 i0 k f.id f.raw :: mid) w2 ∧ OfUser w2 b j u ∧
      Vouched S global (auths (pre ++ .write b0 i0 k f.id f.raw :: mid)) b u ∧
      Meant cfg (pre ++ .write b0 i0 k f.id f.raw :: mid) b u f.raw := by
  obtain ⟨pre2, i, post, w2, u, rfl, hr2, hl, hm, b0, i0, k, hw⟩ := inbox_give hT hr h
  obtain ⟨pre, mid, w1, rfl, hr1, hu1⟩ := write_session hr2 hw
  have vouch : ∀ (p q : List (Realm.Lab L)) (w' : World σ), (pre ++ .write b0 i0 k f.id f.raw :: mid) ++ .give b i j :: post = p ++ q →
      Realm.Run S bkey cfg p w' → ∀ b' i' u', OfUser w' b' i' u' → Vouched S global (auths p) b' u' := by
    rintro p q w' hpq hp b' i' u' ⟨x, ts, hx, hwho⟩
    obtain ⟨pre', proc, topics, post', rfl, -, hexec⟩ := (inv_run hT hp).login b' i' x u' ts hx hwho
    have := hadm pre' b' proc u' topics (post' ++ q) (by rw [hpq]; simp) hexec
    rw [auths_append]
    exact this.mono _
  have hu2 : OfUser w2 b j u := by
    obtain ⟨ls, os, hreach⟩ := (inv_run hT hr2).reach b
    exact (Sessions.inv_run hreach).user u j hl
  exact ⟨pre, b0, i0, k, mid, i, post, u, w1, w2, by simp, hr1, hu1, vouch _ _ _ (by simp; rfl) hr1 _ _ _ hu1, hr2, hu2,
    vouch _ _ _ rfl hr2 _ _ _ hu2, hm⟩

/-- Redis: whatever frame a broker has handed to a connection was written before that at the other end of a session of
some broker; at that time the user of that session was vouched for. The connection is that of a session whose user was
vouched for when the frame was handed over, and the frame was meant for that user. -/
theorem C101_redis [DecidableEq Pub] (S : Scheme Pub Priv) (global : Bool) (bkey : Pub) (cfg : Cfg BrokerId σ)
    (hT : Net.Transparent cfg) (hist : List (Realm.Lab RLabel)) (w : World σ) (hr : Realm.Run S bkey cfg hist w)
    (hc : Consistent (redisStore global) (auths hist)) (roles : Nat → Role Pub Priv)
    (hplays : ∀ i, Plays S (proj i (auths hist)) (roles i)) (hclock : ∀ i, ClockSane (proj i (auths hist)))
    (hgood : ∀ b proc k topics, Lab.login b proc k topics ∈ hist → Good b)
    (b : BrokerId) (j : Nat) (f : Realm.Frame) (h : (b, j, f) ∈ w.inbox) :
    ∃ pre b0 i0 k mid i post u w1 w2,
      hist = pre ++ .write b0 i0 k f.id f.raw :: (mid ++ .give b i j :: post) ∧
      Realm.Run S bkey cfg pre w1 ∧ OfUser w1 b0 i0 k ∧ Vouched S global (auths pre) b0 k ∧
      Realm.Run S bkey cfg (pre ++ .write b0 i0 k f.id f.raw :: mid) w2 ∧ OfUser w2 b j u ∧
      Vouched S global (auths (pre ++ .write b0 i0 k f.id f.raw :: mid)) b u ∧
      Meant cfg (pre ++ .write b0 i0 k f.id f.raw :: mid) b u f.raw := by
  refine reads S global bkey cfg hT hist w hr ?_ b j f h
  rintro pre b proc k topics post rfl hex
  rw [auths_append] at hc hplays hclock
  obtain ⟨p, pre', j, b0, a, ls, mid, ls', post', h1, h2, h3, h4⟩ := C62_redis S global (auths pre) (consistent_prefix hc) roles
    (fun i => plays_prefix (by have := hplays i; rwa [proj_append] at this))
    (fun i => clock_prefix (by have := hclock i; rwa [proj_append] at this)) proc b
    (hgood b proc k topics (by simp)) k topics hex
  exact ⟨p, pre', j, b0, a, ls, mid, proc, ls', post', h1, h2, h3, h4⟩

/-- The same with SQLite. -/
theorem C101_embedded [DecidableEq Pub] (S : Scheme Pub Priv) (global : Bool) (bkey : Pub) (cfg : Cfg BrokerId σ)
    (hT : Net.Transparent cfg) (hist : List (Realm.Lab ELabel)) (w : World σ) (hr : Realm.Run S bkey cfg hist w)
    (hc : Consistent (embStore global) (auths hist)) (roles : Nat → Role Pub Priv)
    (hplays : ∀ i, Plays S (proj i (auths hist)) (roles i)) (hclock : ∀ i, ClockSane (proj i (auths hist)))
    (hgood : ∀ b proc k topics, Lab.login b proc k topics ∈ hist → Good b)
    (b : BrokerId) (j : Nat) (f : Realm.Frame) (h : (b, j, f) ∈ w.inbox) :
    ∃ pre b0 i0 k mid i post u w1 w2,
      hist = pre ++ .write b0 i0 k f.id f.raw :: (mid ++ .give b i j :: post) ∧
      Realm.Run S bkey cfg pre w1 ∧ OfUser w1 b0 i0 k ∧ Vouched S global (auths pre) b0 k ∧
      Realm.Run S bkey cfg (pre ++ .write b0 i0 k f.id f.raw :: mid) w2 ∧ OfUser w2 b j u ∧
      Vouched S global (auths (pre ++ .write b0 i0 k f.id f.raw :: mid)) b u ∧
      Meant cfg (pre ++ .write b0 i0 k f.id f.raw :: mid) b u f.raw := by
  refine reads S global bkey cfg hT hist w hr ?_ b j f h
  rintro pre b proc k topics post rfl hex
  rw [auths_append] at hc hplays hclock
  obtain ⟨p, pre', j, b0, a, ls, mid, ls', post', h1, h2, h3, h4⟩ := C62_embedded S global (auths pre) (consistent_prefix hc) roles
    (fun i => plays_prefix (by have := hplays i; rwa [proj_append] at this))
    (fun i => clock_prefix (by have := hclock i; rwa [proj_append] at this)) proc b
    (hgood b proc k topics (by simp)) k topics hex
  exact ⟨p, pre', j, b0, a, ls, mid, proc, ls', post', h1, h2, h3, h4⟩

/-- In the history the process `v` of broker `b` has received the key `bkey` that the brokers share, with a fresh timestamp and a signature
over it, made for brokers, that verifies under `bkey`, and has answered with the identifier of `b`. -/
def PeerVouched (S : Scheme Pub Priv) (bkey : Pub) (h : List (GEv L)) (b : BrokerId) (v : Nat) : Prop :=
  ∃ pk ts sig now ok, proj v h = [⟨.recv, some (.authKey pk ts sig)⟩, ⟨.clock, some now⟩,
      ⟨.send (.authResponse 1 (String.ofList b.display)), ok⟩] ∧
    S.deserialize pk = some bkey ∧ S.rawVerify bkey (ascii "espresso-cdn-broker-broker-auth" ++ le8 ts) sig = true ∧ Fresh now ts

/-- In the history the process `p` was told, after proving possession itself, that the other side is `b'`. -/
def PeerNamed (h : List (GEv L)) (p : Nat) (b' : BrokerId) : Prop :=
  ∃ ts pk sig text, proj p h = [⟨.clock, some ts⟩, ⟨.send (.authKey pk ts sig), true⟩, ⟨.recv, some (.authResponse 1 text)⟩] ∧
    BrokerId.parse text.toList = some b'

theorem peer_session [DecidableEq Pub] {S : Scheme Pub Priv} {bkey : Pub} {cfg : Cfg BrokerId σ} {hist : List (Realm.Lab L)}
    {w : World σ} (hr : Realm.Run S bkey cfg hist w) (b : BrokerId) (i : Nat) (b' : BrokerId) (h : OfBroker w b i b') :
    ∃ pre v p sk post, hist = pre ++ .peer b v p b' :: post ∧
      Exec (brokerVerifyBroker S b bkey) (proj v (auths pre)) (some (some ())) ∧
      Exec (brokerWithBroker S bkey sk) (proj p (auths pre)) (some (some b')) := by
  induction hr generalizing b i b' with
  | nil => obtain ⟨x, hx, -⟩ := h; simp [World.new, Sessions.St.new] at hx
  | snoc hist w l w' hr hs ih =>
    -- whoever was there before
    have old : OfBroker w b i b' → ∃ pre v p sk post, hist ++ [l] = pre ++ .peer b v p b' :: post ∧
        Exec (brokerVerifyBroker S b bkey) (proj v (auths pre)) (some (some ())) ∧
        Exec (brokerWithBroker S bkey sk) (proj p (auths pre)) (some (some b')) := by
      intro ho
      obtain ⟨pre, v, p, sk, post, rfl, h1, h2⟩ := ih b i b' ho
      exact ⟨pre, v, p, sk, post ++ [l], by simp, h1, h2⟩
    -- a broker makes a step
    have upd : ∀ (c : BrokerId) (s : Sessions.St BrokerId σ) (sl : Sessions.Lab BrokerId) (os : List (TOp BrokerId Nat)),
        w'.st = (w.set c s).st → Sessions.Step cfg (w.st c) sl os s → OfBroker w b i b' ∨ (b = c ∧ sl = .connect (.broker b')) := by
      intro c s sl os he hst
      obtain ⟨x, hx, hw⟩ := h
      rw [he] at hx
      by_cases e : b = c
      · subst e
        rw [set_here] at hx
        rcases sess_back hst hx with ⟨y, hy, e2⟩ | e2
        · exact .inl ⟨y, hy, e2.trans hw⟩
        · exact .inr ⟨rfl, hw ▸ e2⟩
      · rw [set_other _ _ _ e] at hx
        exact .inl ⟨x, hx, hw⟩
    cases hs with
    | auth g => exact old h
    | write c j key id raw hu => exact old h
    | own c' c j id raw ho hsync => exact old h
    | give c j u k f front back hp hf hl => exact old h
    | pass c j c' k cc f front back hp hf hl hj => exact old h
    | drop c j f d front back hp hf => exact old h
    | login c proc key topics s hexec honce hst =>
      rcases upd c s _ _ rfl hst with ho | ⟨-, e⟩
      · exact old ho
      · cases e
    | peer c v p sk c' s hv hp hst =>
      rcases upd c s _ _ rfl hst with ho | ⟨rfl, e⟩
      · exact old ho
      · cases e
        exact ⟨hist, v, p, sk, [], rfl, hv, hp⟩
    | task c sl os s hl hst =>
      rcases upd c s _ _ rfl hst with ho | ⟨rfl, e⟩
      · exact old ho
      · subst e; exact hl.elim
    | take c j x f front back os s hx hidle hw hfirst hst =>
      rcases upd c s _ _ rfl hst with ho | ⟨rfl, e⟩
      · exact old ho
      · cases e

/-- **C101**, the brokers in between: a session that a broker has with a broker `b'` was begun after the other side had shown a
fresh signature under the key the brokers share, and after the other side, having been shown one, had said it is `b'`. So
what comes from another broker comes from a holder of the brokers' key. -/
theorem C101_peers [DecidableEq Pub] (S : Scheme Pub Priv) (bkey : Pub) (cfg : Cfg BrokerId σ) (hist : List (Realm.Lab L)) (w : World σ)
    (hr : Realm.Run S bkey cfg hist w) (hclock : ∀ i, ClockSane (proj i (auths hist)))
    (b : BrokerId) (i : Nat) (b' : BrokerId) (h : OfBroker w b i b') :
    ∃ pre v p post, hist = pre ++ .peer b v p b' :: post ∧ PeerVouched S bkey (auths pre) b v ∧ PeerNamed (auths pre) p b' := by
  obtain ⟨pre, v, p, sk, post, rfl, h1, h2⟩ := peer_session hr b i b' h
  refine ⟨pre, v, p, post, rfl, ?_, ?_⟩
  · refine (C37_accepts_iff S b bkey _ (clock_prefix (b := proj v (auths (.peer b v p b' :: post))) ?_)).1 h1
    rw [← proj_append, ← auths_append]; exact hclock v
  · obtain ⟨ts, pk, sig, text, -, -, h3, h4⟩ := (Handshake.C37_dialer_iff S bkey sk _ b').1 h2
    exact ⟨ts, pk, sig, text, h4, h3⟩

/-! ## A concrete case: two users at two brokers

User `[7]` at `bA` sends a direct message to user `[8]` at `bB`. -/

def bB : BrokerId := ⟨"b".toList, "B".toList⟩

/-- Each entry agrees with the store, given the steps of the store before it. -/
def FitsFrom (st : Store L) : List L → List (GEv L) → Prop
  | _, [] => True
  | old, g :: h => Fits st old g ∧ FitsFrom st (old ++ labels [g]) h

theorem consistent_of_fits {st : Store L} {old : List L} {h : List (GEv L)} (hf : FitsFrom st old h) :
    ∀ pre g post, h = pre ++ g :: post → Fits st (old ++ labels pre) g := by
  induction h generalizing old with
  | nil => intro pre g post h; simp at h
  | cons x h ih =>
    intro pre g post he
    cases pre with
    | nil => cases he; simpa [labels] using hf.1
    | cons y pre =>
      cases he
      have := ih hf.2 pre g post rfl
      cases x <;> simpa [labels] using this

/-- Marshal 0 admits `[7]` and sends it to `bA`, whose process 1 validates the permit; marshal 2 admits `[8]` and sends it
to `bB`, whose process 3 validates the permit; processes 4 and 5 of `bA`, 6 and 7 of `bB` authenticate the brokers to each
other. -/
def demoAuth : List (GEv RLabel) :=
  [.act 0 ⟨.recv, some (.authKey [7] 100 (7 :: signedBytes .userMarshal 100))⟩ [],
   .other (.heartbeat bA 0 60 100),
   .other (.heartbeat bB 0 60 100),
   .act 0 ⟨.clock, some 103⟩ [], .act 0 ⟨.check [7], some true⟩ [], .act 0 ⟨.least, some bA⟩ [],
   .act 1 ⟨.recv, some (.authPermit 55)⟩ [],
   .act 0 ⟨.issue bA [7], some 55⟩ [.issue bA [7] 30 103 55],
   .act 2 ⟨.recv, some (.authKey [8] 100 (8 :: signedBytes .userMarshal 100))⟩ [],
   .act 2 ⟨.clock, some 103⟩ [], .act 2 ⟨.check [8], some true⟩ [], .act 2 ⟨.least, some bB⟩ [],
   .act 2 ⟨.issue bB [8], some 56⟩ [.issue bB [8] 30 103 56],
   .act 1 ⟨.validate bA 55, some (some [7])⟩ [.validate bA 55 104],
   .act 0 ⟨.send (.authResponse 55 "a"), true⟩ [],
   .act 2 ⟨.send (.authResponse 56 "b"), true⟩ [],
   .act 1 ⟨.send (.authResponse 1 ""), true⟩ [],
   .act 1 ⟨.recv, some (.subscribe [3])⟩ [],
   .act 3 ⟨.recv, some (.authPermit 56)⟩ [],
   .act 3 ⟨.validate bB 56, some (some [8])⟩ [.validate bB 56 105],
   .act 3 ⟨.send (.authResponse 1 ""), true⟩ [],
   .act 3 ⟨.recv, some (.subscribe [])⟩ [],
   .act 5 ⟨.clock, some 100⟩ [],
   .act 5 ⟨.send (.authKey [9] 100 (9 :: signedBytes .brokerBroker 100)), true⟩ [],
   .act 6 ⟨.recv, some (.authKey [9] 100 (9 :: signedBytes .brokerBroker 100))⟩ [],
   .act 6 ⟨.clock, some 101⟩ [],
   .act 6 ⟨.send (.authResponse 1 (String.ofList bB.display)), true⟩ [],
   .act 5 ⟨.recv, some (.authResponse 1 "b/B")⟩ [],
   .act 7 ⟨.clock, some 100⟩ [],
   .act 7 ⟨.send (.authKey [9] 100 (9 :: signedBytes .brokerBroker 100)), true⟩ [],
   .act 4 ⟨.recv, some (.authKey [9] 100 (9 :: signedBytes .brokerBroker 100))⟩ [],
   .act 4 ⟨.clock, some 101⟩ [],
   .act 4 ⟨.send (.authResponse 1 (String.ofList bA.display)), true⟩ [],
   .act 7 ⟨.recv, some (.authResponse 1 "a/A")⟩ []]

theorem good_bA : Good bA := by constructor <;> unfold Props.Ident.NoSlash <;> decide
theorem good_bB : Good bB := by constructor <;> unfold Props.Ident.NoSlash <;> decide

theorem fits_heartbeat {b : BrokerId} (hb : Good b) (n d t : Nat) (old : List RLabel) :
    Fits (redisStore false) old (.other (.heartbeat b n d t)) :=
  ⟨hb, fun _ _ _ ⟨_, _, _, h, _⟩ => (by cases h), fun _ _ ⟨_, h⟩ => (by cases h)⟩

theorem demoAuth_consistent : Consistent (redisStore false) demoAuth := by
  intro pre g post h
  have key : FitsFrom (redisStore false) [] demoAuth := by
    refine ⟨rfl, fits_heartbeat good_bA _ _ _ _, fits_heartbeat good_bB _ _ _ _, rfl, rfl, rfl, rfl, ?_, rfl, rfl, rfl, rfl,
      ?_, ?_, rfl, rfl, rfl, rfl, rfl, ?_, rfl, rfl, rfl, rfl, rfl, rfl, rfl, rfl, rfl, rfl, rfl, rfl, rfl, rfl, trivial⟩
    · refine Or.inr ⟨_, 55, rfl, good_bA, ⟨_, _, _, rfl, rfl⟩, ?_⟩
      intro r hr
      simp only [Option.some.injEq] at hr
      subst hr
      exact ⟨rfl, 133, by decide +kernel⟩
    · refine Or.inr ⟨_, 56, rfl, good_bB, ⟨_, _, _, rfl, rfl⟩, ?_⟩
      intro r hr
      simp only [Option.some.injEq] at hr
      subst hr
      exact ⟨rfl, 133, by decide +kernel⟩
    · refine Or.inr ⟨_, rfl, good_bA, ⟨_, rfl⟩, ?_⟩
      intro r hr
      simp only [Option.some.injEq] at hr
      subst hr
      decide +kernel
    · refine Or.inr ⟨_, rfl, good_bB, ⟨_, rfl⟩, ?_⟩
      intro r hr
      simp only [Option.some.injEq] at hr
      subst hr
      decide +kernel
  simpa using consistent_of_fits key pre g post h

theorem demo_marshal (k : UInt8) (b : BrokerId) (p : UInt64) (name : String) (hname : String.ofList b.pub = name)
    (hv : toy.verify k .userMarshal 100 (k :: signedBytes .userMarshal 100) = true) :
    Exec (marshalVerifyUser toy)
    [⟨.recv, some (.authKey [k] 100 (k :: signedBytes .userMarshal 100))⟩, ⟨.clock, some 103⟩,
     ⟨.check [k], some true⟩, ⟨.least, some b⟩, ⟨.issue b [k], some p⟩,
     ⟨.send (.authResponse p name), true⟩] (some (some [k])) := by
  subst hname
  refine .op _ _ _ _ _ ?_
  show Exec (if _ then _ else _) _ _
  rw [if_neg (by rw [hv]; simp)]
  refine .op _ _ _ _ _ ?_
  show Exec (if _ then _ else _) _ _
  rw [if_neg (by decide +kernel)]
  exact .op _ _ _ _ _ (.op _ _ _ _ _ (.op _ _ _ _ _ (.op _ _ _ _ _ (.ret _))))

theorem demo_admit (k : UInt8) (b : BrokerId) (p : UInt64) (ts : List Topic) : Exec (brokerVerifyUser toy b)
    [⟨.recv, some (.authPermit p)⟩, ⟨.validate b p, some (some [k])⟩, ⟨.send (.authResponse 1 ""), true⟩,
     ⟨.recv, some (.subscribe ts)⟩] (some (some ([k], ts))) :=
  .op _ _ _ _ _ (.op _ _ _ _ _ (.op _ _ _ _ _ (.op _ _ _ _ _ (.ret _))))

theorem demo_verifies (b : BrokerId) : Exec (brokerVerifyBroker toy b 9)
    [⟨.recv, some (.authKey [9] 100 (9 :: signedBytes .brokerBroker 100))⟩, ⟨.clock, some 101⟩,
     ⟨.send (.authResponse 1 (String.ofList b.display)), true⟩] (some (some ())) := by
  refine .op _ _ _ _ _ ?_
  show Exec (if _ then _ else _) _ _
  rw [if_neg (by decide +kernel)]
  refine .op _ _ _ _ _ ?_
  show Exec (if _ then _ else _) _ _
  rw [if_neg (by decide +kernel)]
  show Exec (if _ then _ else _) _ _
  rw [if_neg (by decide)]
  exact .op _ _ _ _ _ (.ret _)

theorem demo_proves (b : BrokerId) (name : String) (h : BrokerId.parse name.toList = some b) :
    Exec (brokerWithBroker toy 9 9)
    [⟨.clock, some 100⟩, ⟨.send (.authKey [9] 100 (9 :: signedBytes .brokerBroker 100)), true⟩,
     ⟨.recv, some (.authResponse 1 name)⟩] (some (some b)) := by
  refine .op _ _ _ _ _ (.op _ _ _ _ _ (.op _ _ _ _ _ ?_))
  show Exec (if _ then _ else _) _ _
  rw [if_pos rfl, h]
  exact .ret _

theorem parse_a : BrokerId.parse "a/A".toList = some bA := by decide +kernel
theorem parse_b : BrokerId.parse "b/B".toList = some bB := by decide +kernel

def demoRoles : Nat → Role UInt8 UInt8
  | 0 => .marshal | 1 => .broker bA | 2 => .marshal | 3 => .broker bB | 4 => .brokerFromBroker bA 9 | 5 => .brokerToBroker 9 9
  | 6 => .brokerFromBroker bB 9 | 7 => .brokerToBroker 9 9 | _ => .userToMarshal 7 7

theorem demoAuth_plays (i : Nat) : Plays toy (proj i demoAuth) (demoRoles i) := by
  match i with
  | 0 => exact ⟨_, demo_marshal 7 bA 55 "a" (by decide +kernel) (by decide +kernel)⟩
  | 1 => exact ⟨_, demo_admit 7 bA 55 [3]⟩
  | 2 => exact ⟨_, demo_marshal 8 bB 56 "b" (by decide +kernel) (by decide +kernel)⟩
  | 3 => exact ⟨_, demo_admit 8 bB 56 []⟩
  | 4 => exact ⟨_, demo_verifies bA⟩
  | 5 => exact ⟨_, demo_proves bB _ parse_b⟩
  | 6 => exact ⟨_, demo_verifies bB⟩
  | 7 => exact ⟨_, demo_proves bA _ parse_a⟩
  | n + 8 => exact ⟨none, by simp [demoAuth, proj]; exact .stop _⟩

theorem demoAuth_clock (i : Nat) : ClockSane (proj i demoAuth) := by
  match i with
  | 0 | 1 | 2 | 3 | 4 | 5 | 6 | 7 => intro now hn; simp [demoAuth, proj] at hn <;> simp [hn]
  | n + 8 => intro now hn; simp [demoAuth, proj] at hn

/-- `[1]` is the user sync of `bB`, `[3, u]` a direct message to `[u]`. -/
def demoCfg : Cfg BrokerId Unit where
  decode := fun raw => match raw with
    | [1] => some (.userSync [])
    | [3, u] => some (.direct [u] [])
    | _ => none
  decUserSync := fun _ => some (((VMap.new bB).insert [8] bB))
  decTopicSync := fun _ => none
  valid := fun t => t < 100
  userHook := fun h m => (h, m, .process)
  brokerHook := fun h m => (h, m, .process)

/-! Some of the steps as a function, to compute with. -/

/-- The tasks of one broker. -/
def sessNext (cfg : Cfg BrokerId σ) (s : Sessions.St BrokerId σ) : Sessions.Lab BrokerId → Option (Sessions.St BrokerId σ)
  | .spawn i => match s.sess[i]? with
    | some x => if x.h = .fresh then some { s with sess := s.sess.set i { x with h := .spawned, l := .asleep } } else none
    | none => none
  | .register i => match s.sess[i]? with
    | some x => if x.h = .spawned then
        some { s with table := s.table.step (x.who.add i), sess := s.sess.set i { x with h := .registered } } else none
    | none => none
  | .wake i => match s.sess[i]? with
    | some x => if x.l = .asleep ∧ i ∉ s.table.aborted then some { s with sess := s.sess.set i { x with l := .awake } } else none
    | none => none
  | .frame i raw => match s.sess[i]? with
    | some x => if x.l = .awake then
        match Sessions.act cfg x.hook raw x.who with
        | (hk, .op o) => some { s with table := s.table.step o, sess := s.sess.set i { x with hook := hk } }
        | (hk, .idle) => some { s with sess := s.sess.set i { x with hook := hk } }
        | (hk, .fail) => some { s with sess := s.sess.set i { x with hook := hk, l := .failed } }
      else none
    | none => none
  | _ => none

theorem sessNext_step {cfg : Cfg BrokerId σ} {s s' : Sessions.St BrokerId σ} {l : Sessions.Lab BrokerId}
    (h : sessNext cfg s l = some s') : ∃ os, Sessions.Step cfg s l os s' := by
  cases l with
  | spawn i =>
    simp only [sessNext] at h
    split at h
    · next x hx => split at h <;> cases h; exact ⟨_, .spawn i x hx ‹_›⟩
    · cases h
  | register i =>
    simp only [sessNext] at h
    split at h
    · next x hx => split at h <;> cases h; exact ⟨_, .register i x hx ‹_›⟩
    · cases h
  | wake i =>
    simp only [sessNext] at h
    split at h
    · next x hx =>
      split at h
      · next hc => cases h; exact ⟨_, .wake i x hx hc.1 hc.2⟩
      · cases h
    · cases h
  | frame i raw =>
    simp only [sessNext] at h
    split at h
    · next x hx =>
      split at h
      · next hl =>
        split at h
        · next ha => cases h; exact ⟨_, .frameOp i x hx hl raw _ _ ha⟩
        · next ha => cases h; exact ⟨_, .frameIdle i x hx hl raw _ ha⟩
        · next ha => cases h; exact ⟨_, .frameFail i x hx hl raw _ ha⟩
      · cases h
    · cases h
  | _ => cases h

/-- The first entry with `p`. -/
def pick {α : Type} (p : α → Bool) : List α → Option (List α × α × List α)
  | [] => none
  | a :: l => if p a then some ([], a, l) else (pick p l).map fun r => (a :: r.1, r.2)

theorem pick_spec {α : Type} {p : α → Bool} {l front back : List α} {a : α} (h : pick p l = some (front, a, back)) :
    l = front ++ a :: back ∧ p a = true ∧ ∀ x ∈ front, ¬ p x = true := by
  induction l generalizing front with
  | nil => cases h
  | cons x l ih =>
    simp only [pick] at h
    split at h
    · cases h; exact ⟨rfl, ‹_›, by simp⟩
    · next hx =>
      cases hp : pick p l with
      | none => rw [hp] at h; cases h
      | some r =>
        obtain ⟨f', a', b'⟩ := r
        rw [hp] at h
        cases h
        obtain ⟨h1, h2, h3⟩ := ih hp
        refine ⟨by simp [h1], h2, ?_⟩
        intro y hy
        rcases List.mem_cons.1 hy with rfl | hy
        · exact hx
        · exact h3 y hy

def isUser : Sessions.Who BrokerId → Bytes → Bool
  | .user k _, u => k = u
  | .broker _, _ => false

def isBroker : Sessions.Who BrokerId → BrokerId → Bool
  | .user _ _, _ => false
  | .broker b, b' => b = b'

def isSync (cfg : Cfg BrokerId σ) (raw : Bytes) : Bool :=
  match cfg.decode raw with
  | some (.userSync _) => true
  | some (.topicSync _) => true
  | _ => false

/-- All brokers. -/
def next (cfg : Cfg BrokerId σ) (w : World σ) : Realm.Lab L → Option (World σ)
  | .task b l => match l with
    | .spawn i => (sessNext cfg (w.st b) (.spawn i)).map (w.set b)
    | .register i => (sessNext cfg (w.st b) (.register i)).map (w.set b)
    | .wake i => (sessNext cfg (w.st b) (.wake i)).map (w.set b)
    | _ => none
  | .write b i key id raw => match (w.st b).sess[i]? with
    | some x => if isUser x.who key then some { w with wire := w.wire ++ [⟨b, i, ⟨id, raw⟩⟩] } else none
    | none => none
  | .own b' b i id raw => match (w.st b).sess[i]? with
    | some x => if isBroker x.who b' ∧ isSync cfg raw then some { w with wire := w.wire ++ [⟨b, i, ⟨id, raw⟩⟩] } else none
    | none => none
  | .take b i => match (w.st b).sess[i]?, pick (fun y : Realm.Item => decide (y.here = b ∧ y.conn = i)) w.wire with
    | some x, some (front, y, back) =>
      if ∀ t ∈ w.pend, ¬ (t.here = b ∧ t.conn = i) then
        (sessNext cfg (w.st b) (.frame i y.frame.raw)).map fun s =>
          { w.set b s with
            wire := front ++ back
            pend := w.pend ++ (routed cfg (w.st b).table x.hook y.frame.raw x.who).map (fun d => ⟨b, i, y.frame, d⟩) }
      else none
    | _, _ => none
  | .give b i j => match pick (fun y : Realm.Todo => decide (y.here = b ∧ y.conn = i)) w.pend with
    | some (front, ⟨_, _, f, .user u⟩, back) =>
      if (w.st b).table.getUserConnection u = some j then
        some { w with pend := front ++ back, inbox := w.inbox ++ [(b, j, f)] } else none
    | _ => none
  | .pass b i b' j => match pick (fun y : Realm.Todo => decide (y.here = b ∧ y.conn = i)) w.pend, (w.st b').sess[j]? with
    | some (front, ⟨_, _, f, .broker b1⟩, back), some x =>
      if b1 = b' ∧ ((w.st b).table.getBrokerConnection b').isSome ∧ isBroker x.who b then
        some { w with pend := front ++ back, wire := w.wire ++ [⟨b', j, f⟩] } else none
    | _, _ => none
  | _ => none

theorem next_step [DecidableEq Pub] {S : Scheme Pub Priv} {bkey : Pub} {cfg : Cfg BrokerId σ} {past : List (Realm.Lab L)}
    {w w' : World σ} {l : Realm.Lab L} (h : next cfg w l = some w') : Realm.Step S bkey cfg past w l w' := by
  cases l with
  | task b l =>
    have key : ∀ l, Inner l → (sessNext cfg (w.st b) l).map (w.set b) = some w' → Realm.Step S bkey cfg past w (.task b l) w' := by
      intro l hl h
      rw [Option.map_eq_some_iff] at h
      obtain ⟨s, hs, rfl⟩ := h
      obtain ⟨os, hs⟩ := sessNext_step hs
      exact .task b l os s hl hs
    cases l with
    | spawn i => exact key _ trivial h
    | register i => exact key _ trivial h
    | wake i => exact key _ trivial h
    | _ => cases h
  | write b i key id raw =>
    simp only [next] at h
    split at h
    · next x hx =>
      split at h
      · next hu =>
        cases h
        refine .write b i key id raw ?_
        cases hw : x.who with
        | user k ts => rw [hw] at hu; simp only [isUser, decide_eq_true_eq] at hu; subst hu; exact ⟨x, ts, hx, hw⟩
        | broker b => rw [hw] at hu; cases hu
      · cases h
    · cases h
  | own b' b i id raw =>
    simp only [next] at h
    split at h
    · next x hx =>
      split at h
      · next hu =>
        cases h
        refine .own b' b i id raw ?_ ?_
        · cases hw : x.who with
          | broker b => rw [hw] at hu; simp only [isBroker, decide_eq_true_eq] at hu; rw [hu.1] at hw; exact ⟨x, hx, hw⟩
          | user b => rw [hw] at hu; cases hu.1
        · have := hu.2
          simp only [isSync] at this
          split at this
          · next d hd => exact ⟨d, .inl hd⟩
          · next d hd => exact ⟨d, .inr hd⟩
          · cases this
      · cases h
    · cases h
  | take b i =>
    simp only [next] at h
    split at h
    · next x front y back hx hp =>
      split at h
      · next hidle =>
        rw [Option.map_eq_some_iff] at h
        obtain ⟨s, hs, rfl⟩ := h
        obtain ⟨os, hs⟩ := sessNext_step hs
        obtain ⟨h1, h2, h3⟩ := pick_spec hp
        obtain ⟨here, conn, f⟩ := y
        simp only [decide_eq_true_eq] at h2 h3
        obtain ⟨rfl, rfl⟩ := h2
        exact .take _ _ x f front back os s hx hidle h1 h3 hs
      · cases h
    · cases h
  | give b i j =>
    simp only [next] at h
    split at h
    · next front here conn f u back hp =>
      split at h
      · next hl =>
        cases h
        obtain ⟨h1, h2, h3⟩ := pick_spec hp
        simp only [decide_eq_true_eq] at h2 h3
        obtain ⟨rfl, rfl⟩ := h2
        exact .give _ _ u j f front back h1 h3 hl
      · cases h
    · cases h
  | pass b i b' j =>
    simp only [next] at h
    split at h
    · next front here conn f b1 back x hp hx =>
      split at h
      · next hl =>
        cases h
        obtain ⟨rfl, hl, hb⟩ := hl
        obtain ⟨c, hc⟩ := Option.isSome_iff_exists.1 hl
        obtain ⟨h1, h2, h3⟩ := pick_spec hp
        simp only [decide_eq_true_eq] at h2 h3
        obtain ⟨rfl, rfl⟩ := h2
        refine .pass _ _ b1 j c f front back h1 h3 hc ?_
        cases hw : x.who with
        | broker b => rw [hw] at hb; simp only [isBroker, decide_eq_true_eq] at hb; subst hb; exact ⟨x, hx, hw⟩
        | user b => rw [hw] at hb; cases hb
      · cases h
    · cases h
  | _ => cases h

def nexts (cfg : Cfg BrokerId σ) : World σ → List (Realm.Lab L) → Option (World σ)
  | w, [] => some w
  | w, l :: ls => (next cfg w l).bind fun w' => nexts cfg w' ls

theorem nexts_run [DecidableEq Pub] {S : Scheme Pub Priv} {bkey : Pub} {cfg : Cfg BrokerId σ} {past ls : List (Realm.Lab L)}
    {w w' : World σ} (hr : Realm.Run S bkey cfg past w) (h : nexts cfg w ls = some w') : Realm.Run S bkey cfg (past ++ ls) w' := by
  induction ls generalizing past w with
  | nil => cases h; simpa using hr
  | cons l ls ih =>
    simp only [nexts] at h
    cases hn : next cfg w l with
    | none => rw [hn] at h; cases h
    | some w1 =>
      rw [hn] at h
      have := ih (.snoc past w l w1 hr (next_step hn)) h
      simpa using this

theorem auths_map (gs : List (GEv L)) : auths (gs.map Realm.Lab.auth) = gs := by
  induction gs with
  | nil => rfl
  | cons g gs ih => simp [auths, ih]

theorem run_auths [DecidableEq Pub] {S : Scheme Pub Priv} {bkey : Pub} {cfg : Cfg BrokerId σ} {past : List (Realm.Lab L)}
    {w : World σ} (hr : Realm.Run S bkey cfg past w) (gs : List (GEv L)) :
    Realm.Run S bkey cfg (past ++ gs.map Realm.Lab.auth) w := by
  induction gs generalizing past with
  | nil => simpa using hr
  | cons g gs ih => simpa using ih (.snoc past w _ w hr (.auth g))

/-- The four sessions begin. -/
def demoLogins : List (Realm.Lab RLabel) :=
  [.login bA 1 [7] [3], .login bB 3 [8] [], .peer bA 4 5 bB, .peer bB 6 7 bA]

def begun (w : World Unit) (b : BrokerId) (who : Sessions.Who BrokerId) : World Unit :=
  w.set b { w.st b with sess := (w.st b).sess ++ [⟨who, (), .fresh, .none⟩] }

def demoW : World Unit :=
  begun (begun (begun (begun World.new bA (.user [7] (prune demoCfg.valid [3]).1)) bB (.user [8] (prune demoCfg.valid []).1))
    bA (.broker bB)) bB (.broker bA)

/-- The tasks start; `bA` learns from `bB` that `[8]` is there; `[7]` writes; the frame passes both brokers. -/
def demoRest : List (Realm.Lab RLabel) :=
  [.task bA (.spawn 0), .task bA (.register 0), .task bA (.wake 0), .task bA (.spawn 1), .task bA (.wake 1), .task bA (.register 1),
   .task bB (.spawn 0), .task bB (.register 0), .task bB (.wake 0), .task bB (.spawn 1), .task bB (.register 1), .task bB (.wake 1),
   .own bB bA 1 0 [1], .take bA 1, .write bA 0 [7] 1 [3, 8], .take bA 0, .pass bA 0 bB 1, .take bB 1, .give bB 1 0]

def demoHist : List (Realm.Lab RLabel) := demoAuth.map .auth ++ demoLogins ++ demoRest

theorem demo_start : Realm.Run toy 9 demoCfg (demoAuth.map .auth ++ demoLogins) demoW := by
  have h0 : Realm.Run toy 9 demoCfg (demoAuth.map Realm.Lab.auth) World.new := run_auths .nil demoAuth
  have h1 := Realm.Run.snoc _ _ _ _ h0 (.login bA 1 [7] [3] _ (by rw [auths_map]; exact demo_admit 7 bA 55 [3])
    (by intro _ _ _ h; simp at h) (.connect _ ()))
  have h2 := Realm.Run.snoc _ _ _ _ h1 (.login bB 3 [8] [] _
    (by rw [auths_append, auths_map]; exact demo_admit 8 bB 56 [])
    (by intro _ _ _ h; simp at h) (.connect _ ()))
  have h3 := Realm.Run.snoc _ _ _ _ h2 (.peer bA 4 5 9 bB _
    (by rw [auths_append, auths_append, auths_map]; exact demo_verifies bA)
    (by rw [auths_append, auths_append, auths_map]; exact demo_proves bB _ parse_b) (.connect _ ()))
  have h4 := Realm.Run.snoc _ _ _ _ h3 (.peer bB 6 7 9 bA _
    (by rw [auths_append, auths_append, auths_append, auths_map]; exact demo_verifies bB)
    (by rw [auths_append, auths_append, auths_append, auths_map]; exact demo_proves bA _ parse_a) (.connect _ ()))
  have he : demoAuth.map Realm.Lab.auth ++ demoLogins =
      (((demoAuth.map Realm.Lab.auth ++ [.login bA 1 [7] [3]]) ++ [.login bB 3 [8] []]) ++ [.peer bA 4 5 bB]) ++
        [.peer bB 6 7 bA] := by simp [demoLogins]
  rw [he]
  exact h4

theorem demo_rest : (nexts demoCfg demoW demoRest).map (·.inbox) = some [(bB, 0, ⟨1, [3, 8]⟩)] := by
  decide +kernel

theorem demo_auths : auths demoHist = demoAuth := by
  rw [demoHist, auths_append, auths_append, auths_map]
  exact List.append_nil _

/-- The hypotheses of `C101_redis` can be met, with a frame that a user has written at one broker and another user reads
at another. -/
example : ∃ w : World Unit, Realm.Run toy 9 demoCfg demoHist w ∧ Net.Transparent demoCfg ∧
    Consistent (redisStore false) (auths demoHist) ∧ (∀ i, Plays toy (proj i (auths demoHist)) (demoRoles i)) ∧
    (∀ i, ClockSane (proj i (auths demoHist))) ∧
    (∀ b proc k topics, Lab.login b proc k topics ∈ demoHist → Good b) ∧ (bB, 0, ⟨1, [3, 8]⟩) ∈ w.inbox := by
  obtain ⟨w, hw, hin⟩ := Option.map_eq_some_iff.1 demo_rest
  refine ⟨w, nexts_run demo_start hw, fun _ _ => ⟨rfl, rfl⟩, ?_, ?_, ?_, ?_, by rw [hin]; simp⟩
  · rw [demo_auths]; exact demoAuth_consistent
  · rw [demo_auths]; exact demoAuth_plays
  · rw [demo_auths]; exact demoAuth_clock
  · intro b proc k topics h
    simp only [demoHist, List.mem_append, List.mem_map, demoLogins, demoRest] at h
    rcases h with (⟨_, _, h⟩ | h) | h
    · cases h
    · simp at h
      rcases h with h | h
      · rw [h.1]; exact good_bA
      · rw [h.1]; exact good_bB
    · simp at h

/-- The hypotheses of `C101_peers` can be met. -/
example : Realm.Run toy 9 demoCfg (demoAuth.map .auth ++ demoLogins) demoW ∧ OfBroker demoW bA 1 bB ∧ OfBroker demoW bB 1 bA :=
  ⟨demo_start, ⟨_, rfl, rfl⟩, ⟨_, rfl, rfl⟩⟩

end Verif.Props.Realm

import Verif.Props.Realm

/-!
# C102: one proof of possession, one session
-/

set_option linter.unusedSectionVars false

namespace Verif.Props.Realm
open Verif Verif.Auth Verif.Disc Verif.Broker Verif.Realm Verif.Props.Auth Verif.Props.AuthWorld

variable {Pub Priv L σ : Type}

/-! ## Where in a history a permit was issued -/

/-- What the proof needs of a store. `Id b b'`: the same number at `b` and at `b'` is the same permit. -/
structure Ledgered (st : Store L) (global : Bool) (Id : BrokerId → BrokerId → Prop) : Prop where
  nil : st.trace [] = []
  pref : ∀ old new, ∃ ev, st.trace (old ++ new) = st.trace old ++ ev
  sound : ∀ ls, (∀ l ∈ ls, st.ok l) → ∀ b, Good b → ∀ p k pre post, st.trace ls = pre ++ .asked b p (some k) :: post →
    ∃ exp, Valid Id (MayRedeem global) pre b p k exp
  issue : ∀ old l b p k exp, PEv.issued b p k exp ∈ st.added old [l] → st.isIssue b p k l
  val : ∀ b p l old, st.isValidate b p l → ∀ b' p' k exp, PEv.issued b' p' k exp ∉ st.added old [l]
  inj : ∀ l b b' p p' k k', st.isIssue b p k l → st.isIssue b' p' k' l → b = b' ∧ p = p' ∧ k = k'
  /-- two brokers that may redeem the same permit take its number for the same permit -/
  id : ∀ b0 b b', MayRedeem global b0 b → MayRedeem global b0 b' → Id b b'

variable {st : Store L} {global : Bool} {Id : BrokerId → BrokerId → Prop}

theorem Ledgered.split (hl : Ledgered st global Id) (old new : List L) :
    st.trace (old ++ new) = st.trace old ++ st.added old new := by
  obtain ⟨ev, h⟩ := hl.pref old new
  rw [Store.added, h, List.drop_left]

theorem Ledgered.added_nil (hl : Ledgered st global Id) (old : List L) : st.added old [] = [] := by
  have := hl.split old []
  rw [List.append_nil] at this
  exact List.self_eq_append_right.1 this

/-- An event of the trace belongs to an entry of the history, and what later entries add comes later in the trace. -/
theorem locate (hl : Ledgered st global Id) (h : List (GEv L)) (a c : List PEv) (e : PEv)
    (ht : st.trace (labels h) = a ++ e :: c) :
    ∃ h1 g h2, h = h1 ++ g :: h2 ∧ e ∈ st.added (labels h1) (labels [g]) ∧
      ∀ x ∈ st.added (labels (h1 ++ [g])) (labels h2), x ∈ c := by
  induction h using List.reverseRecOn generalizing c with
  | nil => simp [labels, hl.nil] at ht
  | append_singleton h g ih =>
    rw [labels_append, hl.split] at ht
    rcases List.append_eq_append_iff.1 ht with ⟨c1, h1, h2⟩ | ⟨c1, h1, h2⟩
    · exact ⟨h, g, [], rfl, by rw [h2]; simp, by simp [labels, hl.added_nil]⟩
    · rcases c1 with _ | ⟨e', c1⟩
      · exact ⟨h, g, [], rfl, by simp at h2; rw [← h2]; simp, by simp [labels, hl.added_nil]⟩
      · simp only [List.cons_append, List.cons.injEq] at h2
        obtain ⟨rfl, rfl⟩ := h2
        obtain ⟨h1', g', h2', rfl, he, hlater⟩ := ih c1 h1
        refine ⟨h1', g', h2' ++ [g], by simp, he, ?_⟩
        intro x hx
        have e1 := hl.split (labels (h1' ++ [g'])) (labels (h2' ++ [g]))
        have e2 := hl.split (labels (h1' ++ [g'])) (labels h2')
        have e3 := hl.split (labels (h1' ++ g' :: h2')) (labels [g])
        have e4 : labels (h1' ++ [g']) ++ labels (h2' ++ [g]) = labels (h1' ++ g' :: h2') ++ labels [g] := by
          simp only [← labels_append]; simp
        have e5 : labels (h1' ++ [g']) ++ labels h2' = labels (h1' ++ g' :: h2') := by
          simp only [← labels_append]; simp
        rw [e4, e3] at e1
        rw [e5] at e2
        rw [e2, List.append_assoc] at e1
        rw [← List.append_cancel_left e1] at hx
        rcases List.mem_append.1 hx with hx | hx
        · exact List.mem_append_left _ (hlater x hx)
        · exact List.mem_append_right _ hx

/-- Whenever a process of broker `b` is told that its user is `k`, a marshal has issued the permit for `k` before, having
seen a proof; and between the two entries nobody else has redeemed the permit. -/
theorem admission_own [DecidableEq Pub] (S : Scheme Pub Priv) (hl : Ledgered st global Id)
    (hist : List (GEv L)) (hc : Consistent st hist) (roles : Nat → Role Pub Priv)
    (hplays : ∀ i, Plays S (proj i hist) (roles i)) (hclock : ∀ i, ClockSane (proj i hist))
    (i : Nat) (b : BrokerId) (hb : Good b) (k : Bytes) (p : UInt64)
    (hadm : (⟨.validate b p, some (some k)⟩ : Ev) ∈ proj i hist) :
    ∃ pre j b0 a l mid ls' post,
      hist = pre ++ .act j ⟨.issue b0 k, a⟩ [l] :: (mid ++ .act i ⟨.validate b p, some (some k)⟩ ls' :: post) ∧
      st.isIssue b0 p.toNat k l ∧ MayRedeem global b0 b ∧ Proved S (proj j pre) b0 k ∧
      ∀ i' b' k' ls'', GEv.act i' ⟨.validate b' p, some (some k')⟩ ls'' ∈ mid → ¬ Id b' b := by
  obtain ⟨h1, ls', post, rfl⟩ := mem_proj hadm
  have hfit := hc h1 _ post rfl
  simp only [Fits] at hfit
  rcases hfit with ⟨-, hn⟩ | ⟨l, rfl, hlok, hisv, hres⟩
  · cases hn
  have hask := hres (some k) rfl
  have hokh1 : ∀ x ∈ labels h1, st.ok x := by
    intro x hx
    refine consistent_ok hc x ?_
    rw [labels_append]; exact List.mem_append_left _ hx
  obtain ⟨e1, e2, he⟩ := List.append_of_mem hask
  obtain ⟨exp, b0, tpre, tmid, hmay, htrace, hkeep⟩ := hl.sound (labels h1 ++ [l])
    (by intro x hx
        rcases List.mem_append.1 hx with hx | hx
        · exact hokh1 x hx
        · rw [List.mem_singleton.1 hx]; exact hlok)
    b hb p.toNat k (st.trace (labels h1) ++ e1) e2 (by rw [hl.split, he]; simp)
  have hno : PEv.issued b0 p.toNat k exp ∉ e1 := fun hm =>
    hl.val b p.toNat l (labels h1) hisv b0 p.toNat k exp (by rw [he]; exact List.mem_append_left _ hm)
  obtain ⟨tm, ht, htm⟩ : ∃ tm, st.trace (labels h1) = tpre ++ PEv.issued b0 p.toNat k exp :: tm ∧ tmid = tm ++ e1 := by
    rcases List.append_eq_append_iff.1 htrace with ⟨c1, h2, h3⟩ | ⟨c1, h2, h3⟩
    · exact absurd (by rw [h3]; simp) hno
    · rcases c1 with _ | ⟨e', c1⟩
      · exact absurd (by simp at h3; rw [← h3]; simp) hno
      · simp only [List.cons_append, List.cons.injEq] at h3
        obtain ⟨rfl, rfl⟩ := h3
        exact ⟨c1, h2, rfl⟩
  subst htm
  obtain ⟨pre, g, mid, rfl, hiss, hlater⟩ := locate hl h1 tpre tm _ ht
  have hfg := hc pre g (mid ++ .act i ⟨.validate b p, some (some k)⟩ [l] :: post) (by simp)
  have hlab : ∃ j a l0, g = .act j ⟨.issue b0 k, a⟩ [l0] ∧ st.isIssue b0 p.toNat k l0 := by
    cases g with
    | other l0 => exact absurd (hl.issue _ _ _ _ _ _ hiss) (hfg.2.1 _ _ _)
    | act j e ls =>
      simp only [labels, List.append_nil] at hiss
      obtain ⟨eff, a⟩ := e
      cases eff <;> simp only [Fits] at hfg
      case issue b1 k1 =>
        rcases hfg with ⟨rfl, -⟩ | ⟨l0, q, rfl, -, hi, -⟩
        · rw [hl.added_nil] at hiss; cases hiss
        · obtain ⟨rfl, rfl, rfl⟩ := hl.inj _ _ _ _ _ _ _ hi (hl.issue _ _ _ _ _ _ hiss)
          exact ⟨j, a, l0, rfl, hi⟩
      case validate b1 p1 =>
        rcases hfg with ⟨rfl, -⟩ | ⟨l0, rfl, -, hi, -⟩
        · rw [hl.added_nil] at hiss; cases hiss
        · exact absurd hiss (hl.val _ _ _ _ hi _ _ _ _)
      all_goals (subst hfg; rw [hl.added_nil] at hiss; cases hiss)
  obtain ⟨j, a, l0, rfl, hi⟩ := hlab
  refine ⟨pre, j, b0, a, l0, mid, [l], post, by simp, hi, hmay, ?_, ?_⟩
  · have heq : (pre ++ .act j ⟨.issue b0 k, a⟩ [l0] :: mid) ++ .act i ⟨.validate b p, some (some k)⟩ [l] :: post =
        pre ++ .act j ⟨.issue b0 k, a⟩ [l0] :: (mid ++ .act i ⟨.validate b p, some (some k)⟩ [l] :: post) := by simp
    have hpj : proj j ((pre ++ .act j ⟨.issue b0 k, a⟩ [l0] :: mid) ++ .act i ⟨.validate b p, some (some k)⟩ [l] :: post) =
        proj j pre ++ ⟨.issue b0 k, a⟩ :: proj j (mid ++ .act i ⟨.validate b p, some (some k)⟩ [l] :: post) := by
      rw [heq, proj_append]; simp [proj]
    obtain ⟨r, hr⟩ := plays_issue S (hplays j) (b := b0) (k := k) (a := a)
      (by rw [hpj]; exact List.mem_append_right _ List.mem_cons_self)
    obtain ⟨ts, sig, now, pub, canon, rest, ht, hd, hv, hfr, hs, hno⟩ :=
      C34_only_checked S _ r hr (hclock j) b0 k a (by rw [hpj]; exact List.mem_append_right _ List.mem_cons_self)
    rw [hpj] at ht
    obtain ⟨h4, -⟩ := split_fifth (P := fun e => ∃ b' k' a', e = (⟨.issue b' k', a'⟩ : Ev)) ht.symm
      ⟨_, _, _, rfl⟩ (by simp) (by simp) (by simp) (by simp)
      (by rintro x hx ⟨b', k', a', rfl⟩; exact hno b' k' a' hx)
    exact ⟨ts, sig, now, pub, canon, h4, hd, hv, hfr, hs⟩
  · intro i' b' k' ls'' hm hid
    obtain ⟨m1, m2, rfl⟩ := List.append_of_mem hm
    have hf := hc (pre ++ .act j ⟨.issue b0 k, a⟩ [l0] :: m1) (.act i' ⟨.validate b' p, some (some k')⟩ ls'')
      (m2 ++ .act i ⟨.validate b p, some (some k)⟩ [l] :: post) (by simp)
    simp only [Fits] at hf
    rcases hf with ⟨-, hn⟩ | ⟨l1, rfl, -, -, hres1⟩
    · cases hn
    have hask1 := hres1 (some k') rfl
    suffices hin : PEv.asked b' p.toNat (some k') ∈ tm by
      have : ¬ (p.toNat = p.toNat ∧ Id b' b) := hkeep _ (List.mem_append_left _ hin)
      exact this ⟨rfl, hid⟩
    refine hlater _ ?_
    let A := labels (pre ++ [.act j ⟨.issue b0 k, a⟩ [l0]])
    have a1 := hl.split A (labels (m1 ++ .act i' ⟨.validate b' p, some (some k')⟩ [l1] :: m2))
    have a2 := hl.split A (labels m1)
    have a3 := hl.split (A ++ labels m1) [l1]
    have a4 := hl.split (A ++ labels m1 ++ [l1]) (labels m2)
    have b1 : A ++ labels (m1 ++ .act i' ⟨.validate b' p, some (some k')⟩ [l1] :: m2) = A ++ labels m1 ++ [l1] ++ labels m2 := by
      rw [labels_append]; simp [labels]
    rw [b1, a4, a3, a2, List.append_assoc, List.append_assoc] at a1
    have b2 : labels (pre ++ .act j ⟨.issue b0 k, a⟩ [l0] :: m1) = A ++ labels m1 := by
      show _ = labels (pre ++ [.act j ⟨.issue b0 k, a⟩ [l0]]) ++ labels m1
      rw [← labels_append]; simp
    rw [b2] at hask1
    show _ ∈ st.added A _
    rw [← List.append_cancel_left a1]
    exact List.mem_append_right _ (List.mem_append_left _ hask1)

/-- One of two places in a list is before the other, or they are the same. -/
theorem two_places {A : Type} {a c a' c' : List A} {x x' : A} (h : a ++ x :: c = a' ++ x' :: c') :
    (a = a' ∧ x = x' ∧ c = c') ∨ x ∈ a' ∨ x' ∈ a := by
  rcases List.append_eq_append_iff.1 h with ⟨c1, h2, h3⟩ | ⟨c1, h2, h3⟩
  · rcases c1 with _ | ⟨e, c1⟩
    · simp at h2 h3
      exact .inl ⟨h2.symm, h3.1, h3.2⟩
    · simp only [List.cons_append, List.cons.injEq] at h3
      rw [h2, h3.1]
      exact .inr (.inl (by simp))
  · rcases c1 with _ | ⟨e, c1⟩
    · simp at h2 h3
      exact .inl ⟨h2, h3.1.symm, h3.2.symm⟩
    · simp only [List.cons_append, List.cons.injEq] at h3
      rw [h2, h3.1]
      exact .inr (.inr (by simp))

theorem act_proj {j : Nat} {e : Ev} {ls : List L} {h : List (GEv L)} (hm : GEv.act j e ls ∈ h) : e ∈ proj j h := by
  obtain ⟨a, c, rfl⟩ := List.append_of_mem hm
  rw [proj_append]
  simp [proj]

/-- In this history, the flow of process `j`, a marshal, has received `k` with a fresh timestamp and a signature over it
that verifies under `k`, and has been told that the key is whitelisted; it then issued the permit on which process `i` of
broker `b` was told that its user is `k`. -/
def RestsOn (S : Scheme Pub Priv) (global : Bool) (hist : List (GEv L)) (i : Nat) (b : BrokerId) (k : Bytes) (j : Nat) : Prop :=
  ∃ p pre b0 a ls mid ls' post ts sig now pub canon,
    hist = pre ++ .act j ⟨.issue b0 k, a⟩ ls :: (mid ++ .act i ⟨.validate b p, some (some k)⟩ ls' :: post) ∧
    MayRedeem global b0 b ∧
    proj j pre = [⟨.recv, some (.authKey k ts sig)⟩, ⟨.clock, some now⟩, ⟨.check canon, some true⟩, ⟨.least, some b0⟩] ∧
    S.deserialize k = some pub ∧ S.rawVerify pub (ascii "espresso-cdn-user-marshal-auth" ++ le8 ts) sig = true ∧
    Fresh now ts ∧ S.serialize pub = some canon

/-- Process `i`, of broker `b`, is told that its user is `k`. -/
def Told (hist : List (GEv L)) (i : Nat) (b : BrokerId) (k : Bytes) : Prop :=
  ∃ p, (⟨.validate b p, some (some k)⟩ : Ev) ∈ proj i hist

/-- The marshal processes can be assigned to the admissions, a different one to each. -/
theorem admissions [DecidableEq Pub] (S : Scheme Pub Priv) (hl : Ledgered st global Id)
    (hist : List (GEv L)) (hc : Consistent st hist) (roles : Nat → Role Pub Priv)
    (hplays : ∀ i, Plays S (proj i hist) (roles i)) (hclock : ∀ i, ClockSane (proj i hist)) :
    ∃ f : Nat → BrokerId → Bytes → Nat,
      (∀ i b k, Good b → Told hist i b k → RestsOn S global hist i b k (f i b k)) ∧
      ∀ i b k i' b' k', Good b → Good b' → Told hist i b k → Told hist i' b' k' → f i b k = f i' b' k' → i = i' := by
  have hall : ∀ i b k, ∃ j, Good b → Told hist i b k → ∃ p pre b0 a l mid ls' post,
      hist = pre ++ .act j ⟨.issue b0 k, a⟩ [l] :: (mid ++ .act i ⟨.validate b p, some (some k)⟩ ls' :: post) ∧
      st.isIssue b0 p.toNat k l ∧ MayRedeem global b0 b ∧ Proved S (proj j pre) b0 k ∧
      ∀ i' b' k' ls'', GEv.act i' ⟨.validate b' p, some (some k')⟩ ls'' ∈ mid → ¬ Id b' b := by
    intro i b k
    by_cases hh : Good b ∧ Told hist i b k
    · obtain ⟨hb, p, h⟩ := hh
      obtain ⟨pre, j, b0, a, l, mid, ls', post, hr⟩ := admission_own S hl hist hc roles hplays hclock i b hb k p h
      exact ⟨j, fun _ _ => ⟨p, pre, b0, a, l, mid, ls', post, hr⟩⟩
    · exact ⟨0, fun hb h => absurd ⟨hb, h⟩ hh⟩
  choose f hf using hall
  refine ⟨f, ?_, ?_⟩
  · intro i b k hb h
    obtain ⟨p, pre, b0, a, l, mid, ls', post, h1, h2, h3, ⟨ts, sig, now, pub, canon, h4⟩, h5⟩ := hf i b k hb h
    exact ⟨p, pre, b0, a, [l], mid, ls', post, ts, sig, now, pub, canon, h1, h3, h4⟩
  · intro i b k i' b' k' hb hb' h h' hij
    obtain ⟨p, pre, b0, a, l, mid, ls, post, h1, h2, h3, ⟨ts, sig, now, pub, canon, h4, -⟩, h5⟩ := hf i b k hb h
    obtain ⟨p', pre', b0', a', l', mid', ls', post', h1', h2', h3', ⟨ts', sig', now', pub', canon', h4', -⟩, h5'⟩ :=
      hf i' b' k' hb' h'
    rw [← hij] at h1' h4'
    -- a marshal issues only once
    rcases two_places (h1.symm.trans h1') with ⟨rfl, he, ht⟩ | hm | hm
    · simp only [GEv.act.injEq, Ev.mk.injEq, Eff.issue.injEq, true_and, List.cons.injEq, and_true] at he
      obtain ⟨⟨⟨rfl, rfl⟩, -⟩, rfl⟩ := he
      obtain ⟨-, hp, -⟩ := hl.inj _ _ _ _ _ _ _ h2 h2'
      have hp := UInt64.toNat_inj.1 hp
      subst hp
      rcases two_places ht with ⟨-, he, -⟩ | hm | hm
      · simp only [GEv.act.injEq] at he
        exact he.1
      · exact absurd (hl.id _ _ _ h3 h3') (h5' _ _ _ _ hm)
      · exact absurd (hl.id _ _ _ h3' h3) (h5 _ _ _ _ hm)
    · have := act_proj hm
      rw [h4'] at this
      simp at this
    · have := act_proj hm
      rw [h4] at this
      simp at this

/-! ## The two stores -/

theorem ledgered_redis (global : Bool) : Ledgered (redisStore global) global (MayRedeem global) where
  nil := rfl
  pref old new := ⟨_, by simp only [redisStore]; rw [redis_run_append]⟩
  sound ls hok b hb p k pre post h := Discovery.C32_redis_trace global ls hok b hb p k pre post h
  issue old l b p k exp h := by
    simp only [Store.added, redisStore] at h
    rw [redis_run_append] at h
    simp only [List.drop_left] at h
    obtain ⟨l', hl', hi⟩ := redis_issued global [l] _ b p k exp h
    rw [List.mem_singleton.1 hl'] at hi
    exact hi
  val b p l old hv b' p' k exp h := by
    obtain ⟨t, rfl⟩ := hv
    simp only [Store.added, redisStore] at h
    rw [redis_run_append] at h
    simp only [List.drop_left, Redis.run, Redis.step, List.append_nil, Redis.validate] at h
    split at h <;> simp at h
  inj l b b' p p' k k' h h' := by
    obtain ⟨dur, t, r, rfl, rfl⟩ := h
    obtain ⟨dur', t', r', h, rfl⟩ := h'
    cases h
    exact ⟨rfl, rfl, rfl⟩
  id b0 b b' h h' := by
    rcases h with h | rfl
    · exact .inl h
    · exact h'

theorem ledgered_embedded (global : Bool) : Ledgered (embStore global) global EId where
  nil := rfl
  pref old new := ⟨_, by simp only [embStore]; rw [emb_run_append]⟩
  sound ls hok b hb p k pre post h := Discovery.C32_embedded_trace global ls hok b hb p k pre post h
  issue old l b p k exp h := by
    simp only [Store.added, embStore] at h
    rw [emb_run_append] at h
    simp only [List.drop_left] at h
    obtain ⟨l', hl', hi⟩ := emb_issued global [l] _ b p k exp h
    rw [List.mem_singleton.1 hl'] at hi
    exact hi
  val b p l old hv b' p' k exp h := by
    obtain rfl := hv
    simp only [Store.added, embStore] at h
    rw [emb_run_append] at h
    simp only [List.drop_left, Emb.run, Emb.step, List.append_nil, Emb.take] at h
    split at h
    · split at h
      · split at h <;> simp at h
      · simp at h
    · simp at h
  inj l b b' p p' k k' h h' := by
    obtain ⟨dur, t, r, rfl, rfl⟩ := h
    obtain ⟨dur', t', r', h, rfl⟩ := h'
    cases h
    exact ⟨rfl, rfl, rfl⟩
  id _ _ _ _ _ := trivial

/-! ## Sessions -/

/-- Whose a session is does not change; a session that was not there before is the one that has just begun, at the end
of the list. -/
theorem sess_back' {cfg : Cfg BrokerId σ} {s s' : Sessions.St BrokerId σ} {l : Sessions.Lab BrokerId}
    {os : List (TOp BrokerId Nat)} (h : Sessions.Step cfg s l os s') {i : Nat} {x' : Sessions.Sess BrokerId σ}
    (hx : s'.sess[i]? = some x') :
    (∃ x, s.sess[i]? = some x ∧ x.who = x'.who) ∨ (l = .connect x'.who ∧ i = s.sess.length) := by
  rcases sess_back h hx with h1 | rfl
  · exact .inl h1
  · cases h with
    | connect who hook =>
      simp only at hx
      by_cases hi : i < s.sess.length
      · rw [List.getElem?_append_left hi] at hx
        exact .inl ⟨x', hx, rfl⟩
      · have : i < (s.sess ++ [(⟨x'.who, hook, .fresh, .none⟩ : Sessions.Sess BrokerId σ)]).length :=
          (List.getElem?_eq_some_iff.1 hx).1
        simp at this
        exact .inr ⟨rfl, by omega⟩

/-- Each session with a user began when a process of its own returned. -/
theorem session_process [DecidableEq Pub] {S : Scheme Pub Priv} {bkey : Pub} {cfg : Cfg BrokerId σ}
    {hist : List (Realm.Lab L)} {w : World σ} (hr : Realm.Run S bkey cfg hist w) :
    ∃ g : BrokerId → Nat → Nat,
      (∀ b i u, OfUser w b i u → ∃ pre topics post, hist = pre ++ .login b (g b i) u topics :: post ∧
        Exec (brokerVerifyUser S b) (proj (g b i) (auths pre)) (some (some (u, topics)))) ∧
      ∀ b i u b' i' u', OfUser w b i u → OfUser w b' i' u' → g b i = g b' i' → b = b' ∧ i = i' := by
  induction hr with
  | nil => exact ⟨fun _ _ => 0, by rintro b i u ⟨x, ts, h, _⟩; simp [World.new, Sessions.St.new] at h,
      by rintro b i u _ _ _ ⟨x, ts, h, _⟩; simp [World.new, Sessions.St.new] at h⟩
  | snoc hist w l w' hrun hs ih =>
    obtain ⟨g, h1, h2⟩ := ih
    have same : (∀ b i u, OfUser w' b i u → OfUser w b i u) → ∃ g : BrokerId → Nat → Nat,
      (∀ b i u, OfUser w' b i u → ∃ pre topics post, hist ++ [l] = pre ++ .login b (g b i) u topics :: post ∧
        Exec (brokerVerifyUser S b) (proj (g b i) (auths pre)) (some (some (u, topics)))) ∧
      ∀ b i u b' i' u', OfUser w' b i u → OfUser w' b' i' u' → g b i = g b' i' → b = b' ∧ i = i' := by
      intro hb
      refine ⟨g, ?_, fun b i u b' i' u' h h' => h2 b i u b' i' u' (hb _ _ _ h) (hb _ _ _ h')⟩
      intro b i u h
      obtain ⟨pre, topics, post, rfl, he⟩ := h1 b i u (hb b i u h)
      exact ⟨pre, topics, post ++ [l], by simp, he⟩
    have back : ∀ {b s lb os}, Sessions.Step cfg (w.st b) lb os s → (∀ u ts, lb ≠ .connect (.user u ts)) →
        ∀ b' i u, OfUser (w.set b s) b' i u → OfUser w b' i u := by
      rintro b s lb os h hne b' i u ⟨x, ts, hx, hw⟩
      by_cases hb : b' = b
      · subst hb
        simp only [World.set, if_true] at hx
        rcases sess_back' h hx with ⟨y, hy, hyw⟩ | ⟨hl, -⟩
        · exact ⟨y, ts, hy, hyw.trans hw⟩
        · rw [hw] at hl
          exact absurd hl (hne _ _)
      · simp only [World.set, if_neg hb] at hx
        exact ⟨x, ts, hx, hw⟩
    cases hs with
    | login b proc key topics s hexec honce h =>
      classical
      let g' : BrokerId → Nat → Nat := fun b' i => if b' = b ∧ i = (w.st b).sess.length then proc else g b' i
      have cls : ∀ b' i u, OfUser (w.set b s) b' i u →
          (b' = b ∧ i = (w.st b).sess.length ∧ u = key) ∨ (OfUser w b' i u ∧ ¬ (b' = b ∧ i = (w.st b).sess.length)) := by
        rintro b' i u ⟨x, ts, hx, hw⟩
        by_cases hb : b' = b
        · subst hb
          simp only [World.set, if_true] at hx
          rcases sess_back' h hx with ⟨y, hy, hyw⟩ | ⟨hl, hi⟩
          · refine .inr ⟨⟨y, ts, hy, hyw.trans hw⟩, fun hh => ?_⟩
            have := (List.getElem?_eq_some_iff.1 hy).1
            omega
          · rw [hw] at hl
            cases hl
            exact .inl ⟨rfl, hi, rfl⟩
        · simp only [World.set, if_neg hb] at hx
          exact .inr ⟨⟨x, ts, hx, hw⟩, fun hh => hb hh.1⟩
      refine ⟨g', ?_, ?_⟩
      · intro b' i u hu
        rcases cls b' i u hu with ⟨rfl, rfl, rfl⟩ | ⟨hu, hn⟩
        · refine ⟨hist, topics, [], ?_, ?_⟩ <;> simp only [g', and_self, if_true]
          exact hexec
        · obtain ⟨pre, tp, post, rfl, he⟩ := h1 b' i u hu
          refine ⟨pre, tp, post ++ [.login b proc key topics], ?_, ?_⟩ <;> simp only [g', if_neg hn]
          · simp
          · exact he
      · intro b1 i1 u1 b2 i2 u2 hu1 hu2 hg
        have old : ∀ b' i u, OfUser w b' i u → g b' i ≠ proc := by
          intro b' i u hu hp
          obtain ⟨pre, tp, post, hh, -⟩ := h1 b' i u hu
          exact honce b' u tp (by rw [hh, hp]; simp)
        rcases cls b1 i1 u1 hu1 with ⟨rfl, rfl, rfl⟩ | ⟨ho1, hn1⟩ <;> rcases cls b2 i2 u2 hu2 with ⟨rfl, rfl, rfl⟩ | ⟨ho2, hn2⟩
        · exact ⟨rfl, rfl⟩
        · simp only [g', and_self, if_true, if_neg hn2] at hg
          exact absurd hg.symm (old _ _ _ ho2)
        · simp only [g', and_self, if_true, if_neg hn1] at hg
          exact absurd hg (old _ _ _ ho1)
        · simp only [g', if_neg hn1, if_neg hn2] at hg
          exact h2 _ _ _ _ _ _ ho1 ho2 hg
    | peer b v p sk b' s hv hp h => exact same (back h (by simp))
    | task b l os s hl h => exact same (back h (by rintro u ts rfl; exact hl))
    | take b i x f front back' os s hx hidle hw hfirst h => exact same (back h (by simp))
    | auth g => exact same fun _ _ _ h => h
    | write => exact same fun _ _ _ h => h
    | own => exact same fun _ _ _ h => h
    | give => exact same fun _ _ _ h => h
    | pass => exact same fun _ _ _ h => h
    | drop => exact same fun _ _ _ h => h

/-! ## C102 -/

theorem sessions_rest [DecidableEq Pub] (S : Scheme Pub Priv) (bkey : Pub) (cfg : Cfg BrokerId σ)
    (hl : Ledgered st global Id) (hist : List (Realm.Lab L)) (w : World σ) (hr : Realm.Run S bkey cfg hist w)
    (hc : Consistent st (auths hist)) (roles : Nat → Role Pub Priv)
    (hplays : ∀ i, Plays S (proj i (auths hist)) (roles i)) (hclock : ∀ i, ClockSane (proj i (auths hist)))
    (hgood : ∀ b proc k topics, Lab.login b proc k topics ∈ hist → Good b) :
    ∃ f : BrokerId → Nat → Nat,
      (∀ b i u, OfUser w b i u →
        ∃ proc topics, Lab.login b proc u topics ∈ hist ∧ RestsOn S global (auths hist) proc b u (f b i)) ∧
      ∀ b i u b' i' u', OfUser w b i u → OfUser w b' i' u' → f b i = f b' i' → b = b' ∧ i = i' := by
  obtain ⟨g, hg1, hg2⟩ := session_process hr
  obtain ⟨m, hm1, hm2⟩ := admissions S hl (auths hist) hc roles hplays hclock
  have key : ∀ b i u, OfUser w b i u → (∃ topics, Lab.login b (g b i) u topics ∈ hist) ∧ Good b ∧ Told (auths hist) (g b i) b u := by
    intro b i u hu
    obtain ⟨pre, topics, post, hh, he⟩ := hg1 b i u hu
    have hmem : Lab.login b (g b i) u topics ∈ hist := by rw [hh]; simp
    refine ⟨⟨topics, hmem⟩, hgood _ _ _ _ hmem, ?_⟩
    obtain ⟨p, ok, htr⟩ := admitted S b he
    exact ⟨p, by rw [hh, auths_append, proj_append, htr]; simp⟩
  have hall : ∀ b i, ∃ j, ∀ u, OfUser w b i u → j = m (g b i) b u := by
    intro b i
    by_cases hh : ∃ u, OfUser w b i u
    · obtain ⟨u, hu⟩ := hh
      refine ⟨m (g b i) b u, fun u' hu' => ?_⟩
      obtain ⟨x, ts, h1, h2⟩ := hu
      obtain ⟨x', ts', h1', h2'⟩ := hu'
      rw [h1] at h1'
      cases h1'
      rw [h2] at h2'
      cases h2'
      rfl
    · exact ⟨0, fun u hu => absurd ⟨u, hu⟩ hh⟩
  choose f hf using hall
  refine ⟨f, ?_, ?_⟩
  · intro b i u hu
    obtain ⟨⟨topics, h1⟩, h2, h3⟩ := key b i u hu
    exact ⟨g b i, topics, h1, by rw [hf b i u hu]; exact hm1 _ _ _ h2 h3⟩
  · intro b i u b' i' u' hu hu' he
    obtain ⟨-, h2, h3⟩ := key b i u hu
    obtain ⟨-, h2', h3'⟩ := key b' i' u' hu'
    rw [hf b i u hu, hf b' i' u' hu'] at he
    exact hg2 b i u b' i' u' hu hu' (hm2 _ _ _ _ _ _ h2 h2' h3 h3' he)

/-- Redis: a marshal conversation in which the key was proved can be assigned to each session any broker has, or has
had, with a user, a different one to each. -/
theorem C102_redis [DecidableEq Pub] (S : Scheme Pub Priv) (global : Bool) (bkey : Pub) (cfg : Cfg BrokerId σ)
    (hist : List (Realm.Lab RLabel)) (w : World σ) (hr : Realm.Run S bkey cfg hist w)
    (hc : Consistent (redisStore global) (auths hist)) (roles : Nat → Role Pub Priv)
    (hplays : ∀ i, Plays S (proj i (auths hist)) (roles i)) (hclock : ∀ i, ClockSane (proj i (auths hist)))
    (hgood : ∀ b proc k topics, Lab.login b proc k topics ∈ hist → Good b) :
    ∃ f : BrokerId → Nat → Nat,
      (∀ b i u, OfUser w b i u →
        ∃ proc topics, Lab.login b proc u topics ∈ hist ∧ RestsOn S global (auths hist) proc b u (f b i)) ∧
      ∀ b i u b' i' u', OfUser w b i u → OfUser w b' i' u' → f b i = f b' i' → b = b' ∧ i = i' :=
  sessions_rest S bkey cfg (ledgered_redis global) hist w hr hc roles hplays hclock hgood

/-- The same with SQLite. -/
theorem C102_embedded [DecidableEq Pub] (S : Scheme Pub Priv) (global : Bool) (bkey : Pub) (cfg : Cfg BrokerId σ)
    (hist : List (Realm.Lab ELabel)) (w : World σ) (hr : Realm.Run S bkey cfg hist w)
    (hc : Consistent (embStore global) (auths hist)) (roles : Nat → Role Pub Priv)
    (hplays : ∀ i, Plays S (proj i (auths hist)) (roles i)) (hclock : ∀ i, ClockSane (proj i (auths hist)))
    (hgood : ∀ b proc k topics, Lab.login b proc k topics ∈ hist → Good b) :
    ∃ f : BrokerId → Nat → Nat,
      (∀ b i u, OfUser w b i u →
        ∃ proc topics, Lab.login b proc u topics ∈ hist ∧ RestsOn S global (auths hist) proc b u (f b i)) ∧
      ∀ b i u b' i' u', OfUser w b i u → OfUser w b' i' u' → f b i = f b' i' → b = b' ∧ i = i' :=
  sessions_rest S bkey cfg (ledgered_embedded global) hist w hr hc roles hplays hclock hgood

/-- The hypotheses can be met: the sessions of `[7]` and `[8]` in the example of `C101_redis` rest on different marshal
processes. -/
example : ∃ (w : World Unit) (f : BrokerId → Nat → Nat), Realm.Run toy 9 demoCfg (demoAuth.map .auth ++ demoLogins) w ∧
    OfUser w bA 0 [7] ∧ OfUser w bB 0 [8] ∧
    (∃ proc, RestsOn toy false demoAuth proc bA [7] (f bA 0)) ∧ (∃ proc, RestsOn toy false demoAuth proc bB [8] (f bB 0)) ∧
    f bA 0 ≠ f bB 0 := by
  have ha : auths (demoAuth.map Realm.Lab.auth ++ demoLogins) = demoAuth := by
    rw [auths_append, auths_map]
    exact List.append_nil _
  have hA : OfUser demoW bA 0 [7] := ⟨_, _, rfl, rfl⟩
  have hB : OfUser demoW bB 0 [8] := ⟨_, _, rfl, rfl⟩
  obtain ⟨f, hf1, hf⟩ := C102_redis toy false 9 demoCfg _ demoW demo_start (by rw [ha]; exact demoAuth_consistent) demoRoles
    (by rw [ha]; exact demoAuth_plays) (by rw [ha]; exact demoAuth_clock) (by
      intro b proc k topics h
      simp only [List.mem_append, List.mem_map, demoLogins] at h
      rcases h with ⟨_, _, h⟩ | h
      · cases h
      · simp at h
        rcases h with h | h
        · rw [h.1]; exact good_bA
        · rw [h.1]; exact good_bB)
  rw [ha] at hf1
  obtain ⟨p1, -, -, h1⟩ := hf1 _ _ _ hA
  obtain ⟨p2, -, -, h2⟩ := hf1 _ _ _ hB
  exact ⟨demoW, f, demo_start, hA, hB, ⟨p1, h1⟩, ⟨p2, h2⟩, fun he => absurd (hf _ _ _ _ _ _ hA hB he).1 (by decide)⟩

end Verif.Props.Realm

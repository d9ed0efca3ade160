import Verif.Props.Discovery

/-!
# C105: how users are spread over the brokers

A history consists of atomic steps on the discovery store (those of brokers and marshals) and of users leaving.
-/

namespace Verif.Props.Spread
open Verif Verif.Disc Verif.Props.Ident Verif.Props.Discovery

/-! ## Specification -/

/-- What happens: a step on the store, or a user of `b` leaves. -/
inductive Ev (L : Type) where
  | store (l : L)
  | gone (b : BrokerId)

/-- The steps on the store. -/
def steps {L : Type} (es : List (Ev L)) : List L :=
  es.filterMap fun e => match e with | .store l => some l | .gone _ => none

/-- How many permits `b` has redeemed, that is, how many users it has admitted. -/
def admittedIn (tr : List PEv) (b : BrokerId) : Nat :=
  tr.countP fun e => match e with | .asked b' _ (some _) => b' = b | _ => false

/-- How many permits were issued for `b`. -/
def issuedIn (tr : List PEv) (b : BrokerId) : Nat :=
  tr.countP fun e => match e with | .issued b' _ _ _ => b' = b | _ => false

/-- How many users of `b` have left. -/
def departed {L : Type} (es : List (Ev L)) (b : BrokerId) : Nat :=
  es.countP fun e => match e with | .gone b' => b' = b | .store _ => false

/-- The trace of a history, with SQLite and with Redis. -/
def embTrace (es : List (Ev ELabel)) : List PEv := (Emb.new.run false (steps es)).2
def redisTrace (global : Bool) (es : List (Ev RLabel)) : List PEv := (Redis.new.run global (steps es)).2

/-- After the history, `n` users are connected to `b`: admitted and not gone. -/
def Users {L : Type} (trace : List (Ev L) → List PEv) (es : List (Ev L)) (b : BrokerId) (n : Nat) : Prop :=
  n + departed es b = admittedIn (trace es) b

/-! ## Lemmas -/

theorem steps_append {L : Type} (a b : List (Ev L)) : steps (a ++ b) = steps a ++ steps b := by
  simp [steps, List.filterMap_append]

theorem departed_append {L : Type} (a c : List (Ev L)) (b : BrokerId) : departed (a ++ c) b = departed a b + departed c b := by
  simp [departed, List.countP_append]

theorem admitted_append (a c : List PEv) (b : BrokerId) : admittedIn (a ++ c) b = admittedIn a b + admittedIn c b := by
  simp [admittedIn, List.countP_append]

theorem emb_run_append (global : Bool) (a b : List ELabel) (s : Emb) :
    s.run global (a ++ b) = (((s.run global a).1.run global b).1, (s.run global a).2 ++ ((s.run global a).1.run global b).2) := by
  induction a generalizing s with
  | nil => simp [Emb.run]
  | cons l ls ih => simp only [List.cons_append, Emb.run, ih, List.append_assoc]

theorem redis_run_append (global : Bool) (a b : List RLabel) (s : Redis) :
    s.run global (a ++ b) = (((s.run global a).1.run global b).1, (s.run global a).2 ++ ((s.run global a).1.run global b).2) := by
  induction a generalizing s with
  | nil => simp [Redis.run]
  | cons l ls ih => simp only [List.cons_append, Redis.run, ih, List.append_assoc]

theorem embTrace_append (a c : List (Ev ELabel)) : ∃ t, embTrace (a ++ c) = embTrace a ++ t :=
  ⟨_, by rw [embTrace, steps_append, emb_run_append]; rfl⟩

theorem redisTrace_append (global : Bool) (a c : List (Ev RLabel)) : ∃ t, redisTrace global (a ++ c) = redisTrace global a ++ t :=
  ⟨_, by rw [redisTrace, steps_append, redis_run_append]; rfl⟩

/-- Two decompositions of a list at the last element of a kind are the same. -/
theorem last_unique {A : Type} (P : A → Prop) {a a' m m' : List A} {x x' : A} (hx : P x) (hx' : P x')
    (h : a ++ x :: m = a' ++ x' :: m') (hm : ∀ y ∈ m, ¬ P y) (hm' : ∀ y ∈ m', ¬ P y) : x = x' := by
  rcases List.append_eq_append_iff.1 h with ⟨c, h1, h2⟩ | ⟨c, h1, h2⟩
  · cases c with
    | nil => simp at h2; exact h2.1
    | cons y c =>
      simp only [List.cons_append, List.cons.injEq] at h2
      exact absurd hx' (hm x' (by rw [h2.2]; simp))
  · cases c with
    | nil => simp at h2; exact h2.1.symm
    | cons y c =>
      simp only [List.cons_append, List.cons.injEq] at h2
      exact absurd hx (hm' x (by rw [h2.2]; simp))

theorem elast_unique {ls : List ELabel} {b : BrokerId} {n n' x x' : Nat} (h : ELast ls b n x) (h' : ELast ls b n' x') : n = n' := by
  obtain ⟨pre, mid, dur, t, e, hn, -, hno⟩ := h
  obtain ⟨pre', mid', dur', t', e', hn', -, hno'⟩ := h'
  have := last_unique (fun l => ∃ m d t, m < 2 ^ 32 ∧ l = ELabel.putBroker b m d t) ⟨n, dur, t, hn, rfl⟩ ⟨n', dur', t', hn', rfl⟩
    (e ▸ e') (by rintro y hy ⟨m, d, t, hm, rfl⟩; exact hno m d t hm hy) (by rintro y hy ⟨m, d, t, hm, rfl⟩; exact hno' m d t hm hy)
  cases this; rfl

theorem rlast_unique {ls : List RLabel} {b : BrokerId} {n n' x x' : Nat} (h : RLast ls b n x) (h' : RLast ls b n' x') : n = n' := by
  obtain ⟨pre, mid, dur, t, e, -, hno⟩ := h
  obtain ⟨pre', mid', dur', t', e', -, hno'⟩ := h'
  have := last_unique (fun l => ∃ m d t, l = RLabel.heartbeat b m d t) ⟨n, dur, t, rfl⟩ ⟨n', dur', t', rfl⟩
    (e ▸ e') (by rintro y hy ⟨m, d, t, rfl⟩; exact hno m d t hy) (by rintro y hy ⟨m, d, t, rfl⟩; exact hno' m d t hy)
  cases this; rfl

/-- From what was reported to what is the case. -/
theorem reported {L : Type} (trace : List (Ev L) → List PEv) (ht : ∀ a c, ∃ t, trace (a ++ c) = trace a ++ t)
    {es pre post pre' post' : List (Ev L)} {b b' : BrokerId} {n n' cur cur' arr : Nat}
    (hb : es = pre ++ post) (hn : Users trace pre b n) (harr : admittedIn (trace es) b = admittedIn (trace pre) b + arr)
    (hb' : es = pre' ++ post') (hn' : Users trace pre' b' n') (hc : Users trace es b cur) (hc' : Users trace es b' cur') :
    cur ≤ n + arr ∧ n' ≤ cur' + departed post' b' := by
  unfold Users at *
  have h1 : departed es b = departed pre b + departed post b := by rw [hb, departed_append]
  have h2 : departed es b' = departed pre' b' + departed post' b' := by rw [hb', departed_append]
  obtain ⟨t, ht'⟩ := ht pre' post'
  rw [← hb'] at ht'
  have h3 : admittedIn (trace es) b' = admittedIn (trace pre') b' + admittedIn t b' := by rw [ht', admitted_append]
  omega

/-! ## C105 -/

/-- **C105, SQLite.** Suppose `b` is chosen. Let `arr` be the number of users it has admitted since it counted those of its last
heartbeat, and let `b'` be any listed broker and `post'` what has happened since it counted. Then `b` has, with the users on
their way to it, at most `arr` more than `b'` has with those on their way there, plus those who have left `b'` meanwhile. -/
theorem C105_choice_embedded_partial (es : List (Ev ELabel)) (hok : ∀ l ∈ steps es, l.Ok) (now : Nat)
    (hnow : ∀ l ∈ steps es, EBefore now l) (b : BrokerId) (h : ((Emb.new.run false (steps es)).1.least now).2 = some b)
    (b' : BrokerId) (n n' x x' : Nat) (hl : ELast (steps es) b n x) (hl' : ELast (steps es) b' n' x') (hx' : now ≤ x')
    (pre post pre' post' : List (Ev ELabel)) (arr : Nat)
    (hpre : es = pre ++ post) (hn : Users embTrace pre b n)
    (harr : admittedIn (embTrace es) b = admittedIn (embTrace pre) b + arr)
    (hpre' : es = pre' ++ post') (hn' : Users embTrace pre' b' n')
    (cur cur' : Nat) (hc : Users embTrace es b cur) (hc' : Users embTrace es b' cur')
    (ps ps' : List Nat) (hp : Outstanding (embTrace es) b now ps) (hp' : Outstanding (embTrace es) b' now ps') :
    cur + ps.length ≤ cur' + ps'.length + arr + departed post' b' := by
  obtain ⟨m, y, h1, -, h3⟩ := C39_embedded_least (steps es) hok now hnow b h
  have h4 := h3 b' n' x' ps ps' hl' hx' hp hp'
  have := elast_unique hl h1
  have := reported embTrace embTrace_append hpre hn harr hpre' hn' hc hc'
  omega

/-- **C105, Redis.** The same for the users connected; those on their way are not counted (C55). -/
theorem C105_choice_redis_partial (global : Bool) (es : List (Ev RLabel)) (hok : ∀ l ∈ steps es, l.Ok) (now : Nat)
    (hnow : ∀ l ∈ steps es, RBefore now l) (hbig : ∀ b n x, RLast (steps es) b n x → n < 2 ^ 64 - 1)
    (b : BrokerId) (h : (Redis.new.run global (steps es)).1.least now = some b)
    (b' : BrokerId) (n n' x x' : Nat) (hl : RLast (steps es) b n x) (hl' : RLast (steps es) b' n' x') (hx' : now ≤ x')
    (pre post pre' post' : List (Ev RLabel)) (arr : Nat)
    (hpre : es = pre ++ post) (hn : Users (redisTrace global) pre b n)
    (harr : admittedIn (redisTrace global es) b = admittedIn (redisTrace global pre) b + arr)
    (hpre' : es = pre' ++ post') (hn' : Users (redisTrace global) pre' b' n')
    (cur cur' : Nat) (hc : Users (redisTrace global) es b cur) (hc' : Users (redisTrace global) es b' cur') :
    cur ≤ cur' + arr + departed post' b' := by
  obtain ⟨m, y, h1, -, h3⟩ := (C39_redis_least_partial global (steps es) hok now hnow hbig).1 b h
  have h4 := h3 b' n' x' hl' hx'
  have := rlast_unique hl h1
  have := reported (redisTrace global) (redisTrace_append global) hpre hn harr hpre' hn' hc hc'
  omega

/-! ## A burst of users -/

/-- From `t0` until `fin` marshals, one after the other, choose a broker and issue a permit for it (an attempt that draws a
number in use fails and is included); no permit expires before `fin`. `qs` are the brokers chosen, `ls` the history before
and the last argument the history after. -/
inductive Burst (t0 fin : Nat) (ls : List ELabel) : List BrokerId → List ELabel → Prop where
  | nil : Burst t0 fin ls [] ls
  | snoc {qs : List BrokerId} {ls' : List ELabel} (h : Burst t0 fin ls qs ls') (t t' : Nat) (h0 : t0 ≤ t) (htt : t ≤ t')
      (hfin : t' ≤ fin) (hmono : ∀ l ∈ ls', EBefore t l) (b : BrokerId)
      (hb : ((Emb.new.run false ls').1.least t).2 = some b) (k : Bytes) (dur : Nat) (r : UInt32) (hd : fin ≤ t' + dur) :
      Burst t0 fin ls (qs ++ [b]) (ls' ++ [.pruneBrokers t, .prunePermits t, .issue b k dur t' r])

/-- The permits of the store that are good until `fin` and stand for `id`. -/
def good (fin : Nat) (s : Emb) (id : Str) : List Nat := (s.prunePermits fin).numbers id

theorem mem_good {fin : Nat} {s : Emb} {id : Str} {p : Nat} :
    p ∈ good fin s id ↔ ∃ k x, s.permits.get p = some (id, k, x) ∧ fin ≤ x := by
  rw [good, mem_numbers]
  simp only [Emb.prunePermits, AMap.get_retain, Option.filter_eq_some_iff, decide_eq_true_eq]

/-- The three steps of a marshal. -/
theorem round_get (s : Emb) (b : BrokerId) (k : Bytes) (dur t t' : Nat) (r : UInt32) (p : Nat) (v : Str × Bytes × Nat) :
    let s' := (s.run false [.pruneBrokers t, .prunePermits t, .issue b k dur t' r]).1
    ((s.permits.get p = some v ∧ t ≤ v.2.2) → s'.permits.get p = some v) ∧
    (s'.permits.get p = some v → (s.permits.get p = some v ∧ t ≤ v.2.2) ∨ (p = r.toNat ∧ v = (b.display, k, t' + dur))) := by
  intro s'
  have hg : ∀ q w, (s.permits.retain fun _ r => decide (t ≤ r.2.2)).get q = some w ↔ s.permits.get q = some w ∧ t ≤ w.2.2 := by
    intro q w
    simp only [AMap.get_retain, Option.filter_eq_some_iff, decide_eq_true_eq]
  have hs' : s' = (Emb.issue false ((s.pruneBrokers t).prunePermits t) b k dur t' r).1 := rfl
  have hp : ((s.pruneBrokers t).prunePermits t).permits = s.permits.retain fun _ r => decide (t ≤ r.2.2) := rfl
  rw [hs']
  unfold Emb.issue
  rw [hp]
  cases hc : (s.permits.retain fun _ r => decide (t ≤ r.2.2)).get r.toNat with
  | some w =>
    dsimp only
    rw [hp, hg]
    exact ⟨id, Or.inl⟩
  | none =>
    dsimp only
    rw [AMap.get_insert]
    by_cases e : r.toNat = p
    · rw [if_pos e]
      constructor
      · intro h
        rw [← hg, ← e, hc] at h; cases h
      · intro h
        simp only [Option.some.injEq] at h
        exact Or.inr ⟨e.symm, by rw [← h]; rfl⟩
    · rw [if_neg e, hg]
      exact ⟨id, Or.inl⟩

/-- What a round does to the number of good permits. -/
theorem round_good (s : Emb) (b : BrokerId) (k : Bytes) (dur t t' fin : Nat) (r : UInt32) (ht : t ≤ fin) (id : Str) :
    let s' := (s.run false [.pruneBrokers t, .prunePermits t, .issue b k dur t' r]).1
    (good fin s id).length ≤ (good fin s' id).length ∧
    (good fin s' id).length ≤ (good fin s id).length + (if id = b.display then 1 else 0) := by
  intro s'
  have hr := fun p v => round_get s b k dur t t' r p v
  constructor
  · refine ((numbers_nodup _ _).subperm ?_).length_le
    intro p hp
    obtain ⟨k', x, h1, h2⟩ := mem_good.1 hp
    exact mem_good.2 ⟨k', x, (hr p _).1 ⟨h1, Nat.le_trans ht h2⟩, h2⟩
  · split
    · have : good fin s' id ⊆ r.toNat :: good fin s id := by
        intro p hp
        obtain ⟨k', x, h1, h2⟩ := mem_good.1 hp
        rcases (hr p _).2 h1 with ⟨h3, -⟩ | ⟨h3, -⟩
        · exact List.mem_cons_of_mem _ (mem_good.2 ⟨k', x, h3, h2⟩)
        · rw [h3]; exact List.mem_cons_self
      exact ((numbers_nodup _ _).subperm this).length_le
    · rename_i hne
      refine ((numbers_nodup _ _).subperm ?_).length_le
      intro p hp
      obtain ⟨k', x, h1, h2⟩ := mem_good.1 hp
      rcases (hr p _).2 h1 with ⟨h3, -⟩ | ⟨-, h4⟩
      · exact mem_good.2 ⟨k', x, h3, h2⟩
      · cases h4; exact absurd rfl hne

/-- What holds throughout a burst: heartbeats are those from before, and permits last until `fin` or are long gone. -/
theorem burst_inv {t0 fin : Nat} {ls ls' : List ELabel} {qs : List BrokerId} (h : Burst t0 fin ls qs ls')
    (hok : ∀ l ∈ ls, l.Ok)
    (hout : ∀ b, Good b → ∀ p k x, (Emb.new.run false ls).1.permits.get p = some (b.display, k, x) → t0 ≤ x → fin ≤ x) :
    (∀ l ∈ ls', l.Ok) ∧ (∀ b n x, ELast ls' b n x ↔ ELast ls b n x) ∧
    ∀ b, Good b → ∀ p k x, (Emb.new.run false ls').1.permits.get p = some (b.display, k, x) → t0 ≤ x → fin ≤ x := by
  induction h with
  | nil => exact ⟨hok, fun _ _ _ => Iff.rfl, hout⟩
  | snoc h t t' h0 htt hfin hmono b hb k dur r hd ih =>
    rename_i qs ls'
    obtain ⟨i1, i2, i3⟩ := ih
    have hgb : Good b := by
      obtain ⟨n, x, h1, -⟩ := C39_embedded_least ls' i1 t hmono b hb
      exact elast_good i1 h1
    refine ⟨?_, ?_, ?_⟩
    · intro l hl
      rcases List.mem_append.1 hl with hl | hl
      · exact i1 l hl
      · simp only [List.mem_cons, List.not_mem_nil, or_false] at hl
        rcases hl with rfl | rfl | rfl
        · trivial
        · trivial
        · exact hgb
    · intro b' n x
      rw [← i2 b' n x]
      constructor
      · rintro ⟨pre, mid, d, tt, e, h1, h2, h3⟩
        rcases List.append_eq_append_iff.1 e with ⟨c, e1, e2⟩ | ⟨c, e1, e2⟩
        · exfalso
          have : ELabel.putBroker b' n d tt ∈ [ELabel.pruneBrokers t, .prunePermits t, .issue b k dur t' r] := by
            rw [e2]; simp
          simp at this
        · cases c with
          | nil =>
            simp at e2
          | cons y c =>
            simp only [List.cons_append, List.cons.injEq] at e2
            obtain ⟨rfl, e2⟩ := e2
            refine ⟨pre, c, d, tt, e1, h1, h2, fun n' d' t' hn hm => h3 n' d' t' hn ?_⟩
            rw [e2]; exact List.mem_append_left _ hm
      · rintro ⟨pre, mid, d, tt, e, h1, h2, h3⟩
        refine ⟨pre, mid ++ [.pruneBrokers t, .prunePermits t, .issue b k dur t' r], d, tt, by rw [e]; simp, h1, h2, ?_⟩
        intro n' d' t'' hn hm
        rcases List.mem_append.1 hm with hm | hm
        · exact h3 n' d' t'' hn hm
        · simp at hm
    · intro b' hb' p k' x hp hx
      rw [emb_run_append] at hp
      rcases (round_get _ b k dur t t' r p _).2 hp with ⟨h1, -⟩ | ⟨-, h1⟩
      · exact i3 b' hb' p k' x h1 hx
      · simp only [Prod.mk.injEq] at h1
        rw [h1.2.2]; exact hd

/-- **C105, SQLite, a burst.** While marshals send users to brokers and nobody arrives, leaves or lets a permit expire, the
users are spread evenly: a broker chosen has, as reported and with the users on their way, at most one more than any other
listed broker. -/
theorem C105_burst_embedded_partial (ls : List ELabel) (hok : ∀ l ∈ ls, l.Ok) (t0 fin : Nat)
    (hout : ∀ b p k x, Valid EId (MayRedeem false) (Emb.new.run false ls).2 b p k x → t0 ≤ x → fin ≤ x)
    (qs : List BrokerId) (ls' : List ELabel) (h : Burst t0 fin ls qs ls') (b : BrokerId) (hb : b ∈ qs)
    (b' : BrokerId) (n n' x x' : Nat) (hl : ELast ls b n x) (hl' : ELast ls b' n' x') (hx' : fin ≤ x') (ps ps' : List Nat)
    (hp : Outstanding (Emb.new.run false ls').2 b fin ps) (hp' : Outstanding (Emb.new.run false ls').2 b' fin ps') :
    n + ps.length ≤ n' + ps'.length + 1 := by
  have hgb := elast_good hok hl
  have hgb' := elast_good hok hl'
  have hout' : ∀ b, Good b → ∀ p k x, (Emb.new.run false ls).1.permits.get p = some (b.display, k, x) → t0 ≤ x → fin ≤ x := by
    intro b hb p k x hg hx
    have ha := eagree_run false ls hok _ _ (eagree_new false)
    rw [List.nil_append] at ha
    refine hout b p k x ((ha.rel b hb p k x).1 ?_) hx
    simp [Emb.look, hg]
  have hok' := (burst_inv h hok hout').1
  rw [← outstanding_numbers hok' hgb hp, ← outstanding_numbers hok' hgb' hp']
  change n + (good fin _ _).length ≤ n' + (good fin _ _).length + 1
  clear hp hp' hok'
  induction h with
  | nil => cases hb
  | snoc h t t' h0 htt hfin' hmono c hc k dur r hd ih =>
    rename_i qs ls'
    obtain ⟨i1, i2, i3⟩ := burst_inv h hok hout'
    rw [emb_run_append]
    dsimp only
    have hr := fun id => round_good (Emb.new.run false ls').1 c k dur t t' fin r (Nat.le_trans htt hfin') id
    have h1 := hr b.display
    have h2 := hr b'.display
    dsimp only at h1 h2
    by_cases e : b = c
    · subst e
      rw [if_pos rfl] at h1
      have ha := eagree_run false ls' i1 _ _ (eagree_new false)
      obtain ⟨m, y, j1, -, j3⟩ := (emb_least i1 (eheart_run false i1 hmono) ha.pinv).1 b hc
      have j4 := j3 b' n' x' ((i2 b' n' x').2 hl') (by omega)
      have hm := elast_unique ((i2 b n x).2 hl) j1
      have hsame : ∀ a, Good a → ((Emb.new.run false ls').1.prunePermits t).numbers a.display ⊆ good fin (Emb.new.run false ls').1 a.display ∧
          good fin (Emb.new.run false ls').1 a.display ⊆ ((Emb.new.run false ls').1.prunePermits t).numbers a.display := by
        intro a ha'
        constructor
        · intro p hp
          obtain ⟨k', z, g1, g2⟩ := (mem_good (fin := t)).1 hp
          exact mem_good.2 ⟨k', z, g1, i3 a ha' p k' z g1 (by omega)⟩
        · intro p hp
          obtain ⟨k', z, g1, g2⟩ := mem_good.1 hp
          exact (mem_good (fin := t)).2 ⟨k', z, g1, by omega⟩
      have l1 := ((numbers_nodup ((Emb.new.run false ls').1.prunePermits fin) b.display).subperm (hsame b hgb).2).length_le
      have l2 := ((numbers_nodup ((Emb.new.run false ls').1.prunePermits t) b'.display).subperm (hsame b' hgb').1).length_le
      change (good fin _ _).length ≤ _ at l1
      omega
    · have hne : ¬ b.display = c.display := by
        intro e'
        obtain ⟨m, y, j1, -⟩ := C39_embedded_least ls' i1 t hmono c hc
        exact e (Good.inj hgb (elast_good i1 j1) e')
      rw [if_neg hne] at h1
      rcases List.mem_append.1 hb with hb | hb
      · have := ih hb
        omega
      · simp at hb; exact absurd hb e

/-! ## Why not more -/

/-- One user is connected to B; both brokers have said how many they have. -/
def before : List (Ev ELabel) :=
  [.store (.issue bB [1] 30 100 4), .store (.take bB 4), .store (.putBroker bA 0 60 100), .store (.putBroker bB 1 60 100)]
/-- A user is sent to A and arrives there. -/
def arrival : List (Ev ELabel) := [.store (.issue bA [7] 30 101 5), .store (.prunePermits 101), .store (.take bA 5)]

def arrivals : Nat → List (Ev ELabel)
  | 0 => []
  | n + 1 => arrivals n ++ arrival

def beforeR : List (Ev RLabel) :=
  [.store (.issue bB [1] 30 100 4), .store (.validate bB 4 100), .store (.heartbeat bA 0 60 100), .store (.heartbeat bB 1 60 100)]
def arrivalR : List (Ev RLabel) := [.store (.issue bA [7] 30 101 5), .store (.validate bA 5 101)]
def arrivalsR : Nat → List (Ev RLabel)
  | 0 => []
  | n + 1 => arrivalsR n ++ arrivalR

theorem arrivals_state (n : Nat) : (Emb.new.run false (steps (before ++ arrivals n))).1 = (Emb.new.run false (steps before)).1 := by
  induction n with
  | zero => simp [arrivals]
  | succ n ih =>
    rw [arrivals, ← List.append_assoc, steps_append, emb_run_append]
    dsimp only
    rw [ih]
    rfl

theorem redis_ext (a b : Redis) (h1 : a.brokers.entries = b.brokers.entries) (h2 : a.kv.entries = b.kv.entries)
    (h3 : a.whitelist.elems = b.whitelist.elems) : a = b := by
  obtain ⟨⟨_, _⟩, ⟨_, _⟩, ⟨_, _⟩⟩ := a
  obtain ⟨⟨_, _⟩, ⟨_, _⟩, ⟨_, _⟩⟩ := b
  dsimp only at h1 h2 h3
  subst h1; subst h2; subst h3
  rfl

theorem arrivalsR_state (n : Nat) : (Redis.new.run false (steps (beforeR ++ arrivalsR n))).1 = (Redis.new.run false (steps beforeR)).1 := by
  induction n with
  | zero => simp [arrivalsR]
  | succ n ih =>
    rw [arrivalsR, ← List.append_assoc, steps_append, redis_run_append]
    dsimp only
    rw [ih]
    apply redis_ext <;> decide +kernel

theorem arrivals_admitted (n : Nat) :
    admittedIn (embTrace (before ++ arrivals n)) bA = n ∧ admittedIn (embTrace (before ++ arrivals n)) bB = 1 := by
  induction n with
  | zero => decide +kernel
  | succ n ih =>
    have h : embTrace (before ++ arrivals (n + 1)) = embTrace (before ++ arrivals n) ++
        ((Emb.new.run false (steps before)).1.run false (steps arrival)).2 := by
      rw [embTrace, arrivals, ← List.append_assoc, steps_append, emb_run_append, arrivals_state]; rfl
    rw [h, admitted_append, admitted_append, ih.1, ih.2]
    have e1 : admittedIn ((Emb.new.run false (steps before)).1.run false (steps arrival)).2 bA = 1 := by decide +kernel
    have e2 : admittedIn ((Emb.new.run false (steps before)).1.run false (steps arrival)).2 bB = 0 := by decide +kernel
    rw [e1, e2]
    exact ⟨rfl, rfl⟩

theorem arrivalsR_admitted (n : Nat) :
    admittedIn (redisTrace false (beforeR ++ arrivalsR n)) bA = n ∧ admittedIn (redisTrace false (beforeR ++ arrivalsR n)) bB = 1 := by
  induction n with
  | zero => decide +kernel
  | succ n ih =>
    have h : redisTrace false (beforeR ++ arrivalsR (n + 1)) = redisTrace false (beforeR ++ arrivalsR n) ++
        ((Redis.new.run false (steps beforeR)).1.run false (steps arrivalR)).2 := by
      rw [redisTrace, arrivalsR, ← List.append_assoc, steps_append, redis_run_append, arrivalsR_state]; rfl
    rw [h, admitted_append, admitted_append, ih.1, ih.2]
    have e1 : admittedIn ((Redis.new.run false (steps beforeR)).1.run false (steps arrivalR)).2 bA = 1 := by decide +kernel
    have e2 : admittedIn ((Redis.new.run false (steps beforeR)).1.run false (steps arrivalR)).2 bB = 0 := by decide +kernel
    rw [e1, e2]
    exact ⟨rfl, rfl⟩

theorem mem_arrivals {n : Nat} {e : Ev ELabel} (h : e ∈ arrivals n) : e ∈ arrival := by
  induction n with
  | zero => cases h
  | succ n ih => rcases List.mem_append.1 h with h | h <;> [exact ih h; exact h]

theorem mem_arrivalsR {n : Nat} {e : Ev RLabel} (h : e ∈ arrivalsR n) : e ∈ arrivalR := by
  induction n with
  | zero => cases h
  | succ n ih => rcases List.mem_append.1 h with h | h <;> [exact ih h; exact h]

theorem mem_steps {L : Type} {es : List (Ev L)} {l : L} : l ∈ steps es ↔ Ev.store l ∈ es := by
  unfold steps
  rw [List.mem_filterMap]
  constructor
  · rintro ⟨e, h, h'⟩
    cases e with
    | store m => cases h'; exact h
    | gone b => cases h'
  · exact fun h => ⟨_, h, rfl⟩

theorem departed_zero {L : Type} {es : List (Ev L)} (h : ∀ e ∈ es, ∃ l, e = .store l) (b : BrokerId) : departed es b = 0 := by
  rw [departed, List.countP_eq_zero]
  intro e he
  obtain ⟨l, rfl⟩ := h e he
  simp

/-- **C105**, why not more, SQLite: for every `k` there is a history in which both brokers have reported what they have, A
has `k` users, B has one, nobody is on the way anywhere, and A is chosen: nothing but a broker's own next heartbeat tells
that users have arrived. -/
theorem C105_uneven_embedded (k : Nat) : ∃ es : List (Ev ELabel), (∀ l ∈ steps es, l.Ok) ∧ (∀ l ∈ steps es, EBefore 102 l) ∧
    Users embTrace es bA k ∧ Users embTrace es bB 1 ∧
    Outstanding (embTrace es) bA 102 [] ∧ Outstanding (embTrace es) bB 102 [] ∧
    ((Emb.new.run false (steps es)).1.least 102).2 = some bA := by
  have hmem : ∀ e ∈ before ++ arrivals k, e ∈ before ++ arrival := by
    intro e he
    rcases List.mem_append.1 he with he | he
    · exact List.mem_append_left _ he
    · exact List.mem_append_right _ (mem_arrivals he)
  have hst : ∀ e ∈ before ++ arrivals k, ∃ l, e = .store l := by
    intro e he
    have := hmem e he
    simp only [before, arrival, List.cons_append, List.nil_append, List.mem_cons, List.not_mem_nil, or_false] at this
    rcases this with rfl | rfl | rfl | rfl | rfl | rfl | rfl <;> exact ⟨_, rfl⟩
  have hok : ∀ l ∈ steps (before ++ arrivals k), l.Ok := by
    intro l hl
    have := hmem _ (mem_steps.1 hl)
    simp only [before, arrival, List.cons_append, List.nil_append, List.mem_cons, List.not_mem_nil, or_false, Ev.store.injEq] at this
    rcases this with rfl | rfl | rfl | rfl | rfl | rfl | rfl <;> first | exact good_bA | exact good_bB | trivial
  have hnone : ∀ b, Good b → Outstanding (embTrace (before ++ arrivals k)) b 102 [] := by
    intro b hb
    obtain ⟨ps, hps⟩ := C39_outstanding_exists _ hok b hb 102
    have hl := outstanding_numbers hok hb hps
    rw [arrivals_state] at hl
    have : ps = [] := List.length_eq_zero_iff.1 (hl.symm.trans rfl)
    exact this ▸ hps
  refine ⟨before ++ arrivals k, hok, ?_, ?_, ?_, hnone bA good_bA, hnone bB good_bB, ?_⟩
  · intro l hl
    have := hmem _ (mem_steps.1 hl)
    simp only [before, arrival, List.cons_append, List.nil_append, List.mem_cons, List.not_mem_nil, or_false, Ev.store.injEq] at this
    rcases this with rfl | rfl | rfl | rfl | rfl | rfl | rfl <;> simp [EBefore]
  · rw [Users, departed_zero hst, (arrivals_admitted k).1]; rfl
  · rw [Users, departed_zero hst, (arrivals_admitted k).2]
  · rw [arrivals_state]; decide +kernel

/-- The same with Redis. -/
theorem C105_uneven_redis (k : Nat) : ∃ es : List (Ev RLabel), (∀ l ∈ steps es, l.Ok) ∧ (∀ l ∈ steps es, RBefore 102 l) ∧
    Users (redisTrace false) es bA k ∧ Users (redisTrace false) es bB 1 ∧ (Redis.new.run false (steps es)).1.least 102 = some bA := by
  have hmem : ∀ e ∈ beforeR ++ arrivalsR k, e ∈ beforeR ++ arrivalR := by
    intro e he
    rcases List.mem_append.1 he with he | he
    · exact List.mem_append_left _ he
    · exact List.mem_append_right _ (mem_arrivalsR he)
  have hst : ∀ e ∈ beforeR ++ arrivalsR k, ∃ l, e = .store l := by
    intro e he
    have := hmem e he
    simp only [beforeR, arrivalR, List.cons_append, List.nil_append, List.mem_cons, List.not_mem_nil, or_false] at this
    rcases this with rfl | rfl | rfl | rfl | rfl | rfl <;> exact ⟨_, rfl⟩
  refine ⟨beforeR ++ arrivalsR k, ?_, ?_, ?_, ?_, ?_⟩
  · intro l hl
    have := hmem _ (mem_steps.1 hl)
    simp only [beforeR, arrivalR, List.cons_append, List.nil_append, List.mem_cons, List.not_mem_nil, or_false, Ev.store.injEq] at this
    rcases this with rfl | rfl | rfl | rfl | rfl | rfl <;> first | exact good_bA | exact good_bB
  · intro l hl
    have := hmem _ (mem_steps.1 hl)
    simp only [beforeR, arrivalR, List.cons_append, List.nil_append, List.mem_cons, List.not_mem_nil, or_false, Ev.store.injEq] at this
    rcases this with rfl | rfl | rfl | rfl | rfl | rfl <;> simp [RBefore]
  · rw [Users, departed_zero hst, (arrivalsR_admitted k).1]; rfl
  · rw [Users, departed_zero hst, (arrivalsR_admitted k).2]
  · rw [arrivalsR_state]; decide +kernel

/-! Examples. -/

/-- A reports no users, B reports one. -/
def reports : List ELabel := [.putBroker bA 0 60 100, .putBroker bB 1 60 100]

def round (b : BrokerId) (r : UInt32) : List ELabel := [.pruneBrokers 101, .prunePermits 101, .issue b [7] 30 101 r]

theorem round_before (b : BrokerId) (r : UInt32) : ∀ l ∈ round b r, EBefore 101 l := by
  intro l hl
  simp only [round, List.mem_cons, List.not_mem_nil, or_false] at hl
  rcases hl with rfl | rfl | rfl <;> simp [EBefore]

theorem reports_before : ∀ l ∈ reports, EBefore 101 l := by
  intro l hl
  simp only [reports, List.mem_cons, List.not_mem_nil, or_false] at hl
  rcases hl with rfl | rfl <;> simp [EBefore]

/-- Three users are sent on: to A, to B, to A. Now A has two on their way, B has one and one on their way. -/
theorem demoBurst : Burst 101 110 reports [bA, bB, bA] (reports ++ round bA 5 ++ round bB 6 ++ round bA 7) := by
  refine .snoc (.snoc (.snoc .nil 101 101 ?_ ?_ ?_ ?_ bA ?_ [7] 30 5 ?_) 101 101 ?_ ?_ ?_ ?_ bB ?_ [7] 30 6 ?_) 101 101 ?_ ?_ ?_ ?_ bA ?_ [7] 30 7 ?_
  all_goals first
    | omega
    | decide +kernel
    | (intro l hl
       first
         | exact reports_before l hl
         | (rcases List.mem_append.1 hl with hl | hl
            · exact reports_before l hl
            · exact round_before _ _ l hl)
         | (rcases List.mem_append.1 hl with hl | hl
            · rcases List.mem_append.1 hl with hl | hl
              · exact reports_before l hl
              · exact round_before _ _ l hl
            · exact round_before _ _ l hl))

/-- The hypotheses of `C105_choice_embedded_partial` are met with both brokers' reports out of date: two users have come to A,
and the one at B has left. -/
example : let es := before ++ arrivals 2 ++ [.gone bB]
    ((Emb.new.run false (steps es)).1.least 102).2 = some bA ∧ Users embTrace before bA 0 ∧ Users embTrace before bB 1 ∧
    admittedIn (embTrace es) bA = admittedIn (embTrace before) bA + 2 ∧ Users embTrace es bA 2 ∧ Users embTrace es bB 0 ∧
    departed (arrivals 2 ++ [Ev.gone bB]) bB = 1 := by
  unfold Users
  decide +kernel

example : ELast (steps (before ++ arrivals 2 ++ [.gone bB])) bA 0 160 ∧ ELast (steps (before ++ arrivals 2 ++ [.gone bB])) bB 1 160 := by
  constructor
  · refine ⟨steps (before.take 2), .putBroker bB 1 60 100 :: steps (arrivals 2), 60, 100, rfl, by omega, rfl, ?_⟩
    intro n d t _ h
    have e : ELabel.putBroker bA n d t = ELabel.putBroker bB 1 60 100 := by
      simpa [steps, arrivals, arrival] using h
    exact absurd (by cases e) (show ¬ False from id)
  · refine ⟨steps (before.take 3), steps (arrivals 2), 60, 100, rfl, by omega, rfl, ?_⟩
    intro n d t _ h
    simp [steps, arrivals, arrival] at h

end Verif.Props.Spread

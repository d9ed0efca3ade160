import Verif.Model.AuthWorld
import Verif.Props.Auth
import Verif.Props.Discovery

/-!
# C62: nobody is admitted without proving possession of a key
-/

namespace Verif.Props.AuthWorld
open Verif Verif.Auth Verif.Disc Verif.Props.Auth

variable {Pub Priv : Type}

/-! ## Which flows issue permits, and how a broker comes to admit a user -/

/-- Programs that never ask for a permit. -/
inductive NoIssue {α : Type} : Prog α → Prop
  | ret (a : α) : NoIssue (.ret a)
  | op (e : Eff) (k : Ans e → Prog α) (he : ∀ b key, e ≠ .issue b key) (h : ∀ a, NoIssue (k a)) :
      NoIssue (.op e k)

theorem NoIssue.exec {α : Type} {p : Prog α} (hp : NoIssue p) {tr : List Ev} {r : Option α}
    (h : Exec p tr r) : ∀ b k a, (⟨.issue b k, a⟩ : Ev) ∉ tr := by
  induction h with
  | stop => simp
  | ret => simp
  | op e k a tr r _ ih =>
    cases hp with
    | op e k he hk =>
      intro b key a' hm
      rcases List.mem_cons.1 hm with hm | hm
      · simp only [Ev.mk.injEq] at hm
        exact he b key hm.1.symm
      · exact ih (hk a) b key a' hm

theorem noIssue_fail {α : Type} (c : String) : NoIssue (fail c : Prog (Option α)) :=
  .op _ _ (by simp) fun _ => .ret _

theorem noIssue_userWithMarshal (S : Scheme Pub Priv) (pk : Pub) (sk : Priv) :
    NoIssue (userWithMarshal S pk sk) := by
  refine .op _ _ (by simp) fun a => ?_
  split
  · exact .ret _
  · split
    · exact .ret _
    · split
      · exact .ret _
      · refine .op _ _ (by simp) fun a => ?_
        split
        · exact .ret _
        · refine .op _ _ (by simp) fun a => ?_
          split
          · split <;> exact .ret _
          · exact .ret _

theorem noIssue_userWithBroker (permit : UInt64) (topics : List Topic) :
    NoIssue (userWithBroker permit topics) := by
  refine .op _ _ (by simp) fun a => ?_
  split
  · exact .ret _
  · refine .op _ _ (by simp) fun a => ?_
    split
    · split
      · exact .ret _
      · refine .op _ _ (by simp) fun a => ?_
        split <;> exact .ret _
    · exact .ret _

theorem noIssue_brokerVerifyUser (S : Scheme Pub Priv) (self : BrokerId) :
    NoIssue (brokerVerifyUser S self) := by
  refine .op _ _ (by simp) fun a => ?_
  split
  · exact .ret _
  · refine .op _ _ (by simp) fun a => ?_
    split
    · exact noIssue_fail _
    · exact noIssue_fail _
    · refine .op _ _ (by simp) fun a => ?_
      split
      · exact .ret _
      · refine .op _ _ (by simp) fun a => ?_
        split
        · exact .ret _
        · exact .ret _
        · exact noIssue_fail _
  · exact noIssue_fail _

theorem noIssue_brokerWithBroker (S : Scheme Pub Priv) (pk : Pub) (sk : Priv) :
    NoIssue (brokerWithBroker S pk sk) := by
  refine .op _ _ (by simp) fun a => ?_
  split
  · exact .ret _
  · split
    · exact .ret _
    · split
      · exact .ret _
      · refine .op _ _ (by simp) fun a => ?_
        split
        · exact .ret _
        · refine .op _ _ (by simp) fun a => ?_
          split
          · split <;> exact .ret _
          · exact .ret _

theorem noIssue_brokerVerifyBroker [DecidableEq Pub] (S : Scheme Pub Priv) (self : BrokerId) (key : Pub) :
    NoIssue (brokerVerifyBroker S self key) := by
  refine .op _ _ (by simp) fun a => ?_
  split
  · exact .ret _
  · split
    · exact noIssue_fail _
    · split
      · exact noIssue_fail _
      · refine .op _ _ (by simp) fun a => ?_
        split
        · exact noIssue_fail _
        · split
          · exact noIssue_fail _
          · split
            · exact noIssue_fail _
            · exact .op _ _ (by simp) fun _ => .ret _
  · exact noIssue_fail _

/-- A process that has asked for a permit is a marshal. -/
theorem plays_issue [DecidableEq Pub] (S : Scheme Pub Priv) {tr : List Ev} {role : Role Pub Priv}
    (h : Plays S tr role) {b : BrokerId} {k : Bytes} {a : Option UInt64}
    (hm : (⟨.issue b k, a⟩ : Ev) ∈ tr) : ∃ r, Exec (marshalVerifyUser S) tr r := by
  cases role with
  | marshal => exact h
  | userToMarshal pk sk =>
    obtain ⟨r, hr⟩ := h
    exact absurd hm ((noIssue_userWithMarshal S pk sk).exec hr b k a)
  | userToBroker p t =>
    obtain ⟨r, hr⟩ := h
    exact absurd hm ((noIssue_userWithBroker p t).exec hr b k a)
  | broker self =>
    obtain ⟨r, hr⟩ := h
    exact absurd hm ((noIssue_brokerVerifyUser S self).exec hr b k a)
  | brokerToBroker pk sk =>
    obtain ⟨r, hr⟩ := h
    exact absurd hm ((noIssue_brokerWithBroker S pk sk).exec hr b k a)
  | brokerFromBroker self key =>
    obtain ⟨r, hr⟩ := h
    exact absurd hm ((noIssue_brokerVerifyBroker S self key).exec hr b k a)

/-- A broker that admits a user under key `k` received a permit and was told by the store that it is valid
for `k`; the topics are those the user sent. -/
theorem admitted (S : Scheme Pub Priv) (self : BrokerId) {tr : List Ev} {k : Bytes} {topics : List Topic}
    (h : Exec (brokerVerifyUser S self) tr (some (some (k, topics)))) :
    ∃ p ok, tr = [⟨.recv, some (.authPermit p)⟩, ⟨.validate self p, some (some k)⟩,
      ⟨.send (.authResponse 1 ""), ok⟩, ⟨.recv, some (.subscribe topics)⟩] := by
  have hf : ∀ {c : String} {t : List Ev},
      ¬ Exec (fail c : Prog (Option (Bytes × List Topic))) t (some (some (k, topics))) := by
    intro c t hh
    rcases exec_fail.1 hh with ⟨-, hr⟩ | ⟨ok, -, hr⟩
    · cases hr
    · rcases hr with hr | hr <;> simp at hr
  unfold brokerVerifyUser at h
  rcases exec_op.1 h with ⟨-, hr⟩ | ⟨m, t1, rfl, h1⟩
  · cases hr
  cases m with
  | none =>
    obtain ⟨-, hr⟩ := exec_ret.1 h1
    simp at hr
  | some m =>
    cases m with
    | authPermit p =>
      rcases exec_op.1 h1 with ⟨-, hr⟩ | ⟨v, t2, rfl, h2⟩
      · cases hr
      rcases v with _ | _ | k'
      · exact absurd h2 hf
      · exact absurd h2 hf
      · rcases exec_op.1 h2 with ⟨-, hr⟩ | ⟨ok, t3, rfl, h3⟩
        · cases hr
        cases hd : S.deserialize k' with
        | none =>
          rw [hd] at h3
          obtain ⟨-, hr⟩ := exec_ret.1 h3
          simp at hr
        | some pub =>
          rw [hd] at h3
          simp only at h3
          rcases exec_op.1 h3 with ⟨-, hr⟩ | ⟨m2, t4, rfl, h4⟩
          · cases hr
          cases m2 with
          | none =>
            obtain ⟨-, hr⟩ := exec_ret.1 h4
            simp at hr
          | some m2 =>
            cases m2 with
            | subscribe ts =>
              obtain ⟨rfl, hr⟩ := exec_ret.1 h4
              simp only [reduceCtorEq, Option.some.injEq, Prod.mk.injEq, false_or] at hr
              obtain ⟨rfl, rfl⟩ := hr
              exact ⟨p, ok, rfl⟩
            | authKey _ _ _ => exact absurd h4 hf
            | authPermit _ => exact absurd h4 hf
            | authResponse _ _ => exact absurd h4 hf
            | direct _ _ => exact absurd h4 hf
            | broadcast _ _ => exact absurd h4 hf
            | unsubscribe _ => exact absurd h4 hf
            | userSync _ => exact absurd h4 hf
            | topicSync _ => exact absurd h4 hf
    | authKey _ _ _ => exact absurd h1 hf
    | authResponse _ _ => exact absurd h1 hf
    | direct _ _ => exact absurd h1 hf
    | broadcast _ _ => exact absurd h1 hf
    | subscribe _ => exact absurd h1 hf
    | unsubscribe _ => exact absurd h1 hf
    | userSync _ => exact absurd h1 hf
    | topicSync _ => exact absurd h1 hf

/-! ## Histories -/

section Hist
variable {L : Type}

theorem labels_append (h h' : List (GEv L)) : labels (h ++ h') = labels h ++ labels h' := by
  induction h with
  | nil => rfl
  | cons g h ih => cases g <;> simp [labels, ih]

theorem proj_append (i : Nat) (h h' : List (GEv L)) : proj i (h ++ h') = proj i h ++ proj i h' := by
  induction h with
  | nil => rfl
  | cons g h ih =>
    cases g with
    | act j e ls => simp only [List.cons_append, proj, ih]; split <;> simp
    | other l => simp only [List.cons_append, proj, ih]

theorem mem_proj {i : Nat} {h : List (GEv L)} {e : Ev} (hm : e ∈ proj i h) :
    ∃ pre ls post, h = pre ++ .act i e ls :: post := by
  induction h with
  | nil => cases hm
  | cons g h ih =>
    cases g with
    | act j e' ls =>
      simp only [proj] at hm
      by_cases hj : j = i
      · rw [if_pos hj] at hm
        rcases List.mem_cons.1 hm with hm | hm
        · subst hm; subst hj; exact ⟨[], ls, h, rfl⟩
        · obtain ⟨pre, ls', post, rfl⟩ := ih hm
          exact ⟨_ :: pre, ls', post, rfl⟩
      · rw [if_neg hj] at hm
        obtain ⟨pre, ls', post, rfl⟩ := ih hm
        exact ⟨_ :: pre, ls', post, rfl⟩
    | other l =>
      obtain ⟨pre, ls', post, rfl⟩ := ih hm
      exact ⟨_ :: pre, ls', post, rfl⟩

/-- A step of the store in the history belongs to an entry. -/
theorem mem_labels {h : List (GEv L)} {l : L} (hm : l ∈ labels h) :
    (∃ pre post, h = pre ++ .other l :: post) ∨
    ∃ pre i e ls post, h = pre ++ .act i e ls :: post ∧ l ∈ ls := by
  induction h with
  | nil => cases hm
  | cons g h ih =>
    have hrec : l ∈ labels h → (∃ pre post, g :: h = pre ++ .other l :: post) ∨
        ∃ pre i e ls post, g :: h = pre ++ .act i e ls :: post ∧ l ∈ ls := by
      intro hm
      rcases ih hm with ⟨pre, post, rfl⟩ | ⟨pre, i, e, ls, post, rfl, h⟩
      · exact Or.inl ⟨g :: pre, post, rfl⟩
      · exact Or.inr ⟨g :: pre, i, e, ls, post, rfl, h⟩
    cases g with
    | act j e ls =>
      rcases List.mem_append.1 hm with hm | hm
      · exact Or.inr ⟨[], j, e, ls, h, rfl, hm⟩
      · exact hrec hm
    | other l' =>
      rcases List.mem_cons.1 hm with hm | hm
      · subst hm; exact Or.inl ⟨[], h, rfl⟩
      · exact hrec hm

/-- All steps in a consistent history are good. -/
theorem consistent_ok {st : Store L} {h : List (GEv L)} (hc : Consistent st h) :
    ∀ l ∈ labels h, st.ok l := by
  intro l hl
  rcases mem_labels hl with ⟨pre, post, rfl⟩ | ⟨pre, i, e, ls, post, rfl, hm⟩
  · exact (hc pre _ post rfl).1
  · have hf := hc pre _ post rfl
    obtain ⟨eff, a⟩ := e
    cases eff <;> simp only [Fits] at hf
    case issue b k =>
      rcases hf with ⟨rfl, -⟩ | ⟨l', q, rfl, ho, -⟩
      · cases hm
      · rw [List.mem_singleton.1 hm]; exact ho
    case validate b p =>
      rcases hf with ⟨rfl, -⟩ | ⟨l', rfl, ho, -⟩
      · cases hm
      · rw [List.mem_singleton.1 hm]; exact ho
    all_goals (subst hf; cases hm)

/-- In a list with exactly one element satisfying `P`, known to be at position 4, the position is the one
given. -/
theorem split_fifth {A : Type} {P : A → Prop} {x0 x1 x2 x3 e e' : A} {rest pre post : List A}
    (h : [x0, x1, x2, x3, e'] ++ rest = pre ++ e :: post) (hP : P e) (h0 : ¬ P x0) (h1 : ¬ P x1)
    (h2 : ¬ P x2) (h3 : ¬ P x3) (hr : ∀ x ∈ rest, ¬ P x) : pre = [x0, x1, x2, x3] ∧ e = e' := by
  rcases pre with _ | ⟨a, _ | ⟨b, _ | ⟨c, _ | ⟨d, _ | ⟨f, pre⟩⟩⟩⟩⟩ <;>
    simp only [List.cons_append, List.nil_append, List.cons.injEq] at h
  · exact absurd (h.1 ▸ hP) h0
  · exact absurd (h.2.1 ▸ hP) h1
  · exact absurd (h.2.2.1 ▸ hP) h2
  · exact absurd (h.2.2.2.1 ▸ hP) h3
  · obtain ⟨rfl, rfl, rfl, rfl, rfl, -⟩ := h
    exact ⟨rfl, rfl⟩
  · exact absurd hP (hr e (by rw [h.2.2.2.2.2]; simp))

end Hist

/-! ## C62 -/

/-- The process `j` is a marshal that has received `k`, a timestamp and a signature, has verified the
signature and found it fresh, has been told that the key is whitelisted, has been told to use broker `b`,
and nothing else so far. -/
def Proved (S : Scheme Pub Priv) (done : List Ev) (b : BrokerId) (k : Bytes) : Prop :=
  ∃ ts sig now pub canon,
    done = [⟨.recv, some (.authKey k ts sig)⟩, ⟨.clock, some now⟩, ⟨.check canon, some true⟩,
      ⟨.least, some b⟩] ∧
    S.deserialize k = some pub ∧
    S.rawVerify pub (ascii "espresso-cdn-user-marshal-auth" ++ le8 ts) sig = true ∧
    Fresh now ts ∧ S.serialize pub = some canon

/-- For any store whose traces are sound and contain issuances only of issuing steps. -/
theorem admission {L : Type} [DecidableEq Pub] (S : Scheme Pub Priv) (st : Store L) (global : Bool)
    (hprefix : ∀ old new, ∃ ev, st.trace (old ++ new) = st.trace old ++ ev)
    (hsound : ∀ ls, (∀ l ∈ ls, st.ok l) → ∀ b, Good b → ∀ p k pre post,
      st.trace ls = pre ++ .asked b p (some k) :: post →
      ∃ b0 exp, MayRedeem global b0 b ∧ PEv.issued b0 p k exp ∈ pre)
    (hissue : ∀ ls b p k exp, PEv.issued b p k exp ∈ st.trace ls → ∃ l ∈ ls, st.isIssue b p k l)
    (hval : ∀ b p l old, st.isValidate b p l → ∀ b' p' k exp, PEv.issued b' p' k exp ∉ st.added old [l])
    (hnot : ∀ b p l, st.isValidate b p l → ∀ b' p' k, ¬ st.isIssue b' p' k l)
    (hinj : ∀ l b b' p p' k k', st.isIssue b p k l → st.isIssue b' p' k' l → b = b' ∧ p = p' ∧ k = k')
    (hist : List (GEv L)) (hc : Consistent st hist) (roles : Nat → Role Pub Priv)
    (hplays : ∀ i, Plays S (proj i hist) (roles i))
    (hclock : ∀ i, ClockSane (proj i hist))
    (i : Nat) (b : BrokerId) (hb : Good b) (k : Bytes) (topics : List Topic)
    (hadm : Exec (brokerVerifyUser S b) (proj i hist) (some (some (k, topics)))) :
    ∃ p pre j b0 a ls mid ls' post,
      hist = pre ++ .act j ⟨.issue b0 k, a⟩ ls :: (mid ++ .act i ⟨.validate b p, some (some k)⟩ ls' :: post) ∧
      (a = some p ∨ a = none) ∧ MayRedeem global b0 b ∧ Proved S (proj j pre) b0 k := by
  obtain ⟨p, ok, htr⟩ := admitted S b hadm
  obtain ⟨h1, ls', post, rfl⟩ := mem_proj (i := i) (h := hist) (e := ⟨.validate b p, some (some k)⟩)
    (by rw [htr]; simp)
  have hfit := hc h1 _ post rfl
  simp only [Fits] at hfit
  rcases hfit with ⟨-, hn⟩ | ⟨l, rfl, hlok, hisv, hres⟩
  · cases hn
  have hask := hres (some k) rfl
  obtain ⟨ev, hev⟩ := hprefix (labels h1) [l]
  have hadd : st.added (labels h1) [l] = ev := by
    unfold Store.added; rw [hev, List.drop_left]
  rw [hadd] at hask
  obtain ⟨e1, e2, he⟩ := List.append_of_mem hask
  have hokh1 : ∀ x ∈ labels h1, st.ok x := by
    intro x hx
    refine consistent_ok hc x ?_
    rw [labels_append]; exact List.mem_append_left _ hx
  obtain ⟨b0, exp, hmay, hiss⟩ := hsound (labels h1 ++ [l])
    (by intro x hx
        rcases List.mem_append.1 hx with hx | hx
        · exact hokh1 x hx
        · rw [List.mem_singleton.1 hx]; exact hlok)
    b hb p.toNat k (st.trace (labels h1) ++ e1) e2 (by rw [hev, he]; simp)
  have hiss' : PEv.issued b0 p.toNat k exp ∈ st.trace (labels h1) := by
    rcases List.mem_append.1 hiss with hiss | hiss
    · exact hiss
    · exact absurd (by rw [hadd, he]; exact List.mem_append_left _ hiss)
        (hval b p.toNat l (labels h1) hisv b0 p.toNat k exp)
  obtain ⟨l0, hl0, hl0i⟩ := hissue (labels h1) b0 p.toNat k exp hiss'
  rcases mem_labels hl0 with ⟨pre, mid, rfl⟩ | ⟨pre, j, e, ls, mid, rfl, hm⟩
  · have := hc pre (.other l0) (mid ++ .act i ⟨.validate b p, some (some k)⟩ [l] :: post) (by simp)
    exact absurd hl0i (this.2.1 b0 _ k)
  · have hf := hc pre (.act j e ls) (mid ++ .act i ⟨.validate b p, some (some k)⟩ [l] :: post) (by simp)
    obtain ⟨eff, a⟩ := e
    cases eff <;> simp only [Fits] at hf
    case issue b1 k1 =>
      rcases hf with ⟨rfl, -⟩ | ⟨l', q, rfl, -, hi, hans⟩
      · cases hm
      · rw [List.mem_singleton] at hm
        subst hm
        obtain ⟨rfl, rfl, rfl⟩ := hinj l0 _ _ _ _ _ _ hi hl0i
        have ha : a = some p ∨ a = none := by
          cases a with
          | none => exact Or.inr rfl
          | some r => exact Or.inl (congrArg some (UInt64.toNat_inj.1 (hans r rfl).1))
        have heq : (pre ++ .act j ⟨.issue b1 k1, a⟩ [l0] :: mid) ++
            .act i ⟨.validate b p, some (some k1)⟩ [l] :: post =
            pre ++ .act j ⟨.issue b1 k1, a⟩ [l0] ::
              (mid ++ .act i ⟨.validate b p, some (some k1)⟩ [l] :: post) := by simp
        refine ⟨p, pre, j, b1, a, [l0], mid, [l], post, heq, ha, hmay, ?_⟩
        have hpj : proj j ((pre ++ .act j ⟨.issue b1 k1, a⟩ [l0] :: mid) ++
            .act i ⟨.validate b p, some (some k1)⟩ [l] :: post) = proj j pre ++ ⟨.issue b1 k1, a⟩ ::
            proj j (mid ++ .act i ⟨.validate b p, some (some k1)⟩ [l] :: post) := by
          rw [heq, proj_append]; simp [proj]
        obtain ⟨r, hr⟩ := plays_issue S (hplays j) (b := b1) (k := k1) (a := a) (by rw [hpj]; exact List.mem_append_right _ List.mem_cons_self)
        obtain ⟨ts, sig, now, pub, canon, rest, ht, hd, hv, hfr, hs, hno⟩ :=
          C34_only_checked S _ r hr (hclock j) b1 k1 a (by rw [hpj]; exact List.mem_append_right _ List.mem_cons_self)
        rw [hpj] at ht
        obtain ⟨h4, -⟩ := split_fifth (P := fun e => ∃ b' k' a', e = (⟨.issue b' k', a'⟩ : Ev)) ht.symm
          ⟨_, _, _, rfl⟩ (by simp) (by simp) (by simp) (by simp)
          (by rintro x hx ⟨b', k', a', rfl⟩; exact hno b' k' a' hx)
        exact ⟨ts, sig, now, pub, canon, h4, hd, hv, hfr, hs⟩
    case validate b1 p1 =>
      rcases hf with ⟨rfl, -⟩ | ⟨l', rfl, -, hi, -⟩
      · cases hm
      · rw [List.mem_singleton] at hm
        subst hm
        exact absurd hl0i (hnot _ _ _ hi b0 _ k)
    all_goals (subst hf; cases hm)

theorem redis_run_append (global : Bool) (s : Redis) (a b : List RLabel) :
    s.run global (a ++ b) = (((s.run global a).1.run global b).1,
      (s.run global a).2 ++ ((s.run global a).1.run global b).2) := by
  induction a generalizing s with
  | nil => rfl
  | cons l a ih => simp only [List.cons_append, Redis.run]; rw [ih]; simp

theorem emb_run_append (global : Bool) (s : Emb) (a b : List ELabel) :
    s.run global (a ++ b) = (((s.run global a).1.run global b).1,
      (s.run global a).2 ++ ((s.run global a).1.run global b).2) := by
  induction a generalizing s with
  | nil => rfl
  | cons l a ih => simp only [List.cons_append, Emb.run]; rw [ih]; simp

theorem valid_issued {Id Who : BrokerId → BrokerId → Prop} {tr : List PEv} {b : BrokerId} {p : Nat}
    {k : Bytes} {exp : Nat} (h : Valid Id Who tr b p k exp) :
    ∃ b0 exp, Who b0 b ∧ PEv.issued b0 p k exp ∈ tr := by
  obtain ⟨b0, pre, mid, hw, rfl, -⟩ := h
  exact ⟨b0, exp, hw, by simp⟩

theorem redis_issued (global : Bool) (ls : List RLabel) (s : Redis) (b : BrokerId) (p : Nat) (k : Bytes)
    (exp : Nat) (h : PEv.issued b p k exp ∈ (s.run global ls).2) :
    ∃ l ∈ ls, (redisStore global).isIssue b p k l := by
  induction ls generalizing s with
  | nil => cases h
  | cons l ls ih =>
    simp only [Redis.run] at h
    rcases List.mem_append.1 h with h | h
    · refine ⟨l, List.mem_cons_self, ?_⟩
      cases l with
      | heartbeat _ _ _ _ => simp [Redis.step] at h
      | expire _ => simp [Redis.step] at h
      | issue b' k' dur t r =>
        simp only [Redis.step, Redis.issue, List.mem_cons, reduceCtorEq, PEv.issued.injEq, List.not_mem_nil,
          or_false, false_or] at h
        obtain ⟨rfl, rfl, rfl, -⟩ := h
        exact ⟨dur, t, r, rfl, rfl⟩
      | validate _ _ _ => simp only [Redis.step, Redis.validate] at h; split at h <;> simp at h
      | setWhitelist _ => simp [Redis.step] at h
    · obtain ⟨l', h1, h2⟩ := ih _ h
      exact ⟨l', List.mem_cons_of_mem _ h1, h2⟩

theorem emb_issued (global : Bool) (ls : List ELabel) (s : Emb) (b : BrokerId) (p : Nat) (k : Bytes)
    (exp : Nat) (h : PEv.issued b p k exp ∈ (s.run global ls).2) :
    ∃ l ∈ ls, (embStore global).isIssue b p k l := by
  induction ls generalizing s with
  | nil => cases h
  | cons l ls ih =>
    simp only [Emb.run] at h
    rcases List.mem_append.1 h with h | h
    · refine ⟨l, List.mem_cons_self, ?_⟩
      cases l with
      | putBroker _ _ _ _ => simp [Emb.step] at h
      | pruneBrokers _ => simp [Emb.step] at h
      | prunePermits _ => simp [Emb.step] at h
      | issue b' k' dur t r =>
        simp only [Emb.step, Emb.issue] at h
        split at h
        · cases h
        · simp only [List.mem_cons, PEv.issued.injEq, List.not_mem_nil, or_false] at h
          obtain ⟨rfl, rfl, rfl, -⟩ := h
          exact ⟨dur, t, r, rfl, rfl⟩
      | take _ _ =>
        simp only [Emb.step, Emb.take] at h
        split at h
        · split at h
          · split at h <;> simp at h
          · simp at h
        · simp at h
      | whitelist _ => simp [Emb.step] at h
    · obtain ⟨l', h1, h2⟩ := ih _ h
      exact ⟨l', List.mem_cons_of_mem _ h1, h2⟩

/-- Redis: in every history of any number of processes running the authentication flows, whenever broker
`b` admits a user under the key bytes `k`, some marshal process had before that, in this order, received
`k` with a timestamp and a signature that verifies under the key `k` stands for, read a clock showing that
the timestamp is fresh, been told by the store that the key is whitelisted and that `b` is to be used,
and then issued the permit shown to `b` for `k` at `b` (with global permits: at any broker), although the
marshal may have been told that issuing failed (`a = none`). -/
theorem C62_redis [DecidableEq Pub] (S : Scheme Pub Priv) (global : Bool) (hist : List (GEv RLabel))
    (hc : Consistent (redisStore global) hist) (roles : Nat → Role Pub Priv)
    (hplays : ∀ i, Plays S (proj i hist) (roles i)) (hclock : ∀ i, ClockSane (proj i hist))
    (i : Nat) (b : BrokerId) (hb : Good b) (k : Bytes) (topics : List Topic)
    (hadm : Exec (brokerVerifyUser S b) (proj i hist) (some (some (k, topics)))) :
    ∃ p pre j b0 a ls mid ls' post,
      hist = pre ++ .act j ⟨.issue b0 k, a⟩ ls :: (mid ++ .act i ⟨.validate b p, some (some k)⟩ ls' :: post) ∧
      (a = some p ∨ a = none) ∧ MayRedeem global b0 b ∧ Proved S (proj j pre) b0 k := by
  refine admission S (redisStore global) global ?_ ?_ ?_ ?_ ?_ ?_ hist hc roles hplays hclock i b hb k topics hadm
  · intro old new
    exact ⟨_, by simp only [redisStore]; rw [redis_run_append]⟩
  · intro ls hok b hb p k pre post h
    obtain ⟨x, hx⟩ := Discovery.C32_redis_trace global ls hok b hb p k pre post h
    exact valid_issued hx
  · intro ls b p k exp h
    exact redis_issued global ls Redis.new b p k exp h
  · rintro b p l old ⟨t, rfl⟩ b' p' k exp h
    simp only [Store.added, redisStore] at h
    rw [redis_run_append] at h
    simp only [List.drop_left, Redis.run, Redis.step, List.append_nil, Redis.validate] at h
    split at h <;> simp at h
  · rintro b p l ⟨t, rfl⟩ b' p' k ⟨dur, t', r, h, -⟩
    cases h
  · rintro l b b' p p' k k' ⟨dur, t, r, rfl, rfl⟩ ⟨dur', t', r', h, rfl⟩
    cases h
    exact ⟨rfl, rfl, rfl⟩

/-- The same for SQLite. -/
theorem C62_embedded [DecidableEq Pub] (S : Scheme Pub Priv) (global : Bool) (hist : List (GEv ELabel))
    (hc : Consistent (embStore global) hist) (roles : Nat → Role Pub Priv)
    (hplays : ∀ i, Plays S (proj i hist) (roles i)) (hclock : ∀ i, ClockSane (proj i hist))
    (i : Nat) (b : BrokerId) (hb : Good b) (k : Bytes) (topics : List Topic)
    (hadm : Exec (brokerVerifyUser S b) (proj i hist) (some (some (k, topics)))) :
    ∃ p pre j b0 a ls mid ls' post,
      hist = pre ++ .act j ⟨.issue b0 k, a⟩ ls :: (mid ++ .act i ⟨.validate b p, some (some k)⟩ ls' :: post) ∧
      (a = some p ∨ a = none) ∧ MayRedeem global b0 b ∧ Proved S (proj j pre) b0 k := by
  refine admission S (embStore global) global ?_ ?_ ?_ ?_ ?_ ?_ hist hc roles hplays hclock i b hb k topics hadm
  · intro old new
    exact ⟨_, by simp only [embStore]; rw [emb_run_append]⟩
  · intro ls hok b hb p k pre post h
    obtain ⟨x, hx⟩ := Discovery.C32_embedded_trace global ls hok b hb p k pre post h
    exact valid_issued hx
  · intro ls b p k exp h
    exact emb_issued global ls Emb.new b p k exp h
  · rintro b p l old rfl b' p' k exp h
    simp only [Store.added, embStore] at h
    rw [emb_run_append] at h
    simp only [List.drop_left, Emb.run, Emb.step, List.append_nil, Emb.take] at h
    split at h
    · split at h
      · split at h <;> simp at h
      · simp at h
    · simp at h
  · rintro b p l rfl b' p' k ⟨dur, t', r, h, -⟩
    cases h
  · rintro l b b' p p' k k' ⟨dur, t, r, rfl, rfl⟩ ⟨dur', t', r', h, rfl⟩
    cases h
    exact ⟨rfl, rfl, rfl⟩

/-! A history meeting the hypotheses: process 0 is a marshal, process 1 a broker; a heartbeat in between. -/

/-- The history. -/
def demo : List (GEv RLabel) :=
  [.act 0 ⟨.recv, some (.authKey [7] 100 (7 :: signedBytes .userMarshal 100))⟩ [],
   .other (.heartbeat bA 0 60 100),
   .act 0 ⟨.clock, some 103⟩ [], .act 0 ⟨.check [7], some true⟩ [], .act 0 ⟨.least, some bA⟩ [],
   .act 1 ⟨.recv, some (.authPermit 55)⟩ [],
   .act 0 ⟨.issue bA [7], some 55⟩ [.issue bA [7] 30 103 55],
   .act 1 ⟨.validate bA 55, some (some [7])⟩ [.validate bA 55 104],
   .act 0 ⟨.send (.authResponse 55 "a"), true⟩ [],
   .act 1 ⟨.send (.authResponse 1 ""), true⟩ [],
   .act 1 ⟨.recv, some (.subscribe [3])⟩ []]

theorem demo_consistent : Consistent (redisStore false) demo := by
  intro pre g post h
  have hg : Good bA := by constructor <;> unfold Props.Ident.NoSlash <;> decide
  unfold demo at h
  rcases pre with _ | ⟨_, _ | ⟨_, _ | ⟨_, _ | ⟨_, _ | ⟨_, _ | ⟨_, _ | ⟨_, _ | ⟨_, _ | ⟨_, _ | ⟨_, _ | ⟨_, pre⟩⟩⟩⟩⟩⟩⟩⟩⟩⟩⟩ <;>
    simp only [List.cons_append, List.nil_append, List.cons.injEq] at h
  · rw [← h.1]; rfl
  · rw [← h.2.1]
    exact ⟨hg, fun b q k ⟨d, t, r, h, _⟩ => (by cases h), fun b p ⟨t, h⟩ => (by cases h)⟩
  · rw [← h.2.2.1]; rfl
  · rw [← h.2.2.2.1]; rfl
  · rw [← h.2.2.2.2.1]; rfl
  · rw [← h.2.2.2.2.2.1]; rfl
  · obtain ⟨rfl, rfl, rfl, rfl, rfl, rfl, rfl, rfl⟩ := h
    refine Or.inr ⟨_, 55, rfl, hg, ⟨_, _, _, rfl, rfl⟩, ?_⟩
    intro r hr
    simp only [Option.some.injEq] at hr
    subst hr
    exact ⟨rfl, 133, by decide +kernel⟩
  · obtain ⟨rfl, rfl, rfl, rfl, rfl, rfl, rfl, rfl, rfl⟩ := h
    refine Or.inr ⟨_, rfl, hg, ⟨_, rfl⟩, ?_⟩
    intro r hr
    simp only [Option.some.injEq] at hr
    subst hr
    decide +kernel
  · rw [← h.2.2.2.2.2.2.2.2.1]; rfl
  · rw [← h.2.2.2.2.2.2.2.2.2.1]; rfl
  · rw [← h.2.2.2.2.2.2.2.2.2.2.1]; rfl
  · simp at h

theorem demo_admits : Exec (brokerVerifyUser toy bA) (proj 1 demo) (some (some ([7], [3]))) :=
  .op _ _ _ _ _ (.op _ _ _ _ _ (.op _ _ _ _ _ (.op _ _ _ _ _ (.ret _))))

theorem demo_plays : ∀ i, Plays toy (proj i demo)
    (match i with | 0 => .marshal | 1 => .broker bA | _ => .userToMarshal 7 7) := by
  intro i
  match i with
  | 0 => exact ⟨_, toy_run⟩
  | 1 => exact ⟨_, demo_admits⟩
  | n + 2 => exact ⟨none, by simp [demo, proj]; exact .stop _⟩

end Verif.Props.AuthWorld

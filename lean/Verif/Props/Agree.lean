import Verif.Props.ClientLocks
import Verif.Props.Sessions

/-!
# C87: the client and its broker agree on the subscriptions

The client is that of `Model/Client.lean`, the broker that of `Model/Sessions.lean`. A connection of the client is
a session of the broker; that the broker reads the messages the client wrote, in order, is C69 with C30 and is a
hypothesis here (`Matched.handled`).
-/

set_option linter.unusedSectionVars false

namespace Verif.Props.Agree
open Verif

/-- After being told the topics `ts` at authentication and then the messages `ms`, in this order: is `x`
subscribed? The last message naming `x` is a subscription, or no message names it in an unsubscription and it
was among `ts`. -/
def Told (ts : Topic → Prop) (ms : List Msg) (x : Topic) : Prop :=
  (∃ pre l post, ms = pre ++ Msg.subscribe l :: post ∧ x ∈ l ∧ ∀ l', x ∈ l' → Msg.unsubscribe l' ∉ post) ∨
  (ts x ∧ ∀ l, x ∈ l → Msg.unsubscribe l ∉ ms)

theorem told_nil (ts : Topic → Prop) (x : Topic) : Told ts [] x ↔ ts x := by simp [Told]

/-- Does the message (un)subscribe `x`? -/
def names (x : Topic) (add : Bool) : Msg → Bool
  | .subscribe l => add && decide (x ∈ l)
  | .unsubscribe l => !add && decide (x ∈ l)
  | _ => false

theorem names_false (x : Topic) (ms : List Msg) :
    (∀ l, x ∈ l → Msg.unsubscribe l ∉ ms) ↔ ∀ m ∈ ms, names x false m = false := by
  constructor
  · intro h m hm
    cases m with
    | unsubscribe l =>
      by_cases hx : x ∈ l
      · exact absurd hm (h l hx)
      · simp [names, hx]
    | _ => rfl
  · intro h l hx hm
    have := h _ hm
    simp [names, hx] at this

theorem told_snoc (ts : Topic → Prop) (ms : List Msg) (m : Msg) (x : Topic) :
    Told ts (ms ++ [m]) x ↔ names x true m = true ∨ (names x false m = false ∧ Told ts ms x) := by
  simp only [Told, names_false]
  constructor
  · rintro (⟨pre, r, post, h1, h2, h3⟩ | ⟨h1, h2⟩)
    · rcases List.eq_nil_or_concat post with rfl | ⟨post', e', hp⟩
      · have := List.append_inj_right' h1 rfl
        simp only [List.cons.injEq, and_true] at this
        rw [this]; left; simp [names, h2]
      · rw [List.concat_eq_append] at hp
        subst hp
        rw [show pre ++ Msg.subscribe r :: (post' ++ [e']) = (pre ++ Msg.subscribe r :: post') ++ [e'] by simp] at h1
        have h4 := List.append_inj_left' h1 rfl
        have h5 := List.append_inj_right' h1 rfl
        simp only [List.cons.injEq, and_true] at h5
        subst h5
        exact Or.inr ⟨h3 _ (by simp), Or.inl ⟨pre, r, post', h4, h2, fun e' he => h3 e' (by simp [he])⟩⟩
    · exact Or.inr ⟨h2 m (by simp), Or.inr ⟨h1, fun e' he => h2 e' (by simp [he])⟩⟩
  · rintro (h | ⟨h1, ⟨pre, r, post, rfl, h3, h4⟩ | ⟨h2, h3⟩⟩)
    · cases m with
      | subscribe l =>
        simp [names] at h
        exact Or.inl ⟨ms, l, [], rfl, h, by simp⟩
      | _ => simp [names] at h
    · refine Or.inl ⟨pre, r, post ++ [m], by simp, h3, fun e' he => ?_⟩
      rcases List.mem_append.1 he with he | he
      · exact h4 e' he
      · simp only [List.mem_singleton] at he; subst he; exact h1
    · refine Or.inr ⟨h2, fun e' he => ?_⟩
      rcases List.mem_append.1 he with he | he
      · exact h3 e' he
      · simp only [List.mem_singleton] at he; subst he; exact h1

section client
open Verif.Client Verif.Props.Client

/-- The messages handed to connection `c`, in order. -/
def sentOn (c : Nat) (es : List Ev) : List Msg :=
  es.filterMap fun e => match e with
    | .sent c' m => if c' = c then some m else none
    | _ => none

theorem sentOn_append (c : Nat) (a b : List Ev) : sentOn c (a ++ b) = sentOn c a ++ sentOn c b := by
  simp [sentOn]

/-- The last time task `t` authenticated with a broker, it gave the topics `ts`. -/
def LastAuth (es : List Ev) (t : Nat) (ts : FSet Topic) : Prop :=
  ∃ pre mid, es = pre ++ Ev.authWith t ts :: mid ∧ ∀ ts', Ev.authWith t ts' ∉ mid

/-- Connection `c` was authenticated with the topics `ts`. -/
def AuthTopics (es : List Ev) (c : Nat) (ts : FSet Topic) : Prop :=
  ∃ pre t post, es = pre ++ Ev.connected t c :: post ∧ LastAuth pre t ts

/-- The call does not send an (un)subscription bypassing `subscribe` and `unsubscribe`. -/
def Plain (m : Msg) : Prop := (∀ l, m ≠ .subscribe l) ∧ ∀ l, m ≠ .unsubscribe l

theorem lastAuth_quiet {es es' : List Ev} {t : Nat} {ts : FSet Topic} (hq : ∀ ts', Ev.authWith t ts' ∉ es') :
    LastAuth (es ++ es') t ts ↔ LastAuth es t ts := by
  induction es' generalizing es with
  | nil => simp
  | cons e es' ih =>
    rw [show es ++ e :: es' = (es ++ [e]) ++ es' by simp, ih fun ts' hm => hq ts' (by simp [hm])]
    constructor
    · rintro ⟨pre, mid, h1, h2⟩
      rcases List.eq_nil_or_concat mid with rfl | ⟨mid', e', hp⟩
      · have := List.append_inj_right' h1 rfl
        simp only [List.cons.injEq, and_true] at this
        exact absurd (by simp [this]) (hq ts)
      · rw [List.concat_eq_append] at hp
        subst hp
        rw [show pre ++ Ev.authWith t ts :: (mid' ++ [e']) = (pre ++ Ev.authWith t ts :: mid') ++ [e'] by simp] at h1
        exact ⟨pre, mid', List.append_inj_left' h1 rfl, fun ts' hm => h2 ts' (by simp [hm])⟩
    · rintro ⟨pre, mid, rfl, h2⟩
      refine ⟨pre, mid ++ [e], by simp, fun ts' hm => ?_⟩
      rcases List.mem_append.1 hm with hm | hm
      · exact h2 ts' hm
      · simp only [List.mem_singleton] at hm
        exact hq ts' (by simp [hm])

theorem lastAuth_snoc {es : List Ev} {t : Nat} {ts ts' : FSet Topic} :
    LastAuth (es ++ [Ev.authWith t ts]) t ts' ↔ ts' = ts := by
  constructor
  · rintro ⟨pre, mid, h1, h2⟩
    rcases List.eq_nil_or_concat mid with rfl | ⟨mid', e', hp⟩
    · have := List.append_inj_right' h1 rfl
      simp only [List.cons.injEq, and_true, Ev.authWith.injEq, true_and] at this
      exact this.symm
    · rw [List.concat_eq_append] at hp
      subst hp
      rw [show pre ++ Ev.authWith t ts' :: (mid' ++ [e']) = (pre ++ Ev.authWith t ts' :: mid') ++ [e'] by simp] at h1
      have h5 := List.append_inj_right' h1 rfl
      simp only [List.cons.injEq, and_true] at h5
      exact absurd (by simp [h5]) (h2 ts)
  · rintro rfl; exact ⟨es, [], rfl, by simp⟩

theorem authTopics_quiet {es es' : List Ev} {c : Nat} {ts : FSet Topic} (hq : ∀ t, Ev.connected t c ∉ es') :
    AuthTopics (es ++ es') c ts ↔ AuthTopics es c ts := by
  induction es' generalizing es with
  | nil => simp
  | cons e es' ih =>
    rw [show es ++ e :: es' = (es ++ [e]) ++ es' by simp, ih fun ts' hm => hq ts' (by simp [hm])]
    constructor
    · rintro ⟨pre, t, mid, h1, h2⟩
      rcases List.eq_nil_or_concat mid with rfl | ⟨mid', e', hp⟩
      · have := List.append_inj_right' h1 rfl
        simp only [List.cons.injEq, and_true] at this
        exact absurd (by simp [this]) (hq t)
      · rw [List.concat_eq_append] at hp
        subst hp
        rw [show pre ++ Ev.connected t c :: (mid' ++ [e']) = (pre ++ Ev.connected t c :: mid') ++ [e'] by simp] at h1
        exact ⟨pre, t, mid', List.append_inj_left' h1 rfl, h2⟩
    · rintro ⟨pre, t, mid, rfl, h2⟩
      exact ⟨pre, t, mid ++ [e], by simp, h2⟩

theorem authTopics_new {es : List Ev} {t c : Nat} {ts : FSet Topic} (hn : ∀ t, Ev.connected t c ∉ es) :
    AuthTopics (es ++ [Ev.connected t c]) c ts ↔ LastAuth es t ts := by
  constructor
  · rintro ⟨pre, t', mid, h1, h2⟩
    rcases List.eq_nil_or_concat mid with rfl | ⟨mid', e', hp⟩
    · have h3 := List.append_inj_right' h1 rfl
      have h4 := List.append_inj_left' h1 rfl
      simp only [List.cons.injEq, and_true, Ev.connected.injEq] at h3
      rw [h3, h4]; exact h2
    · rw [List.concat_eq_append] at hp
      subst hp
      rw [show pre ++ Ev.connected t' c :: (mid' ++ [e']) = (pre ++ Ev.connected t' c :: mid') ++ [e'] by simp] at h1
      have h4 := List.append_inj_left' h1 rfl
      exact absurd (by rw [h4]; simp) (hn t')
  · intro h; exact ⟨es, t, [], rfl, h⟩

/-- What the client has told its brokers, so far. -/
structure Acc (s : St) (es : List Ev) : Prop where
  fresh : ∀ c, s.conns ≤ c → sentOn c es = [] ∧ ∀ t, Ev.connected t c ∉ es
  connLt : ∀ c, s.conn = some c → c < s.conns
  usingLt : ∀ t w c, s.pc t = .using w c → c < s.conns
  gotLt : ∀ t c, s.pc t = .rGot c → c < s.conns
  auth : ∀ t, s.pc t = .rAuth → ∀ ts, LastAuth es t ts ↔ ts = s.subs
  got : ∀ t c, s.pc t = .rGot c → sentOn c es = [] ∧ (∀ u w, s.pc u ≠ .using w c) ∧
    (∀ u add l todo c', s.pc u ≠ .using (.topics add l todo) c') ∧ ∀ ts, AuthTopics es c ts ↔ ts = s.subs
  same : ∀ t add l todo c c', s.pc t = .using (.topics add l todo) c → s.conn = some c' → c = c'
  plain : ∀ t m, (s.pc t = .new (.send m) ∨ work (s.pc t) = some (.send m)) → Ev.called t (.send m) ∈ es
  told : ∀ c, s.conn = some c → ∃ ts, (∀ ts', AuthTopics es c ts' ↔ ts' = ts) ∧
    ∀ x, x ∈ s.subs ↔ Told (· ∈ ts) (sentOn c es) x

variable {s s' : St} {es es' : List Ev}

theorem Acc.quiet (h : Acc s es) (h1 : ∀ c, sentOn c es' = []) (h2 : ∀ t c, Ev.connected t c ∉ es')
    (h3 : ∀ t ts, Ev.authWith t ts ∉ es') (hs : s'.subs = s.subs) (hn : s'.conns = s.conns)
    (hc : ∀ c, s'.conn = some c → s.conn = some c)
    (hA : ∀ t, s'.pc t = .rAuth → s.pc t = .rAuth) (hG : ∀ t c, s'.pc t = .rGot c → s.pc t = .rGot c)
    (hU : ∀ t w c, s'.pc t = .using w c → s.pc t = .using w c ∨ (s.conn = some c ∧ ∀ u c', s.pc u ≠ .rGot c'))
    (hP : ∀ t m, (s'.pc t = .new (.send m) ∨ work (s'.pc t) = some (.send m)) →
      (s.pc t = .new (.send m) ∨ work (s.pc t) = some (.send m)) ∨ Ev.called t (.send m) ∈ es') :
    Acc s' (es ++ es') := by
  have hso : ∀ c, sentOn c (es ++ es') = sentOn c es := fun c => by rw [sentOn_append, h1]; simp
  have hat : ∀ c ts, AuthTopics (es ++ es') c ts ↔ AuthTopics es c ts :=
    fun c ts => authTopics_quiet fun t => h2 t c
  have hla : ∀ t ts, LastAuth (es ++ es') t ts ↔ LastAuth es t ts := fun t ts => lastAuth_quiet (h3 t)
  refine ⟨?_, ?_, ?_, ?_, ?_, ?_, ?_, ?_, ?_⟩
  · intro c hc
    rw [hn] at hc
    obtain ⟨a, b⟩ := h.fresh c hc
    refine ⟨by rw [hso]; exact a, fun t hm => ?_⟩
    rcases List.mem_append.1 hm with hm | hm
    · exact b t hm
    · exact h2 t c hm
  · intro c hq; rw [hn]; exact h.connLt c (hc c hq)
  · intro t w c hq
    rw [hn]
    rcases hU t w c hq with hq | ⟨hq, -⟩
    · exact h.usingLt t w c hq
    · exact h.connLt c hq
  · intro t c hq; rw [hn]; exact h.gotLt t c (hG t c hq)
  · intro t hq ts; rw [hla, hs]; exact h.auth t (hA t hq) ts
  · intro t c hq
    obtain ⟨a, b, d, e⟩ := h.got t c (hG t c hq)
    refine ⟨by rw [hso]; exact a, fun u w hw => ?_, fun u add l todo c' hw => ?_, fun ts => by rw [hat, hs]; exact e ts⟩
    · rcases hU u w c hw with hw | ⟨-, hw⟩
      · exact b u w hw
      · exact hw t c (hG t c hq)
    · rcases hU u _ c' hw with hw | ⟨-, hw⟩
      · exact d u add l todo c' hw
      · exact hw t c (hG t c hq)
  · intro t add l todo c c' hw hq
    rcases hU t _ c hw with hw | ⟨hw, -⟩
    · exact h.same t add l todo c c' hw (hc c' hq)
    · have := hc c' hq
      rw [hw] at this; cases this; rfl
  · intro t m hq
    rcases hP t m hq with hq | hq
    · exact List.mem_append.2 (Or.inl (h.plain t m hq))
    · exact List.mem_append.2 (Or.inr hq)
  · intro c hq
    obtain ⟨ts, a, b⟩ := h.told c (hc c hq)
    exact ⟨ts, fun ts' => by rw [hat]; exact a ts', fun x => by rw [hso, hs]; exact b x⟩

theorem giveUp_quiet (v : Nat) (w : Work) : (∀ c, sentOn c (s.giveUp v w).2 = []) ∧
    (∀ t c, Ev.connected t c ∉ (s.giveUp v w).2) ∧ ∀ t ts, Ev.authWith t ts ∉ (s.giveUp v w).2 := by
  cases w <;> simp [St.giveUp, sentOn]

/-- How a task gets to these points. -/
theorem moves (hi : s.Inv) (hs : Step s es s') :
    (∀ t, s'.pc t = .rAuth → s.pc t = .rAuth ∨ Ev.authWith t s.subs ∈ es) ∧
    (∀ t c, s'.pc t = .rGot c → s.pc t = .rGot c ∨ Ev.connected t c ∈ es) ∧
    (∀ t w c, s'.pc t = .using w c → s.pc t = .using w c ∨ (s.conn = some c ∧ s.pc t = .reading w)) ∧
    (∀ t m, (s'.pc t = .new (.send m) ∨ work (s'.pc t) = some (.send m)) →
      (s.pc t = .new (.send m) ∨ work (s.pc t) = some (.send m)) ∨ Ev.called t (.send m) ∈ es) := by
  refine ⟨fun t ht => ?_, fun t c ht => ?_, fun t w c ht => ?_, fun t m ht => ?_⟩
  all_goals
    rcases pc_step hi hs t with h | h
    · rw [h] at ht; exact Or.inl ht
    · generalize s'.pc t = q at h ht
      generalize s.pc t = p at h
      cases h with
      | _ => first
        | (simp [work] at ht; done)
        | (simp_all [work])

theorem acc_quiet (hi : s.Inv) (h : Acc s es) (hst : Step s es' s') (h1 : ∀ c, sentOn c es' = [])
    (h2 : ∀ t c, Ev.connected t c ∉ es') (h3 : ∀ t ts, Ev.authWith t ts ∉ es') (hs : s'.subs = s.subs)
    (hn : s'.conns = s.conns) (hc : s'.conn = s.conn ∨ s'.conn = none) : Acc s' (es ++ es') := by
  obtain ⟨m1, m2, m3, m4⟩ := moves hi hst
  refine h.quiet h1 h2 h3 hs hn (fun c hq => ?_) (fun t ht => (m1 t ht).resolve_right (h3 _ _))
    (fun t c ht => (m2 t c ht).resolve_right (h2 _ _)) (fun t w c ht => ?_) m4
  · rcases hc with hc | hc
    · rw [hc] at hq; exact hq
    · rw [hc] at hq; cases hq
  · refine (m3 t w c ht).imp id fun ⟨a, b⟩ => ⟨a, fun u c' hu => ?_⟩
    have := hi.wr u t (by rw [hu]; rfl)
    rw [b] at this; cases this

theorem acc_step (hi : s.Inv) (h : Acc s es) (hst : Step s es' s')
    (hraw : ∀ t m, Ev.called t (.send m) ∈ es → Plain m) : Acc s' (es ++ es') := by
  have quiet := acc_quiet hi h hst
  have hm := moves hi hst
  cases hst with
  | noRead t w => obtain ⟨a, b, c⟩ := giveUp_quiet (s := s) t w; exact quiet a b c (by cases w <;> rfl) (by cases w <;> rfl) (Or.inl (by cases w <;> rfl))
  | noSpawn t w => obtain ⟨a, b, c⟩ := giveUp_quiet (s := s) t w; exact quiet a b c (by cases w <;> rfl) (by cases w <;> rfl) (Or.inl (by cases w <;> rfl))
  | store t w => obtain ⟨a, b, c⟩ := giveUp_quiet (s := s) t w; exact quiet a b c (by cases w <;> rfl) (by cases w <;> rfl) (Or.inl (by cases w <;> rfl))
  | take t w =>
    exact quiet (by cases s.conn <;> simp [sentOn]) (by cases s.conn <;> simp) (by cases s.conn <;> simp) rfl rfl (Or.inr rfl)
  | closeTake t =>
    exact quiet (by cases s.conn <;> simp [sentOn]) (by cases s.conn <;> simp) (by cases s.conn <;> simp) rfl rfl (Or.inr rfl)
  | useOk t w c hp =>
    obtain ⟨m1, m2, m3, m4⟩ := hm
    have q2 : ∀ u c', Ev.connected u c' ∉ w.message.map (Ev.sent c) ++ [.returned t w.op true] := by simp
    have q3 : ∀ u ts, Ev.authWith u ts ∉ w.message.map (Ev.sent c) ++ [.returned t w.op true] := by simp
    have q1 : ∀ c', sentOn c' (es ++ (w.message.map (Ev.sent c) ++ [.returned t w.op true])) =
        sentOn c' es ++ if c' = c then w.message else [] := by
      intro c'
      rw [sentOn_append, sentOn_append]
      by_cases e : c' = c
      · subst e
        simp [sentOn, List.filterMap_map, Function.comp_def]
      · have : ¬ c = c' := fun x => e x.symm
        simp [sentOn, List.filterMap_map, Function.comp_def, e, this]
    have hgot : ∀ u c', upd s.pc t .done u = .rGot c' → s.pc u = .rGot c' := fun u c' hu =>
      (m2 u c' hu).resolve_right (q2 _ _)
    have hauth : ∀ u, upd s.pc t .done u = .rAuth → s.pc u = .rAuth := fun u hu => (m1 u hu).resolve_right (q3 _ _)
    have hus : ∀ u w' c', upd s.pc t .done u = .using w' c' → s.pc u = .using w' c' := by
      intro u w' c' hu
      by_cases e : u = t
      · subst e; rw [upd_self] at hu; cases hu
      · rw [upd_ne _ _ e] at hu; exact hu
    have hat : ∀ c' ts, AuthTopics (es ++ (w.message.map (Ev.sent c) ++ [.returned t w.op true])) c' ts ↔
        AuthTopics es c' ts := fun c' ts => authTopics_quiet fun t => q2 t c'
    have hla : ∀ u ts, LastAuth (es ++ (w.message.map (Ev.sent c) ++ [.returned t w.op true])) u ts ↔
        LastAuth es u ts := fun u ts => lastAuth_quiet (q3 u)
    have hlt := h.usingLt t w c hp
    refine ⟨fun c' hc' => ?_, h.connLt, fun u w' c' hu => h.usingLt u w' c' (hus u w' c' hu),
      fun u c' hu => h.gotLt u c' (hgot u c' hu), fun u hu ts => ?_, fun u c' hu => ?_,
      fun u add l todo c1 c2 hu => h.same u add l todo c1 c2 (hus u _ c1 hu), fun u m hu => ?_, fun c' hc' => ?_⟩
    · obtain ⟨h1, h2⟩ := h.fresh c' hc'
      have hc' : s.conns ≤ c' := hc'
      rw [q1, h1, if_neg (by omega)]
      refine ⟨rfl, fun u hm => ?_⟩
      rcases List.mem_append.1 hm with hm | hm
      · exact h2 u hm
      · exact q2 u c' hm
    · rw [hla]
      have hu' := hauth u hu
      have : w.record s.subs = s.subs := by
        cases w with
        | topics add l todo =>
          have := hi.sa t u (by rw [hp]; rfl)
          rw [hu'] at this; cases this
        | _ => rfl
      show _ ↔ ts = w.record s.subs
      rw [this]
      exact h.auth u hu' ts
    · obtain ⟨h1, h2, h3, h4⟩ := h.got u c' (hgot u c' hu)
      have hne : c' ≠ c := by rintro rfl; exact h2 t w hp
      have : w.record s.subs = s.subs := by
        cases w with
        | topics add l todo => exact absurd hp (h3 t add l todo c)
        | _ => rfl
      rw [q1, h1, if_neg hne]
      refine ⟨rfl, fun v w' hv => h2 v w' (hus v w' c' hv), fun v a l d c'' hv => h3 v a l d c'' (hus v _ c'' hv),
        fun ts => ?_⟩
      show _ ↔ ts = w.record s.subs
      rw [this, hat]
      exact h4 ts
    · rcases m4 u m hu with hu | hu
      · exact List.mem_append.2 (Or.inl (h.plain u m hu))
      · exact List.mem_append.2 (Or.inr hu)
    · obtain ⟨ts, h1, h2⟩ := h.told c' hc'
      refine ⟨ts, fun ts' => by rw [hat]; exact h1 ts', fun x => ?_⟩
      show x ∈ w.record s.subs ↔ _
      rw [q1]
      cases w with
      | send m =>
        have hpl := hraw t m (h.plain t m (Or.inr (by rw [hp]; rfl)))
        have hn : ∀ b, names x b m = false := by
          intro b
          cases m with
          | subscribe l => exact absurd rfl (hpl.1 l)
          | unsubscribe l => exact absurd rfl (hpl.2 l)
          | _ => rfl
        by_cases e : c' = c
        · rw [if_pos e]
          show _ ↔ Told _ (_ ++ [m]) x
          rw [told_snoc, hn, hn]
          simpa [Work.record] using h2 x
        · rw [if_neg e, List.append_nil]; exact h2 x
      | topics add l todo =>
        have e : c' = c := (h.same t add l todo c c' hp hc').symm
        rw [if_pos e]
        cases add
        · show _ ↔ Told _ (_ ++ [Msg.unsubscribe todo]) x
          rw [told_snoc, ← h2 x]
          simp only [Work.record, names, FSet.mem_eraseMany]
          simp
        · show _ ↔ Told _ (_ ++ [Msg.subscribe todo]) x
          rw [told_snoc, ← h2 x]
          simp only [Work.record, names, FSet.mem_insertMany]
          simp
      | _ => simpa [Work.record, Work.message] using h2 x
  | rSubs t hp hw =>
    obtain ⟨m1, m2, m3, m4⟩ := hm
    have hso : ∀ c, sentOn c (es ++ [Ev.authWith t s.subs]) = sentOn c es := fun c => by
      rw [sentOn_append]; simp [sentOn]
    have hat : ∀ c' ts, AuthTopics (es ++ [Ev.authWith t s.subs]) c' ts ↔ AuthTopics es c' ts :=
      fun c' ts => authTopics_quiet fun t => by simp
    have hpc : ∀ u p, p ≠ .rAuth → upd s.pc t .rAuth u = p → s.pc u = p := by
      intro u p hne hu
      by_cases e : u = t
      · subst e; rw [upd_self] at hu; exact absurd hu.symm hne
      · rw [upd_ne _ _ e] at hu; exact hu
    have hus : ∀ u w' c', upd s.pc t .rAuth u = .using w' c' → s.pc u = .using w' c' :=
      fun u w' c' hu => hpc u _ (by simp) hu
    refine ⟨fun c' hc' => ?_, h.connLt, fun u w' c' hu => h.usingLt u w' c' (hus u w' c' hu),
      fun u c' hu => h.gotLt u c' (hpc u _ (by simp) hu), fun u hu ts => ?_, fun u c' hu => ?_,
      fun u add l todo c1 c2 hu => h.same u add l todo c1 c2 (hus u _ c1 hu), fun u m hu => ?_, fun c' hc' => ?_⟩
    · obtain ⟨h1, h2⟩ := h.fresh c' hc'
      rw [hso]
      exact ⟨h1, fun u hm => by simp at hm; exact h2 u hm⟩
    · by_cases e : u = t
      · subst e
        exact lastAuth_snoc
      · have hu' : s.pc u = .rAuth := by
          have hu : upd s.pc t .rAuth u = .rAuth := hu
          rw [upd_ne _ _ e] at hu; exact hu
        rw [lastAuth_quiet (by simp; intro x; exact absurd x e)]
        exact h.auth u hu' ts
    · obtain ⟨h1, h2, h3, h4⟩ := h.got u c' (hpc u _ (by simp) hu)
      rw [hso]
      exact ⟨h1, fun v w' hv => h2 v w' (hus v w' c' hv), fun v a l d c'' hv => h3 v a l d c'' (hus v _ c'' hv),
        fun ts => by rw [hat]; exact h4 ts⟩
    · rcases m4 u m hu with hu | hu
      · exact List.mem_append.2 (Or.inl (h.plain u m hu))
      · exact List.mem_append.2 (Or.inr hu)
    · obtain ⟨ts, h1, h2⟩ := h.told c' hc'
      exact ⟨ts, fun ts' => by rw [hat]; exact h1 ts', fun x => by rw [hso]; exact h2 x⟩
  | rAuthOk t hp =>
    obtain ⟨m1, m2, m3, m4⟩ := hm
    have hso : ∀ c, sentOn c (es ++ [Ev.connected t s.conns]) = sentOn c es := fun c => by
      rw [sentOn_append]; simp [sentOn]
    have hla : ∀ u ts, LastAuth (es ++ [Ev.connected t s.conns]) u ts ↔ LastAuth es u ts :=
      fun u ts => lastAuth_quiet (by simp)
    have hat : ∀ c' ts, c' ≠ s.conns → (AuthTopics (es ++ [Ev.connected t s.conns]) c' ts ↔ AuthTopics es c' ts) :=
      fun c' ts hne => authTopics_quiet (by simp [hne])
    have hpc : ∀ u p, p ≠ .rGot s.conns → upd s.pc t (.rGot s.conns) u = p → s.pc u = p := by
      intro u p hne hu
      by_cases e : u = t
      · subst e; rw [upd_self] at hu; exact absurd hu.symm hne
      · rw [upd_ne _ _ e] at hu; exact hu
    have hus : ∀ u w' c', upd s.pc t (.rGot s.conns) u = .using w' c' → s.pc u = .using w' c' :=
      fun u w' c' hu => hpc u _ (by simp) hu
    have hW : (s.pc t).holdsW = true := by rw [hp]; rfl
    refine ⟨fun c' hc' => ?_, fun c' hc' => Nat.lt_succ_of_lt (h.connLt c' hc'),
      fun u w' c' hu => Nat.lt_succ_of_lt (h.usingLt u w' c' (hus u w' c' hu)),
      fun u c' hu => ?_, fun u hu ts => ?_, fun u c' hu => ?_,
      fun u add l todo c1 c2 hu => h.same u add l todo c1 c2 (hus u _ c1 hu), fun u m hu => ?_, fun c' hc' => ?_⟩
    · have hc' : s.conns + 1 ≤ c' := hc'
      obtain ⟨h1, h2⟩ := h.fresh c' (by omega)
      rw [hso]
      refine ⟨h1, fun u hm => ?_⟩
      rcases List.mem_append.1 hm with hm | hm
      · exact h2 u hm
      · simp at hm; omega
    · show c' < s.conns + 1
      by_cases e : u = t
      · subst e
        have hu : upd s.pc u (.rGot s.conns) u = .rGot c' := hu
        rw [upd_self] at hu; cases hu; omega
      · have hu : upd s.pc t (.rGot s.conns) u = .rGot c' := hu
        rw [upd_ne _ _ e] at hu
        exact Nat.lt_succ_of_lt (h.gotLt u c' hu)
    · rw [hla]; exact h.auth u (hpc u _ (by simp) hu) ts
    · have hut : u = t := by
        refine Decidable.byContradiction fun e => ?_
        have hu : upd s.pc t (.rGot s.conns) u = .rGot c' := hu
        rw [upd_ne _ _ e] at hu
        exact e (hi.uW u t (by rw [hu]; rfl) hW)
      subst hut
      have hu : upd s.pc u (.rGot s.conns) u = .rGot c' := hu
      rw [upd_self] at hu; cases hu
      obtain ⟨h1, h2⟩ := h.fresh s.conns (Nat.le_refl _)
      rw [hso]
      refine ⟨h1, fun v w' hv => ?_, fun v a l d c'' hv => ?_, fun ts => ?_⟩
      · exact absurd (h.usingLt v w' _ (hus v w' _ hv)) (Nat.lt_irrefl _)
      · have := hi.sa v u (by rw [hus v _ c'' hv]; rfl)
        rw [hp] at this; cases this
      · rw [authTopics_new h2]; exact h.auth u hp ts
    · rcases m4 u m hu with hu | hu
      · exact List.mem_append.2 (Or.inl (h.plain u m hu))
      · exact List.mem_append.2 (Or.inr hu)
    · have hn : s.conn = none := hi.none t (by rw [hp]; rfl)
      have hc' : s.conn = some c' := hc'
      rw [hn] at hc'; cases hc'
  | rSet t c hp =>
    obtain ⟨m1, m2, m3, m4⟩ := hm
    simp only [List.append_nil]
    have hW : (s.pc t).holdsW = true := by rw [hp]; rfl
    have hpc : ∀ u p, p ≠ .rSet → upd s.pc t .rSet u = p → s.pc u = p := by
      intro u p hne hu
      by_cases e : u = t
      · subst e; rw [upd_self] at hu; exact absurd hu.symm hne
      · rw [upd_ne _ _ e] at hu; exact hu
    obtain ⟨g1, g2, g3, g4⟩ := h.got t c hp
    refine ⟨h.fresh, fun c' hc' => ?_, fun u w' c' hu => h.usingLt u w' c' (hpc u _ (by simp) hu),
      fun u c' hu => h.gotLt u c' (hpc u _ (by simp) hu), fun u hu ts => h.auth u (hpc u _ (by simp) hu) ts,
      fun u c' hu => ?_, fun u a l d c1 c2 hu => absurd (hpc u _ (by simp) hu) (g3 u a l d c1), fun u m hu => ?_,
      fun c' hc' => ?_⟩
    · have hc' : some c = some c' := hc'
      cases hc'; exact h.gotLt t c hp
    · have hu' := hpc u _ (by simp) hu
      have := hi.uW u t (by rw [hu']; rfl) hW
      subst this
      have hu : upd s.pc u .rSet u = .rGot c' := hu
      rw [upd_self] at hu; cases hu
    · rcases m4 u m hu with hu | hu
      · exact h.plain u m hu
      · cases hu
    · have hc' : some c = some c' := hc'
      cases hc'
      refine ⟨s.subs, g4, fun x => ?_⟩
      rw [g1, told_nil]; exact Iff.rfl
  | _ => exact quiet (by simp [sentOn]) (by simp) (by simp) rfl rfl (Or.inl rfl)

theorem acc_run (init : List Topic) (h : Run (St.new init) es s)
    (hraw : ∀ t m, Ev.called t (.send m) ∈ es → Plain m) : Acc s es := by
  induction h with
  | nil =>
    refine ⟨fun c _ => by simp [sentOn], ?_, ?_, ?_, ?_, ?_, ?_, ?_, ?_⟩ <;> simp [St.new, work]
  | snoc es1 s1 es2 s2 h1 hs ih =>
    have hraw1 : ∀ t m, Ev.called t (.send m) ∈ es1 → Plain m := fun t m hm => hraw t m (List.mem_append_left _ hm)
    exact acc_step (reach_inv h1) (ih hraw1) hs hraw1

/-- **C87, the client's side.** While the client has a connection, the topics the application asked for (with calls
that succeeded) are exactly those that follow from what was told on this connection: the topics given when it was
authenticated, and the subscriptions and unsubscriptions sent on it since, in order. The connection was
authenticated exactly once. -/
theorem C87_client_accounts (init : List Topic) (h : Run (St.new init) es s)
    (hraw : ∀ t m, Ev.called t (.send m) ∈ es → Plain m) (c : Nat) (hc : s.conn = some c) :
    ∃ ts, (∀ ts', AuthTopics es c ts' ↔ ts' = ts) ∧
      ∀ x, Asked init es x ↔ Told (· ∈ ts) (sentOn c es) x := by
  obtain ⟨ts, h1, h2⟩ := (acc_run init h hraw).told c hc
  exact ⟨ts, h1, fun x => by rw [← (subs_asked init h).1 x]; exact h2 x⟩

end client

section broker
open Verif.Broker Verif.Conns Verif.Sessions Verif.Props.Sessions Verif.Props.Connections

variable {B σ : Type} [DecidableEq B] [LT B] [DecidableLT B]

/-- The frames handled by the receive loop of session `i`, in order. -/
def handledOn (i : Nat) (ls : List (Lab B)) : List Bytes :=
  ls.filterMap fun l => match l with
    | .frame j raw => if j = i then some raw else none
    | _ => none

theorem handledOn_append (i : Nat) (a b : List (Lab B)) : handledOn i (a ++ b) = handledOn i a ++ handledOn i b := by
  simp [handledOn]

/-- The broker's hook lets everything through (the default, `NoMessageHook`). -/
def NoHook (cfg : Cfg B σ) : Prop := ∀ h m, (cfg.userHook h m).2 = (m, .process)

theorem prune_mem (valid : Topic → Bool) (l : List Topic) (t : Topic) : t ∈ (prune valid l).1 ↔ t ∈ l ∧ valid t = true :=
  (Prune.C16_prune valid l).2.2.1 t

theorem prune_fail (valid : Topic → Bool) (l : List Topic) (h : (prune valid l).2 = false) (t : Topic)
    (hv : valid t = true) : t ∉ l := by
  intro ht
  have := (Prune.C16_prune valid l).1.1 h t ht
  rw [hv] at this; cases this

/-- What a frame of a user does to the table. -/
theorem act_effect {cfg : Cfg B σ} (hh : NoHook cfg) {h hk : σ} {raw u : Bytes} {ts : List Topic} {m : Msg}
    {a : Act B} (hd : cfg.decode raw = some m) (ha : act cfg h raw (.user u ts) = (hk, a)) :
    (∀ o, a = .op o → (∃ l, m = .subscribe l ∧ o = .subscribeUser u (prune cfg.valid l).1) ∨
      ∃ l, m = .unsubscribe l ∧ o = .unsubscribeUser u (prune cfg.valid l).1) ∧
    ((∀ o, a ≠ .op o) → ∀ t b, cfg.valid t = true → names t b m = false) := by
  have h1 : (cfg.userHook h m).2.1 = m := by rw [hh h m]
  have h2 : (cfg.userHook h m).2.2 = .process := by rw [hh h m]
  simp only [act, userAct, hd, h1, h2] at ha
  cases m with
  | subscribe l =>
    simp only at ha
    cases hp : (prune cfg.valid l).2 with
    | true =>
      rw [hp] at ha
      simp only [↓reduceIte, Prod.mk.injEq] at ha
      obtain ⟨-, rfl⟩ := ha
      exact ⟨fun o ho => Or.inl ⟨l, rfl, by cases ho; rfl⟩, fun hn => absurd rfl (hn _)⟩
    | false =>
      rw [hp] at ha
      simp only [Bool.false_eq_true, ↓reduceIte, Prod.mk.injEq] at ha
      obtain ⟨-, rfl⟩ := ha
      exact ⟨fun o ho => (by cases ho), fun _ t b hv => by simp [names, prune_fail cfg.valid l hp t hv]⟩
  | unsubscribe l =>
    simp only at ha
    cases hp : (prune cfg.valid l).2 with
    | true =>
      rw [hp] at ha
      simp only [↓reduceIte, Prod.mk.injEq] at ha
      obtain ⟨-, rfl⟩ := ha
      exact ⟨fun o ho => Or.inr ⟨l, rfl, by cases ho; rfl⟩, fun hn => absurd rfl (hn _)⟩
    | false =>
      rw [hp] at ha
      simp only [Bool.false_eq_true, ↓reduceIte, Prod.mk.injEq] at ha
      obtain ⟨-, rfl⟩ := ha
      exact ⟨fun o ho => (by cases ho), fun _ t b hv => by simp [names, prune_fail cfg.valid l hp t hv]⟩
  | broadcast l p =>
    simp only at ha
    split at ha <;> cases ha <;> exact ⟨fun o ho => (by cases ho), fun _ t b hv => rfl⟩
  | _ =>
    simp only at ha
    cases ha
    exact ⟨fun o ho => (by cases ho), fun _ t b hv => rfl⟩

/-- **C87, the broker's side.** -/
theorem broker_side {cfg : Cfg B σ} (hh : NoHook cfg) {id : B} {l0 ls : List (Lab B)} {o0 os : List (TOp B Nat)}
    {s s' : St B σ} (h0 : Run cfg (St.new id) l0 o0 s) (h : Run cfg s ls os s') {u : Bytes} {i : Nat}
    {ts : Topic → Prop} {x : Sess B σ} {ts0 : List Topic} (hx : s.sess[i]? = some x) (hw : x.who = .user u ts0)
    (hon : On s.table u i (fun t => ts t ∧ cfg.valid t = true))
    (hother : ∀ j y ts', j ≠ i → s'.sess[j]? = some y → y.who = .user u ts' → ∀ raw, Lab.frame j raw ∉ ls)
    (ms : List Msg) (hms : (handledOn i ls).map cfg.decode = ms.map some) :
    i ∈ s'.table.aborted ∨ On s'.table u i (fun t => Told ts ms t ∧ cfg.valid t = true) := by
  induction h generalizing ms with
  | nil =>
    right
    cases ms with
    | nil => simpa only [told_nil] using hon
    | cons m ms => simp [handledOn] at hms
  | snoc ls os s1 l o s2 h hs ih =>
    have hother1 : ∀ j y ts', j ≠ i → s1.sess[j]? = some y → y.who = .user u ts' → ∀ raw, Lab.frame j raw ∉ ls := by
      intro j y ts' hj hy hyw raw hm
      obtain ⟨y', hy', hw', -⟩ := sess_step hs hy
      exact hother j y' ts' hj hy' (hw'.trans hyw) raw (List.mem_append_left _ hm)
    have hinv1 := inv_run (h0.trans h)
    -- steps in which session `i` handles nothing
    have other : handledOn i [l] = [] →
        (∀ op, op ∈ o → (∀ ts, op ≠ .subscribeUser u ts) ∧ ∀ ts, op ≠ .unsubscribeUser u ts) →
        i ∈ s2.table.aborted ∨ On s2.table u i (fun t => Told ts ms t ∧ cfg.valid t = true) := by
      intro hl hops
      rw [handledOn_append, hl, List.append_nil] at hms
      have hone : o = [] ∨ ∃ o1, o = [o1] := by cases hs <;> simp
      rcases ih hother1 ms hms with h1 | h1
      · left; rw [step_table hs]; exact aborted_run _ _ h1
      · rw [step_table hs]
        rcases hone with rfl | ⟨o1, rfl⟩
        · exact Or.inr h1
        · obtain ⟨n1, n2⟩ := hops o1 (by simp)
          refine (on_step hinv1.index h1 o1).imp _root_.id fun h2 => ⟨h2.1, fun t => ?_⟩
          have h3 := h2.2 t
          refine h3.trans ⟨?_, fun h4 => Or.inl ⟨h4, fun ⟨ts, e, _⟩ => n2 ts e⟩⟩
          rintro (h4 | ⟨ts, e, _⟩)
          · exact h4.1
          · exact absurd e (n1 ts)
    -- a frame of session `i`
    have frame : ∀ (raw : Bytes) (y : Sess B σ) (hk : σ) (a : Act B), l = .frame i raw → s1.sess[i]? = some y →
        act cfg y.hook raw y.who = (hk, a) → (∀ op, a = .op op → o = [op]) → ((∀ op, a ≠ .op op) → o = []) →
        i ∈ s2.table.aborted ∨ On s2.table u i (fun t => Told ts ms t ∧ cfg.valid t = true) := by
      intro raw y hk a hl hy ha ho1 ho2
      subst hl
      have hyw : y.who = .user u ts0 := by
        obtain ⟨z, hz, hzw, -⟩ := sess_run h hx
        rw [hy] at hz; cases hz; exact hzw.trans hw
      rw [hyw] at ha
      have hr : handledOn i [(Lab.frame i raw : Lab B)] = [raw] := by simp [handledOn]
      rw [handledOn_append, hr, List.map_append] at hms
      obtain ⟨ms1, ms2, rfl, e1, e2⟩ := List.append_eq_map_iff.1 hms
      rcases ms2 with _ | ⟨m, _ | ⟨m', ms2⟩⟩
      · simp at e2
      · have hd : cfg.decode raw = some m := by simpa using e2.symm
        obtain ⟨f1, f2⟩ := act_effect hh hd ha
        rcases ih hother1 ms1 e1.symm with h1 | h1
        · left; rw [step_table hs]; exact aborted_run _ _ h1
        · rw [step_table hs]
          by_cases hop : ∃ op, a = .op op
          · obtain ⟨op, rfl⟩ := hop
            rw [ho1 op rfl]
            refine (on_step hinv1.index h1 op).imp _root_.id fun h2 => ⟨h2.1, fun t => (h2.2 t).trans ?_⟩
            rcases f1 op rfl with ⟨l, rfl, rfl⟩ | ⟨l, rfl, rfl⟩
            · dsimp only
              rw [told_snoc]
              simp only [names, reduceCtorEq, false_and, exists_false, not_false_eq_true, and_true,
                Op.subscribeUser.injEq, true_and, Bool.true_and, decide_eq_true_eq, Bool.false_and]
              constructor
              · rintro (h4 | ⟨_, rfl, h4⟩)
                · exact ⟨Or.inr h4.1, h4.2⟩
                · rw [prune_mem] at h4; exact ⟨Or.inl h4.1, h4.2⟩
              · rintro ⟨h4 | h4, h5⟩
                · exact Or.inr ⟨_, rfl, (prune_mem _ _ _).2 ⟨h4, h5⟩⟩
                · exact Or.inl ⟨h4, h5⟩
            · dsimp only
              rw [told_snoc]
              simp only [names, reduceCtorEq, false_and, exists_false, or_false, Op.unsubscribeUser.injEq, true_and,
                Bool.not_true, Bool.false_and, Bool.false_eq_true, false_or, Bool.not_false, Bool.true_and,
                decide_eq_false_iff_not]
              constructor
              · rintro ⟨h4, h5⟩
                exact ⟨⟨fun h6 => h5 ⟨_, rfl, (prune_mem _ _ _).2 ⟨h6, h4.2⟩⟩, h4.1⟩, h4.2⟩
              · rintro ⟨⟨h4, h5⟩, h6⟩
                exact ⟨⟨h5, h6⟩, fun ⟨_, e, h7⟩ => h4 (by rw [← e, prune_mem] at h7; exact h7.1)⟩
          · have hop' : ∀ op, a ≠ .op op := fun op e => hop ⟨op, e⟩
            rw [ho2 hop']
            right
            refine ⟨h1.1, fun t => (h1.2 t).trans ?_⟩
            dsimp only
            rw [told_snoc]
            constructor
            · rintro ⟨h4, h5⟩
              exact ⟨Or.inr ⟨f2 hop' t false h5, h4⟩, h5⟩
            · rintro ⟨h4 | h4, h5⟩
              · rw [f2 hop' t true h5] at h4; cases h4
              · exact ⟨h4.2, h5⟩
      · simp at e2
    cases hs with
    | frameOp j y hy hl raw hk op ha =>
      by_cases hj : j = i
      · subst hj
        exact frame raw y hk _ rfl hy ha (fun o e => by cases e; rfl) (fun hn => absurd rfl (hn _))
      · refine other (by simp [handledOn, hj]) fun op' hop' => ?_
        simp only [List.mem_singleton] at hop'
        subst hop'
        have hnot : ∀ ts', y.who ≠ .user u ts' := by
          intro ts' hyw
          obtain ⟨y', hy', hw', -⟩ := sess_step (Step.frameOp (cfg := cfg) j y hy hl raw hk op' ha) hy
          exact hother j y' ts' hj hy' (hw'.trans hyw) raw (by simp)
        rcases act_op cfg y.hook raw y.who hk op' ha with ⟨m, rfl⟩ | ⟨b, m, rfl, -⟩ | ⟨v, l, tp, rfl | rfl, hv⟩
        · exact ⟨by simp, by simp⟩
        · exact ⟨by simp, by simp⟩
        · refine ⟨fun ts' e => ?_, by simp⟩
          cases e; exact hnot _ hv
        · refine ⟨by simp, fun ts' e => ?_⟩
          cases e; exact hnot _ hv
    | frameIdle j y hy hl raw hk ha =>
      by_cases hj : j = i
      · subst hj
        exact frame raw y hk _ rfl hy ha (fun o e => by cases e) (fun hn => rfl)
      · exact other (by simp [handledOn, hj]) (by simp)
    | frameFail j y hy hl raw hk ha =>
      by_cases hj : j = i
      · subst hj
        exact frame raw y hk _ rfl hy ha (fun o e => by cases e) (fun hn => rfl)
      · exact other (by simp [handledOn, hj]) (by simp)
    | register j y => exact other (by simp [handledOn]) (by cases y.who <;> simp [Who.add])
    | remove j y => exact other (by simp [handledOn]) (by cases y.who <;> simp [Who.del])
    | sendRemove d => exact other (by simp [handledOn]) (by cases d <;> simp [delDest])
    | _ => exact other (by simp [handledOn]) (by simp)

theorem run_split {cfg : Cfg B σ} {s s' : St B σ} {a b : List (Lab B)} {os : List (TOp B Nat)}
    (h : Run cfg s (a ++ b) os s') : ∃ o1 o2 s1, Run cfg s a o1 s1 ∧ Run cfg s1 b o2 s' := by
  generalize he : a ++ b = ls at h
  induction h generalizing b with
  | nil =>
    obtain ⟨rfl, rfl⟩ := List.append_eq_nil_iff.1 he
    exact ⟨_, _, _, .nil, .nil⟩
  | snoc ls os s1 l o s2 h hs ih =>
    rcases List.eq_nil_or_concat b with rfl | ⟨b', l', hb⟩
    · rw [List.append_nil] at he
      subst he
      exact ⟨_, _, _, h.then hs, .nil⟩
    · rw [List.concat_eq_append] at hb
      subst hb
      rw [← List.append_assoc] at he
      have h1 := List.append_inj_left' he rfl
      have h2 := List.append_inj_right' he rfl
      simp only [List.cons.injEq, and_true] at h2
      subst h2
      obtain ⟨o1, o2, s3, g1, g2⟩ := ih h1
      exact ⟨o1, _, s3, g1, g2.then hs⟩

theorem run_nil {cfg : Cfg B σ} {s s' : St B σ} {os : List (TOp B Nat)} (h : Run cfg s [] os s') : s' = s := by
  generalize he : ([] : List (Lab B)) = ls at h
  cases h with
  | nil => rfl
  | snoc ls os s1 l' o s2 h hs => simp at he

theorem run_single {cfg : Cfg B σ} {s s' : St B σ} {l : Lab B} {os : List (TOp B Nat)}
    (h : Run cfg s [l] os s') : ∃ o, Step cfg s l o s' := by
  generalize he : [l] = ls at h
  cases h with
  | nil => cases he
  | snoc ls os s1 l' o s2 h hs =>
    cases ls with
    | nil =>
      simp only [List.nil_append, List.cons.injEq, and_true] at he
      subst he
      rw [run_nil h] at hs
      exact ⟨_, hs⟩
    | cons a ls => simp at he

/-- A registered session was registered. -/
theorem register_mem {cfg : Cfg B σ} {id : B} {s : St B σ} {ls : List (Lab B)} {os : List (TOp B Nat)}
    (h : Run cfg (St.new id) ls os s) {i : Nat} (hr : WasRegistered s i) : Lab.register i ∈ ls := by
  have key : ∀ {ls os s}, Run cfg (St.new id) ls os s → i ∈ tokens os → Lab.register i ∈ ls := by
    intro ls os s h
    induction h with
    | nil => intro h; cases h
    | snoc ls os s1 l o s2 h hs ih =>
      rw [tokens_append, List.mem_append]
      rintro (h1 | h1)
      · exact List.mem_append_left _ (ih h1)
      · refine List.mem_append_right _ ?_
        cases hs with
        | register j x => cases hw : x.who <;> rw [hw] at h1 <;> simp [Who.add, tokens] at h1 <;> simp [h1]
        | frameOp j y hy hl raw hk op ha =>
          rcases act_op cfg y.hook raw y.who hk op ha with ⟨m, rfl⟩ | ⟨b, m, rfl, -⟩ | ⟨v, l, tp, rfl | rfl, hv⟩ <;>
            simp [tokens] at h1
        | remove j x => cases hw : x.who <;> rw [hw] at h1 <;> simp [Who.del, tokens] at h1
        | sendRemove d => cases d <;> simp [delDest, tokens] at h1
        | _ => simp [tokens] at h1
  exact key h (((inv_run h).reg i).2 hr)

end broker

section clientRuns
open Verif.Client Verif.Props.Client

/-- A client that has just connected. -/
theorem run_start (init : List Topic) : Run (St.new init)
    [.called 0 .recv, .returned 0 .recv false, .connecting 1, .authWith 1 (FSet.ofList init), .connected 1 0]
    (one init) := by
  have r := ((((((((((((((Run.nil (s := St.new init)).then (.call .recv)).then
    (.recvNew 0 rfl)).then (.read 0 .recv rfl (fun t ht => by
      simp only [St.goto, St.new] at ht ⊢; rw [show t = 0 by omega]; rfl))).then
    (.spawn 0 .recv rfl rfl rfl (fun t ht => by
      simp only [St.goto, St.new] at ht ⊢; rw [show t = 0 by omega]; rfl))).then
    (.store 0 .recv 1 rfl)).then (.rLock 1 rfl (fun t ht => by
      simp only [St.giveUp, St.goto, St.new] at ht ⊢
      rcases (by omega : t = 0 ∨ t = 1) with rfl | rfl <;> rfl) (fun t ht => by
      simp only [St.giveUp, St.goto, St.new] at ht ⊢
      rcases (by omega : t = 0 ∨ t = 1) with rfl | rfl <;> rfl))).then (.rConnect 1 rfl rfl)).then (.rMarshal 1 rfl)).then
    (.rSubs 1 rfl (fun t ht => by
      simp only [St.giveUp, St.goto, St.new] at ht ⊢
      rcases (by omega : t = 0 ∨ t = 1) with rfl | rfl <;> rfl))).then (.rAuthOk 1 rfl)).then (.rSet 1 0 rfl)).then
    (.rPermit 1 rfl)).then (.rDone 1 rfl))
  have e : ∀ {es es' : List Ev} {s s' : St}, Run (St.new init) es s → es = es' → s = s' →
      Run (St.new init) es' s' := by
    rintro es es' s s' h rfl rfl; exact h
  refine e r (by simp [St.giveUp, St.goto, St.new, Work.op]) ?_
  simp only [one, St.goto, St.giveUp, St.new]
  congr 1
  funext t
  rcases (by omega : t = 0 ∨ t = 1 ∨ 2 ≤ t) with rfl | rfl | h
  · rfl
  · rfl
  · simp [upd, show ¬ t < 2 by omega, show t ≠ 0 by omega, show t ≠ 1 by omega]

/-- It then subscribes to `t`. -/
theorem run_subscribe (init : List Topic) (t : Topic) (ht : t ∉ init) : ∃ s, Run (St.new init)
    [.called 0 .recv, .returned 0 .recv false, .connecting 1, .authWith 1 (FSet.ofList init), .connected 1 0,
     .called 2 (.topics true [t]), .sent 0 (.subscribe [t]), .returned 2 (.topics true [t]) true] s ∧
    s.conn = some 0 := by
  have h3 : ∀ n : Nat, n < 3 → n = 0 ∨ n = 1 ∨ n = 2 := by omega
  have r1 := (run_start init).then (.call (.topics true [t]))
  have hf : [t].filter (fun x => decide (x ∈ (one init).subs) != true) = [t] := by
    simp [one, ht]
  have r2 := r1.then (.lockSubs 2 true [t] rfl (fun n hn => by rcases h3 n hn with rfl | rfl | rfl <;> rfl)
    (fun n hn => by rcases h3 n hn with rfl | rfl | rfl <;> rfl))
  have r3 := ((r2.then (.read 2 (.topics true [t] ([t].filter (fun x => decide (x ∈ (one init).subs) != true))) rfl
    (fun n hn => by rcases h3 n hn with rfl | rfl | rfl <;> rfl))).then (.found 2 _ rfl 0 rfl (by simp))).then (.useOk 2 _ 0 rfl)
  refine ⟨_, _root_.Verif.Client.Run.cast' r3 ?_, rfl⟩
  rw [hf]
  simp [Work.message, Work.op, one]

end clientRuns

section both
open Verif.Broker Verif.Sessions Verif.Props.Sessions Verif.Props.Client Verif.Props.Connections

variable {B σ : Type} [DecidableEq B] [LT B] [DecidableLT B]

/-- The client's connection `c` is session `i` of the broker, for user `u`; the broker has handled everything
the client has sent on it (`cfg.decode` reads what was written), and lists the user on it. -/
structure Matched (cfg : Cfg B σ) (es : List Client.Ev) (s : Client.St) (c : Nat) (ls : List (Lab B)) (s' : St B σ)
    (i : Nat) (u : Bytes) : Prop where
  /-- the client uses connection `c` -/
  conn : s.conn = some c
  /-- the broker was given the client's topics and pruned them (user/handler.rs:47) -/
  auth : ∃ x ts topics, s'.sess[i]? = some x ∧ x.who = .user u topics ∧ AuthTopics es c ts ∧
    ∀ t, t ∈ topics ↔ t ∈ ts ∧ cfg.valid t = true
  /-- what was sent is what was handled -/
  handled : (handledOn i ls).map cfg.decode = (sentOn c es).map some
  /-- the user is connected -/
  listed : s'.table.getUserConnection u = some i

/-- The client and its broker agree on the subscriptions. -/
def InAgreement (cfg : Cfg B σ) (id : B) : Prop :=
  ∀ init es s c ls os s' i u, Client.Run (Client.St.new init) es s →
    (∀ t m, Client.Ev.called t (.send m) ∈ es → Plain m) →
    Run cfg (St.new id) ls os s' → Matched cfg es s c ls s' i u →
    ∀ t, SubscribedTo s' u t ↔ Asked init es t ∧ cfg.valid t = true

/-- **C87 is false**: a subscription sent right after connecting is erased by the registration (C52), and the
client and the broker disagree from then on, although the call of `subscribe` succeeded and everything that was
sent has been handled. -/
theorem C87_false (cfg : Cfg B σ) (id : B) (hook : σ) (raw : Bytes) (t : Topic) (h : AsksFor cfg hook raw t) :
    ¬ InAgreement cfg id := by
  intro hag
  obtain ⟨s, hr, hc⟩ := run_subscribe [] t (by simp)
  obtain ⟨s', hr', hl, hn⟩ := C52_false cfg id hook [] raw t h
  have hw : ∃ x, s'.sess[0]? = some x ∧ x.who = .user [] [] := by
    obtain ⟨o1, o2, s1, g1, g2⟩ := run_split (a := [Lab.connect (.user [] [])]) hr'
    obtain ⟨o, hs⟩ := run_single g1
    cases hs with
    | connect _ hook =>
      obtain ⟨y, hy, hyw, -⟩ := sess_run g2 (i := 0) (x := ⟨.user [] [], hook, .fresh, .none⟩) rfl
      exact ⟨y, hy, hyw⟩
  refine hn ((hag [] _ s 0 _ _ s' 0 [] hr (by simp) hr' ⟨hc, ?_, ?_, hl⟩ t).2 ⟨?_, h.2.1⟩)
  · obtain ⟨x, hx, hxw⟩ := hw
    refine ⟨x, FSet.ofList [], [], hx, hxw, ?_, by simp⟩
    exact ⟨[.called 0 .recv, .returned 0 .recv false, .connecting 1, .authWith 1 (FSet.ofList [])], 1, _, rfl,
      [.called 0 .recv, .returned 0 .recv false, .connecting 1], [], rfl, by simp⟩
  · simp [handledOn, sentOn, h.1]
  · exact Or.inl ⟨[.called 0 .recv, .returned 0 .recv false, .connecting 1, .authWith 1 (FSet.ofList []),
      .connected 1 0, .called 2 (.topics true [t]), .sent 0 (.subscribe [t])], 2, [t], [], rfl, by simp, by simp⟩

/-- **C87, what holds.** If the broker has handled nothing of the connection before registering it, and nothing
from other connections of the same user after that, then the client and the broker agree. -/
theorem C87_agree_partial (cfg : Cfg B σ) (hh : NoHook cfg) (id : B) (init : List Topic) (es : List Client.Ev)
    (s : Client.St) (c : Nat) (ls : List (Lab B)) (os : List (TOp B Nat)) (s' : St B σ) (i : Nat) (u : Bytes)
    (h : Client.Run (Client.St.new init) es s) (hraw : ∀ t m, Client.Ev.called t (.send m) ∈ es → Plain m)
    (h' : Run cfg (St.new id) ls os s') (hm : Matched cfg es s c ls s' i u)
    (hearly : ∀ l1 l2, ls = l1 ++ Lab.register i :: l2 → handledOn i l1 = [])
    (hother : ∀ l1 l2 j x ts, ls = l1 ++ Lab.register i :: l2 → j ≠ i → s'.sess[j]? = some x →
      x.who = .user u ts → handledOn j l2 = [])
    (t : Topic) : SubscribedTo s' u t ↔ Asked init es t ∧ cfg.valid t = true := by
  obtain ⟨ts, ha1, ha2⟩ := C87_client_accounts init h hraw c hm.conn
  obtain ⟨x, ts', topics, hx, hw, hts, htop⟩ := hm.auth
  have := (ha1 ts').1 hts
  subst this
  have hinv := inv_run h'
  have hreg : WasRegistered s' i := by
    rw [← hinv.reg]
    have := (C09_aborted_iff_replaced id os hinv.nodup).2.1 i
    exact this (by rw [← hinv.table]; exact Or.inl ⟨u, hm.listed⟩)
  obtain ⟨l1, l2, rfl⟩ := List.append_of_mem (register_mem h' hreg)
  have he := hearly l1 l2 rfl
  obtain ⟨o1, o2, s1, g1, g2⟩ := run_split h'
  rw [show Lab.register i :: l2 = [Lab.register i] ++ l2 from rfl] at g2
  obtain ⟨o3, o4, s2, g3, g4⟩ := run_split g2
  obtain ⟨o, hs⟩ := run_single g3
  have hg := g1.then hs
  have hinv1 := inv_run g1
  have hna : i ∉ s'.table.aborted := hinv.not_aborted (Or.inl ⟨u, hm.listed⟩)
  cases hs with
  | register _ y hy hsp =>
    have hyx : y.who = x.who := by
      obtain ⟨z, hz, hzw, -⟩ := sess_run ((Run.nil.then (Step.register (cfg := cfg) i y hy hsp)).trans g4) hy
      rw [hx] at hz; cases hz; exact hzw.symm
    rw [hw] at hyx
    have hlen := (List.getElem?_eq_some_iff.1 hy).1
    have hon : Conns.On (s1.table.step (y.who.add i)) u i (fun t => t ∈ ts' ∧ cfg.valid t = true) := by
      rw [hyx]
      have hidx := hinv1.index
      refine ⟨by simp [Conns.step, Who.add, Conns.addUser], fun t => ?_⟩
      simp only [Conns.step, Who.add, Conns.addUser, Conns.removeUser_bcUsers, RMap.bwd_associate]
      rw [RMap.bwd_removeKey hidx.1, ← htop t]
      simp
    have hms : (handledOn i l2).map cfg.decode = (sentOn c es).map some := by
      have := hm.handled
      rw [handledOn_append, he] at this
      simpa [handledOn] using this
    rcases broker_side hh hg g4 (i := i) (x := { y with h := .registered }) (ts0 := topics)
        (List.getElem?_set_self hlen) hyx hon
        (fun j z tz hj hz hzw raw hmem => by
          have := hother l1 l2 j z tz rfl hj hz hzw
          have h3 : raw ∈ handledOn j l2 := List.mem_filterMap.2 ⟨_, hmem, by simp⟩
          rw [this] at h3; cases h3) (sentOn c es) hms with h1 | h1
    · exact absurd h1 hna
    · rw [subscribedTo_iff, h1.2 t, ha2 t]

/-- The hypotheses of `C87_agree_partial` are met: a client created with topic 5 connects and subscribes to topic 7;
the broker registers the connection and handles the subscription. -/
example : ∃ es s ls os s', Client.Run (Client.St.new [5]) es s ∧
    (∀ t m, Client.Ev.called t (.send m) ∈ es → Plain m) ∧ Run toy (St.new 1) ls os s' ∧
    Matched toy es s 0 ls s' 0 [9] ∧ NoHook toy ∧
    (∀ l1 l2, ls = l1 ++ Lab.register 0 :: l2 → handledOn 0 l1 = []) ∧
    (∀ l1 l2 j x ts, ls = l1 ++ Lab.register 0 :: l2 → j ≠ 0 → s'.sess[j]? = some x →
      x.who = .user [9] ts → handledOn j l2 = []) ∧
    SubscribedTo s' [9] 5 ∧ SubscribedTo s' [9] 7 ∧ ¬ SubscribedTo s' [9] 6 := by
  obtain ⟨s, hr, hc⟩ := run_subscribe [5] 7 (by simp)
  have g1 : Run toy (St.new 1) [.connect (.user [9] [5]), .spawn 0, .register 0, .wake 0] [.addUser [9] 0 [5]]
      ⟨(Conns.new 1).step (.addUser [9] 0 [5]), [us [9] [5] () .registered .awake], []⟩ :=
    (run_first toy 1 () [9] [5]).then (.wake 0 (us [9] [5] () .registered .asleep) rfl rfl (by decide))
  have g2 : Run toy (St.new 1) [.connect (.user [9] [5]), .spawn 0, .register 0, .wake 0, .frame 0 [0, 7]]
      [.addUser [9] 0 [5], .subscribeUser [9] [7]]
      ⟨((Conns.new 1).step (.addUser [9] 0 [5])).step (.subscribeUser [9] [7]), [us [9] [5] () .registered .awake], []⟩ :=
    g1.then (.frameOp 0 (us [9] [5] () .registered .awake) rfl rfl [0, 7] () _ rfl)
  refine ⟨_, s, _, _, _, hr, by simp, g2, ⟨hc, ?_, rfl, by decide⟩, fun _ _ => rfl, ?_, ?_, ?_⟩
  · refine ⟨_, FSet.ofList [5], [5], rfl, rfl, ?_, fun t => ?_⟩
    · exact ⟨[.called 0 .recv, .returned 0 .recv false, .connecting 1, .authWith 1 (FSet.ofList [5])], 1, _, rfl,
        [.called 0 .recv, .returned 0 .recv false, .connecting 1], [], rfl, by simp⟩
    · simp only [List.mem_singleton, FSet.mem_ofList]
      exact ⟨fun h => ⟨h, by subst h; rfl⟩, fun h => h.1⟩
  · intro l1 l2 h
    rcases l1 with _ | ⟨a, _ | ⟨b, _ | ⟨c, _ | ⟨d, _ | ⟨e, l1⟩⟩⟩⟩⟩ <;> simp at h
    obtain ⟨rfl, rfl, -⟩ := h
    rfl
  · intro l1 l2 j x ts h hj hx
    cases j with
    | zero => exact absurd rfl hj
    | succ j => simp at hx
  · unfold SubscribedTo
    decide

end both
end Verif.Props.Agree

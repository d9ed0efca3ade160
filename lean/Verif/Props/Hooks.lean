import Verif.Props.SessionEnds

/-!
# Property C89: a message hook sees the messages of its connection, all of them, in order

Each receive loop has its own copy of the hook (user/handler.rs:100-102, broker/handler.rs:126-128). The theorems are about
all connections of a broker at once, in any interleaving (`Model/Sessions.lean`).
-/

set_option linter.unusedSectionVars false

namespace Verif.Props.Hooks
open Verif Verif.Broker Verif.Conns Verif.Sessions Verif.Props.SessionEnds Verif.Props.Broker

variable {B σ : Type} [DecidableEq B] [LT B] [DecidableLT B]

/-- The frames that were handled on connection `i`, in order. -/
def framesOf (i : Nat) (ls : List (Lab B)) : List Bytes :=
  ls.filterMap fun l => match l with | .frame j raw => if j = i then some raw else none | _ => none

/-- The messages in them: what decodes. -/
def messagesOf (cfg : Cfg B σ) (i : Nat) (ls : List (Lab B)) : List Msg :=
  (framesOf i ls).filterMap cfg.decode

/-- The hook for this kind of peer. -/
def hookFor (cfg : Cfg B σ) : Who B → σ → Msg → σ × Msg × HookRes
  | .user _ _ => cfg.userHook
  | .broker _ => cfg.brokerHook

/-- The state of a hook that was called on these messages, one after the other. -/
def calledOn (hook : σ → Msg → σ × Msg × HookRes) (h : σ) : List Msg → σ
  | [] => h
  | m :: ms => calledOn hook (hook h m).1 ms

theorem calledOn_append (hook : σ → Msg → σ × Msg × HookRes) (h : σ) (a b : List Msg) :
    calledOn hook h (a ++ b) = calledOn hook (calledOn hook h a) b := by
  induction a generalizing h with
  | nil => rfl
  | cons m ms ih => exact ih _

theorem act_hook (cfg : Cfg B σ) (h : σ) (raw : Bytes) (w : Who B) :
    (act cfg h raw w).1 = calledOn (hookFor cfg w) h ([raw].filterMap cfg.decode) := by
  cases w with
  | user key topics =>
    simp only [act, userAct, hookFor, List.filterMap_cons, List.filterMap_nil]
    cases cfg.decode raw with
    | none => rfl
    | some m =>
      dsimp only
      cases (cfg.userHook h m).2.2 with
      | process => dsimp only; cases (cfg.userHook h m).2.1 <;> rfl
      | _ => rfl
  | broker id =>
    simp only [act, brokerAct, hookFor, List.filterMap_cons, List.filterMap_nil]
    cases cfg.decode raw with
    | none => rfl
    | some m =>
      dsimp only
      cases (cfg.brokerHook h m).2.2 with
      | process =>
        dsimp only
        cases (cfg.brokerHook h m).2.1 with
        | userSync d => dsimp only; cases cfg.decUserSync d <;> rfl
        | topicSync d => dsimp only; cases cfg.decTopicSync d <;> rfl
        | _ => rfl
      | _ => rfl

theorem hook_set {s : St B σ} {i j : Nat} {x y x' : Sess B σ} (hx : s.sess[i]? = some x) (hy : s.sess[j]? = some y)
    (hw : x'.who = y.who) (hh : x'.hook = y.hook) :
    ∃ z, (s.sess.set j x')[i]? = some z ∧ z.who = x.who ∧ z.hook = x.hook := by
  by_cases e : j = i
  · subst e
    rw [hx] at hy; cases hy
    have : j < s.sess.length := (List.getElem?_eq_some_iff.1 hx).1
    exact ⟨x', by simp [this], hw, hh⟩
  · exact ⟨x, by rw [List.getElem?_set_ne e]; exact hx, rfl, rfl⟩

theorem frame_set {s : St B σ} {i j : Nat} {x y x' : Sess B σ} {raw : Bytes} {cfg : Cfg B σ} (hx : s.sess[i]? = some x)
    (hy : s.sess[j]? = some y) (hw : x'.who = y.who) (hh : x'.hook = (act cfg y.hook raw y.who).1) :
    ∃ z, (s.sess.set j x')[i]? = some z ∧ z.who = x.who ∧
      z.hook = calledOn (hookFor cfg x.who) x.hook (messagesOf cfg i [.frame j raw]) := by
  by_cases e : j = i
  · subst e
    rw [hx] at hy; cases hy
    have : j < s.sess.length := (List.getElem?_eq_some_iff.1 hx).1
    refine ⟨x', by simp [this], hw, ?_⟩
    rw [hh, act_hook]
    simp [messagesOf, framesOf]
  · refine ⟨x, by rw [List.getElem?_set_ne e]; exact hx, rfl, ?_⟩
    simp [messagesOf, framesOf, e, calledOn]

theorem hook_step {cfg : Cfg B σ} {s s' : St B σ} {l : Lab B} {os : List (TOp B Nat)} (h : Step cfg s l os s') {i : Nat}
    {x : Sess B σ} (hx : s.sess[i]? = some x) :
    ∃ x', s'.sess[i]? = some x' ∧ x'.who = x.who ∧
      x'.hook = calledOn (hookFor cfg x.who) x.hook (messagesOf cfg i [l]) := by
  cases h with
  | connect who hook =>
    have : i < s.sess.length := (List.getElem?_eq_some_iff.1 hx).1
    exact ⟨x, by rw [List.getElem?_append_left this]; exact hx, rfl, rfl⟩
  | spawn j y hy _ => exact hook_set hx hy rfl rfl
  | register j y hy _ => exact hook_set hx hy rfl rfl
  | wake j y hy _ _ => exact hook_set hx hy rfl rfl
  | sleep j y hy _ => exact hook_set hx hy rfl rfl
  | cancelled j y hy _ _ => exact hook_set hx hy rfl rfl
  | frameOp j y hy _ raw hk o ha => exact frame_set hx hy rfl (by rw [ha])
  | frameIdle j y hy _ raw hk ha => exact frame_set hx hy rfl (by rw [ha])
  | frameFail j y hy _ raw hk ha => exact frame_set hx hy rfl (by rw [ha])
  | recvErr j y hy _ => exact hook_set hx hy rfl rfl
  | remove j y hy _ => exact hook_set hx hy rfl rfl
  | sendErr => exact ⟨x, hx, rfl, rfl⟩
  | sendRemove => exact ⟨x, hx, rfl, rfl⟩
  | kick => exact ⟨x, hx, rfl, rfl⟩
  | userSync => exact ⟨x, hx, rfl, rfl⟩
  | topicSync => exact ⟨x, hx, rfl, rfl⟩

/-- **C89.** Between any two moments, the hook of a connection was called on exactly the messages that arrived on that
connection, each once and in order; what happens on other connections (also of the same user) does not reach it. -/
theorem C89_every_message (cfg : Cfg B σ) {s s' : St B σ} {ls : List (Lab B)} {os : List (TOp B Nat)}
    (h : Run cfg s ls os s') (i : Nat) (x : Sess B σ) (hx : s.sess[i]? = some x) :
    ∃ x', s'.sess[i]? = some x' ∧ x'.who = x.who ∧
      x'.hook = calledOn (hookFor cfg x.who) x.hook (messagesOf cfg i ls) := by
  induction h with
  | nil => exact ⟨x, hx, rfl, rfl⟩
  | snoc ls os s1 l o s2 _ hs ih =>
    obtain ⟨y, hy, hw, hh⟩ := ih
    obtain ⟨z, hz, hw', hh'⟩ := hook_step hs hy
    refine ⟨z, hz, hw'.trans hw, ?_⟩
    rw [hh', hw, hh, ← calledOn_append]
    simp [messagesOf, framesOf, List.filterMap_append]

/-- `failed` and `done` are for good. -/
theorem over_step {cfg : Cfg B σ} {s s' : St B σ} {l : Lab B} {os : List (TOp B Nat)} (h : Step cfg s l os s') {i : Nat}
    {x : Sess B σ} (hx : s.sess[i]? = some x) (hl : x.l = .failed ∨ x.l = .done) (hs : x.h ≠ .fresh) :
    framesOf i [l] = [] ∧ ∃ x', s'.sess[i]? = some x' ∧ (x'.l = .failed ∨ x'.l = .done) ∧ x'.h ≠ .fresh := by
  have hi : i < s.sess.length := (List.getElem?_eq_some_iff.1 hx).1
  have other : ∀ j (y : Sess B σ), s.sess[j]? = some y → (j = i → x = y → False) → ∀ z : Sess B σ,
      ∃ x', (s.sess.set j z)[i]? = some x' ∧ (x'.l = .failed ∨ x'.l = .done) ∧ x'.h ≠ .fresh := by
    intro j y hy hne z
    by_cases e : j = i
    · subst e; rw [hx] at hy; exact absurd (Option.some.inj hy) (hne rfl)
    · exact ⟨x, by rw [List.getElem?_set_ne e]; exact hx, hl, hs⟩
  have nofr : ∀ j raw (y : Sess B σ), s.sess[j]? = some y → (j = i → x = y → False) →
      framesOf i [(.frame j raw : Lab B)] = [] := by
    intro j raw y hy hne
    by_cases e : j = i
    · subst e; rw [hx] at hy; exact absurd (Option.some.inj hy) (hne rfl)
    · simp [framesOf, e]
  have awake : ∀ y : Sess B σ, y.l = .awake → x = y → False := by
    rintro y hy rfl; rw [hy] at hl; simp at hl
  have asleep : ∀ y : Sess B σ, y.l = .asleep → x = y → False := by
    rintro y hy rfl; rw [hy] at hl; simp at hl
  cases h with
  | connect who hook => exact ⟨rfl, x, by rw [List.getElem?_append_left hi]; exact hx, hl, hs⟩
  | spawn j y hy hf => exact ⟨rfl, other j y hy (fun _ e => hs (e ▸ hf)) _⟩
  | register j y hy hf =>
    refine ⟨rfl, ?_⟩
    by_cases e : j = i
    · subst e; rw [hx] at hy; cases hy
      exact ⟨{ x with h := .registered }, by simp [hi], hl, by simp⟩
    · exact ⟨x, by simp only; rw [List.getElem?_set_ne e]; exact hx, hl, hs⟩
  | wake j y hy ha _ => exact ⟨rfl, other j y hy (fun _ => asleep y ha) _⟩
  | sleep j y hy ha => exact ⟨rfl, other j y hy (fun _ => awake y ha) _⟩
  | cancelled j y hy ha _ => exact ⟨rfl, other j y hy (fun _ => asleep y ha) _⟩
  | frameOp j y hy ha raw hk o _ => exact ⟨nofr j raw y hy (fun _ => awake y ha), other j y hy (fun _ => awake y ha) _⟩
  | frameIdle j y hy ha raw hk _ => exact ⟨nofr j raw y hy (fun _ => awake y ha), other j y hy (fun _ => awake y ha) _⟩
  | frameFail j y hy ha raw hk _ => exact ⟨nofr j raw y hy (fun _ => awake y ha), other j y hy (fun _ => awake y ha) _⟩
  | recvErr j y hy ha => exact ⟨rfl, other j y hy (fun _ => awake y ha) _⟩
  | remove j y hy ha =>
    refine ⟨rfl, ?_⟩
    by_cases e : j = i
    · subst e; rw [hx] at hy; cases hy
      exact ⟨{ x with l := .done }, by simp [hi], .inr rfl, hs⟩
    · exact ⟨x, by simp only; rw [List.getElem?_set_ne e]; exact hx, hl, hs⟩
  | sendErr => exact ⟨rfl, x, hx, hl, hs⟩
  | sendRemove => exact ⟨rfl, x, hx, hl, hs⟩
  | kick => exact ⟨rfl, x, hx, hl, hs⟩
  | userSync => exact ⟨rfl, x, hx, hl, hs⟩
  | topicSync => exact ⟨rfl, x, hx, hl, hs⟩

theorem over_run {cfg : Cfg B σ} {s s' : St B σ} {ls : List (Lab B)} {os : List (TOp B Nat)} (h : Run cfg s ls os s') {i : Nat}
    {x : Sess B σ} (hx : s.sess[i]? = some x) (hl : x.l = .failed ∨ x.l = .done) (hs : x.h ≠ .fresh) :
    framesOf i ls = [] ∧ ∃ x', s'.sess[i]? = some x' ∧ (x'.l = .failed ∨ x'.l = .done) ∧ x'.h ≠ .fresh := by
  induction h with
  | nil => exact ⟨rfl, x, hx, hl, hs⟩
  | snoc ls os s1 l o s2 _ hst ih =>
    obtain ⟨h0, y, hy, hyl, hys⟩ := ih
    obtain ⟨h1, z⟩ := over_step hst hy hyl hys
    refine ⟨?_, z⟩
    have e : framesOf i (ls ++ [l]) = framesOf i ls ++ framesOf i [l] := by simp [framesOf, List.filterMap_append]
    rw [e, h0, h1]; rfl

/-- A session whose loop runs has been spawned. -/
theorem started_step {cfg : Cfg B σ} {s s' : St B σ} {l : Lab B} {os : List (TOp B Nat)} (h : Step cfg s l os s')
    (hi : ∀ x ∈ s.sess, x.h = .fresh → x.l = .none) : ∀ x ∈ s'.sess, x.h = .fresh → x.l = .none := by
  have set : ∀ (j : Nat) (z : Sess B σ), (z.h = .fresh → z.l = .none) → ∀ x ∈ s.sess.set j z, x.h = .fresh → x.l = .none := by
    intro j z hz x hx
    rcases List.mem_or_eq_of_mem_set hx with h | rfl
    · exact hi x h
    · exact hz
  have run : ∀ j (y : Sess B σ), s.sess[j]? = some y → y.l ≠ .none → y.h ≠ .fresh :=
    fun j y hy hne hf => hne (hi y (List.mem_of_getElem? hy) hf)
  cases h with
  | connect who hook =>
    intro x hx hf
    rcases List.mem_append.1 hx with h | h
    · exact hi x h hf
    · rw [List.mem_singleton] at h; subst h; rfl
  | spawn j y hy hf => exact set _ _ (fun h => by cases h)
  | register j y hy hf => exact set _ _ (fun h => by cases h)
  | wake j y hy ha _ => exact set _ _ (fun h => absurd h (run j y hy (by rw [ha]; simp)))
  | sleep j y hy ha => exact set _ _ (fun h => absurd h (run j y hy (by rw [ha]; simp)))
  | cancelled j y hy ha _ => exact set _ _ (fun h => absurd h (run j y hy (by rw [ha]; simp)))
  | frameOp j y hy ha raw hk o _ => exact set _ _ (fun h => absurd h (run j y hy (by rw [ha]; simp)))
  | frameIdle j y hy ha raw hk _ => exact set _ _ (fun h => absurd h (run j y hy (by rw [ha]; simp)))
  | frameFail j y hy ha raw hk _ => exact set _ _ (fun h => absurd h (run j y hy (by rw [ha]; simp)))
  | recvErr j y hy ha => exact set _ _ (fun h => absurd h (run j y hy (by rw [ha]; simp)))
  | remove j y hy ha => exact set _ _ (fun h => absurd h (run j y hy (by rw [ha]; simp)))
  | sendErr => exact hi
  | sendRemove => exact hi
  | kick => exact hi
  | userSync => exact hi
  | topicSync => exact hi

theorem started_run {id : B} {cfg : Cfg B σ} {s : St B σ} {ls : List (Lab B)} {os : List (TOp B Nat)}
    (h : Run cfg (St.new id) ls os s) : ∀ x ∈ s.sess, x.h = .fresh → x.l = .none := by
  induction h with
  | nil => intro x hx; cases hx
  | snoc ls os s1 l o s2 _ hs ih => exact started_step hs ih

/-- **C89.** Once the hook has returned an error (or the frame was not acceptable otherwise) nothing that arrives on the
connection reaches it or has an effect any more: no further frame of it is handled. -/
theorem C89_nothing_after_an_error (cfg : Cfg B σ) {id : B} {s s1 s' : St B σ} {l0 ls : List (Lab B)}
    {o0 o1 os : List (TOp B Nat)} (h0 : Run cfg (St.new id) l0 o0 s) (i : Nat) (raw : Bytes) (x : Sess B σ)
    (hx : s.sess[i]? = some x) (h1 : Step cfg s (.frame i raw) o1 s1) (hr : Refused cfg x.hook raw x.who)
    (h : Run cfg s1 ls os s') : framesOf i ls = [] ∧ o1 = [] ∧ s1.table = s.table := by
  obtain ⟨x1, hx1, hiff, hno⟩ := C70_loop_ends_iff cfg s s1 i raw o1 x hx h1
  have hf := hiff.2 hr
  have hst : x1.h ≠ .fresh := fun e => by
    have := started_run (h0.then h1) x1 (List.mem_of_getElem? hx1) e
    rw [hf] at this; cases this
  exact ⟨(over_run h hx1 (.inl hf) hst).1, (hno hf).2.1, (hno hf).1⟩

/-- **C89.** A message on which the hook answers "skip" changes nothing but the hook. -/
theorem C89_skipped (cfg : Cfg B σ) {s s' : St B σ} (i : Nat) (raw : Bytes) (os : List (TOp B Nat)) (x : Sess B σ) (m : Msg)
    (hx : s.sess[i]? = some x) (hm : cfg.decode raw = some m) (hk : (hookFor cfg x.who x.hook m).2.2 = .skip)
    (h : Step cfg s (.frame i raw) os s') :
    os = [] ∧ s' = { s with sess := s.sess.set i { x with hook := (hookFor cfg x.who x.hook m).1 } } := by
  have ha : act cfg x.hook raw x.who = ((hookFor cfg x.who x.hook m).1, .idle) := by
    cases hw : x.who with
    | user key topics => rw [hw] at hk; simp only [act, userAct, hookFor, hm] at hk ⊢; rw [hk]
    | broker b => rw [hw] at hk; simp only [act, brokerAct, hookFor, hm] at hk ⊢; rw [hk]
  cases h with
  | frameOp _ y hy _ _ hk' o ha' => rw [hx] at hy; cases hy; rw [ha] at ha'; cases ha'
  | frameIdle _ y hy _ _ hk' ha' => rw [hx] at hy; cases hy; rw [ha] at ha'; cases ha'; exact ⟨rfl, rfl⟩
  | frameFail _ y hy _ _ hk' ha' => rw [hx] at hy; cases hy; rw [ha] at ha'; cases ha'

/-- **C89.** The steps of a connection in the model of all connections are those of the receive loops of C15 to C17 (there
with forwarding, here without): the same hook state, the same calls, the same errors. -/
theorem C89_same_loop (cfg : Cfg B σ) (s : Table B Nat) (h : σ) (raw : Bytes) (sch : Sched B Nat) (w : Who B) :
    let o := match w with | .user u _ => userFrame cfg s h u raw sch | .broker b => brokerFrame cfg s h b raw sch
    o.hook = (act cfg h raw w).1 ∧ (o.ok = false ↔ (act cfg h raw w).2 = .fail) ∧
    (∀ op, (act cfg h raw w).2 = .op op → o.table = s.step op ∧ o.sent = []) := by
  cases w with
  | user u ts =>
    simp only [act, userAct, userFrame]
    cases cfg.decode raw with
    | none => simp
    | some m =>
      dsimp only
      cases (cfg.userHook h m).2.2 with
      | skip => simp
      | error => simp
      | process =>
        dsimp only
        cases (cfg.userHook h m).2.1 with
        | broadcast ts p => by_cases hp : (prune cfg.valid ts).2 = true <;> simp [hp]
        | subscribe ts => by_cases hp : (prune cfg.valid ts).2 = true <;> simp [hp, step]
        | unsubscribe ts => by_cases hp : (prune cfg.valid ts).2 = true <;> simp [hp, step]
        | _ => simp
  | broker b =>
    simp only [act, brokerAct, brokerFrame]
    cases cfg.decode raw with
    | none => simp
    | some m =>
      dsimp only
      cases (cfg.brokerHook h m).2.2 with
      | skip => simp
      | error => simp
      | process =>
        dsimp only
        cases (cfg.brokerHook h m).2.1 with
        | userSync d => cases hd : cfg.decUserSync d <;> simp [hd, step]
        | topicSync d => cases hd : cfg.decTopicSync d <;> simp [hd, step]
        | _ => simp

/-- A hook that lets the first two messages of a connection pass and refuses the third: the limit is per connection. -/
def limitCfg : Cfg Nat Nat where
  decode
    | [0, t] => some (.subscribe [t])
    | _ => none
  decUserSync _ := none
  decTopicSync _ := none
  valid := (· < 100)
  userHook n m := (n + 1, m, if n < 2 then .process else .error)
  brokerHook n m := (n, m, .process)

/-- A case of `C89_every_message` and `C89_nothing_after_an_error`: two connections; on the first one three messages arrive
and its loop ends; the hook of the second one has seen one message. -/
example : ∃ s s1 s2 : St Nat Nat,
    Run limitCfg (St.new 1) [.connect (.user [9] []), .connect (.user [8] []), .spawn 0, .spawn 1, .wake 0, .frame 0 [0, 5],
      .frame 0 [0, 6], .sleep 0, .wake 1] [.subscribeUser [9] [5], .subscribeUser [9] [6]] s ∧
    Run limitCfg s [.frame 1 [0, 7], .sleep 1, .wake 0] [.subscribeUser [8] [7]] s1 ∧
    Step limitCfg s1 (.frame 0 [0, 7]) [] s2 ∧
    s1.sess.map Sess.hook = [2, 1] ∧ Refused limitCfg 2 [0, 7] (.user [9] []) ∧
    s2.sess.map Sess.l = [.failed, .asleep] := by
  refine ⟨_, _, _, .snoc _ _ _ _ _ _ (.snoc _ _ _ _ _ _ (.snoc _ _ _ _ _ _ (.snoc _ _ _ _ _ _ (.snoc _ _ _ _ _ _
    (.snoc _ _ _ _ _ _ (.snoc _ _ _ _ _ _ (.snoc _ _ _ _ _ _ (.snoc _ _ _ _ _ _ .nil (.connect (.user [9] []) 0))
    (.connect (.user [8] []) 0)) (.spawn 0 _ rfl rfl)) (.spawn 1 _ rfl rfl)) (.wake 0 _ rfl rfl (by decide)))
    (.frameOp 0 _ rfl rfl [0, 5] _ _ rfl)) (.frameOp 0 _ rfl rfl [0, 6] _ _ rfl)) (.sleep 0 _ rfl rfl))
    (.wake 1 _ rfl rfl (by decide)),
    .snoc _ _ _ _ _ _ (.snoc _ _ _ _ _ _ (.snoc _ _ _ _ _ _ .nil (.frameOp 1 _ rfl rfl [0, 7] _ _ rfl)) (.sleep 1 _ rfl rfl))
      (.wake 0 _ rfl rfl (by decide)),
    .frameFail 0 _ rfl rfl [0, 7] _ rfl, rfl, .inl rfl, rfl⟩

end Verif.Props.Hooks

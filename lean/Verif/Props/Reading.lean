import Verif.Model.Reading
import Verif.Props.ClientLocks

/-!
# C108: what has arrived is read by the application
-/

namespace Verif.Props.Reading
open Verif Verif.Client Verif.Reading Verif.Props.Client Verif.Props.ClientLocks

variable {deser : Bytes → Option Msg} {s s' : RSt} {es : List REv}

/-- What arrived on connection `c`, in order. -/
def arrivedOn (c : Nat) (es : List REv) : List Bytes :=
  es.filterMap fun e => match e with | .arrived c' raw => if c' = c then some raw else none | _ => none

/-- What calls took from connection `c`, in order. -/
def takenOn (c : Nat) (es : List REv) : List Bytes :=
  es.filterMap fun e => match e with
    | .read _ c' raw _ => if c' = c then some raw else none
    | .refused _ c' raw => if c' = c then some raw else none
    | _ => none

/-- What the client itself did. -/
def ofClient (es : List REv) : List Ev := es.filterMap fun e => match e with | .client e => some e | _ => none

theorem ofClient_map (es : List Ev) : ofClient (es.map .client) = es := by
  induction es with
  | nil => rfl
  | cons e es ih => exact congrArg (e :: ·) ih

theorem arrivedOn_map (c : Nat) (es : List Ev) : arrivedOn c (es.map .client) = [] := by
  induction es with
  | nil => rfl
  | cons e es ih => exact ih

theorem takenOn_map (c : Nat) (es : List Ev) : takenOn c (es.map .client) = [] := by
  induction es with
  | nil => rfl
  | cons e es ih => exact ih

theorem arrivedOn_append (c : Nat) (es es' : List REv) : arrivedOn c (es ++ es') = arrivedOn c es ++ arrivedOn c es' :=
  List.filterMap_append
theorem takenOn_append (c : Nat) (es es' : List REv) : takenOn c (es ++ es') = takenOn c es ++ takenOn c es' :=
  List.filterMap_append
theorem ofClient_append (es es' : List REv) : ofClient (es ++ es') = ofClient es ++ ofClient es' := List.filterMap_append

/-- A step is none or one step of the client. -/
theorem client_step (h : RStep deser s es s') : (s'.cl = s.cl ∧ ofClient es = []) ∨ Step s.cl (ofClient es) s'.cl := by
  cases h with
  | other es cl h hr => rw [ofClient_map]; exact .inr h
  | arrive => exact .inl ⟨rfl, rfl⟩
  | finish => exact .inl ⟨rfl, rfl⟩
  | recvOk t c raw q m h hq hm => exact .inr (.useOk t .recv c h)
  | recvBad t c raw q h hq hm => exact .inr (.useErr t .recv c h)
  | recvEnd t c h hq he => exact .inr (.useErr t .recv c h)

/-- What the client does is a run of the client: all that was shown of the client holds here. -/
theorem client_run {s0 : RSt} (h : RRun deser s0 es s) : Run s0.cl (ofClient es) s.cl := by
  induction h with
  | nil => exact .nil
  | snoc es s1 es' s2 h hs ih =>
    rw [ofClient_append]
    rcases client_step hs with ⟨h1, h2⟩ | h1
    · rw [h1, h2, List.append_nil]; exact ih
    · exact .snoc _ _ _ _ ih h1

theorem queue_step (h : RStep deser s es s') (c : Nat) :
    s.chan c ++ arrivedOn c es = takenOn c es ++ s'.chan c := by
  cases h with
  | other es cl h hr => rw [arrivedOn_map, takenOn_map]; exact List.append_nil _
  | arrive c' raw hc he =>
    by_cases e : c' = c
    · subst e; simp [arrivedOn, takenOn, upd]
    · simp [arrivedOn, takenOn, upd, e, Ne.symm e]
  | finish => exact List.append_nil _
  | recvOk t c' raw q m h hq hm =>
    by_cases e : c' = c
    · subst e; simp [arrivedOn, takenOn, upd, hq]
    · simp [arrivedOn, takenOn, upd, e, Ne.symm e]
  | recvBad t c' raw q h hq hm =>
    by_cases e : c' = c
    · subst e; simp [arrivedOn, takenOn, upd, hq]
    · simp [arrivedOn, takenOn, upd, e, Ne.symm e]
  | recvEnd => exact List.append_nil _

theorem queue_run (init : List Topic) (h : RRun deser (.new init) es s) (c : Nat) :
    arrivedOn c es = takenOn c es ++ s.chan c := by
  induction h with
  | nil => rfl
  | snoc es s1 es' s2 h hs ih =>
    rw [arrivedOn_append, takenOn_append, ih, List.append_assoc, List.append_assoc, queue_step hs c]

/-- **C108, in order and once.** Whatever tasks call, give up or lose: what was taken from a connection is a first
part of what arrived on it, in order, nothing twice, nothing left out; and what a call returned is what the frame
it took means. -/
theorem C108_in_order_partial (init : List Topic) (h : RRun deser (.new init) es s) (c : Nat) :
    takenOn c es <+: arrivedOn c es ∧ ∀ t raw m, REv.read t c raw m ∈ es → deser raw = some m := by
  refine ⟨⟨_, (queue_run init h c).symm⟩, ?_⟩
  induction h with
  | nil => intro t raw m h; cases h
  | snoc es s1 es' s2 h hs ih =>
    intro t raw m hm
    rcases List.mem_append.1 hm with hm | hm
    · exact ih t raw m hm
    · cases hs with
      | other es cl h hr => obtain ⟨e, -, h⟩ := List.mem_map.1 hm; cases h
      | arrive => simp at hm
      | finish => simp at hm
      | recvOk t' c' raw' q m' h hq hd =>
        simp only [List.mem_cons, List.not_mem_nil, or_false, reduceCtorEq, false_or, REv.read.injEq] at hm
        obtain ⟨-, -, rfl, rfl⟩ := hm
        exact hd
      | recvBad => simp at hm
      | recvEnd => simp at hm

/-- Messages returned to the call of task `t`. -/
def readBy (t : Nat) (es : List REv) : List Msg :=
  es.filterMap fun e => match e with | .read t' _ _ m => if t' = t then some m else none | _ => none

/-- How often the call of task `t`, a call of `receive_message`, returned `Ok`. -/
def returnsOk (t : Nat) (es : List REv) : Nat :=
  es.countP fun e => match e with | .client (.returned t' .recv true) => t' == t | _ => false

theorem readBy_map (t : Nat) (es : List Ev) : readBy t (es.map .client) = [] := by
  induction es with
  | nil => rfl
  | cons e es ih => exact ih

theorem returnsOk_none (t : Nat) (es : List Ev) (h : ∀ t, Ev.returned t .recv true ∉ es) :
    returnsOk t (es.map .client) = 0 := by
  refine List.countP_eq_zero.2 fun e he => ?_
  obtain ⟨e, hm, rfl⟩ := List.mem_map.1 he
  cases e with
  | returned t' op ok =>
    cases op <;> cases ok <;> simp
    exact absurd hm (h t')
  | _ => simp

/-- Only receiving from a connection makes a call of `receive_message` return `Ok`. -/
theorem ok_using {s s' : St} {es : List Ev} (h : Step s es s') (t : Nat) (he : Ev.returned t .recv true ∈ es) :
    (∃ c, s.pc t = .using .recv c) ∧ s'.pc t = .done := by
  have hg : ∀ u w, Ev.returned t .recv true ∉ (s.giveUp u w).2 := by
    intro u w hm
    cases w <;> simp [St.giveUp] at hm
  cases h with
  | noRead u w h1 h2 v h3 h4 => exact absurd he (hg _ _)
  | noSpawn u w h1 h2 h3 => exact absurd he (hg _ _)
  | store u w r h1 => exact absurd he (hg _ _)
  | useOk u w c h1 =>
    rcases List.mem_append.1 he with he | he
    · obtain ⟨m, -, h⟩ := List.mem_map.1 he; cases h
    · simp only [List.mem_cons, List.not_mem_nil, or_false, Ev.returned.injEq] at he
      obtain ⟨rfl, h2, -⟩ := he
      cases w <;> simp [Work.op] at h2
      exact ⟨⟨c, h1⟩, upd_self _ _ _⟩
  | take u w h1 =>
    rcases List.mem_append.1 he with he | he
    · obtain ⟨m, -, h⟩ := List.mem_map.1 he; cases h
    · simp at he
  | closeTake u h1 =>
    rcases List.mem_append.1 he with he | he
    · obtain ⟨m, -, h⟩ := List.mem_map.1 he; cases h
    · simp at he
  | _ => simp at he

theorem no_ok {s s' : St} {es : List Ev} (h : Step s es s')
    (hr : ∀ t c, s.pc t = .using .recv c → s'.pc t = .using .recv c ∨ (s'.pc t = .done ∧ es = [])) (t : Nat) :
    Ev.returned t .recv true ∉ es := by
  intro he
  obtain ⟨⟨c, h1⟩, h2⟩ := ok_using h t he
  rcases hr t c h1 with h3 | h3
  · rw [h2] at h3; cases h3
  · rw [h3.2] at he; cases he

theorem readBy_append (t : Nat) (es es' : List REv) : readBy t (es ++ es') = readBy t es ++ readBy t es' :=
  List.filterMap_append
theorem returnsOk_append (t : Nat) (es es' : List REv) : returnsOk t (es ++ es') = returnsOk t es + returnsOk t es' :=
  List.countP_append

theorem ok_step (h : RStep deser s es s') (t : Nat) : (readBy t es).length = returnsOk t es ∧
    (returnsOk t es = 0 ∨ (returnsOk t es = 1 ∧ s.cl.pc t ≠ .done ∧ s'.cl.pc t = .done)) := by
  cases h with
  | other es cl h hr =>
    rw [readBy_map, returnsOk_none t es (no_ok h hr)]
    exact ⟨rfl, .inl rfl⟩
  | arrive => exact ⟨rfl, .inl rfl⟩
  | finish => exact ⟨rfl, .inl rfl⟩
  | recvOk t' c raw q m h hq hm =>
    by_cases e : t' = t
    · subst e
      refine ⟨by simp [readBy, returnsOk], .inr ⟨by simp [returnsOk], (by rw [h]; intro h; cases h), upd_self _ _ _⟩⟩
    · exact ⟨by simp [readBy, returnsOk, e], .inl (by simp [returnsOk, e])⟩
  | recvBad => exact ⟨rfl, .inl rfl⟩
  | recvEnd => exact ⟨rfl, .inl rfl⟩

theorem cl_inv (init : List Topic) (h : RRun deser (.new init) es s) : s.cl.Inv := reach_inv (client_run h)

/-- **C108, one message per call.** A call of `receive_message` that returns `Ok` returns one message, one that
returns an error or is given up returns none; so no message is lost in a call that was given up. -/
theorem C108_one_each_partial (init : List Topic) (h : RRun deser (.new init) es s) (t : Nat) :
    (readBy t es).length = returnsOk t es ∧ returnsOk t es ≤ 1 := by
  suffices h : (readBy t es).length = returnsOk t es ∧ returnsOk t es ≤ 1 ∧ (returnsOk t es = 1 → s.cl.pc t = .done) from
    ⟨h.1, h.2.1⟩
  induction h with
  | nil => exact ⟨rfl, Nat.zero_le _, fun h => by cases h⟩
  | snoc es s1 es' s2 h hs ih =>
    obtain ⟨i1, i2, i3⟩ := ih
    obtain ⟨h1, h2⟩ := ok_step hs t
    rw [readBy_append, returnsOk_append, List.length_append, i1, h1]
    refine ⟨rfl, ?_⟩
    rcases h2 with h2 | ⟨h2, h3, h4⟩
    · rw [h2]
      refine ⟨i2, fun e => ?_⟩
      rcases client_step hs with ⟨h5, -⟩ | h5
      · rw [h5]; exact i3 e
      · exact done_step (cl_inv init h) h5 (i3 e)
    · have : returnsOk t es ≠ 1 := fun e => h3 (i3 e)
      exact ⟨by omega, fun _ => h4⟩

theorem ended_step (h : RStep deser s es s') (c : Nat) (he : s.ended c = true) :
    s'.ended c = true ∧ arrivedOn c es = [] := by
  cases h with
  | other es cl h hr => exact ⟨he, arrivedOn_map c es⟩
  | arrive c' raw hc h1 =>
    have : c' ≠ c := by rintro rfl; rw [h1] at he; cases he
    exact ⟨he, by simp [arrivedOn, this]⟩
  | finish c' hc =>
    refine ⟨?_, rfl⟩
    show upd s.ended c' true c = true
    unfold upd; split
    · rfl
    · exact he
  | recvOk => exact ⟨he, rfl⟩
  | recvBad => exact ⟨he, rfl⟩
  | recvEnd => exact ⟨he, rfl⟩

/-- **C108, the end comes last.** A call is told that a connection has ended only when everything that arrived on
it has been taken; and nothing arrives on it afterwards. -/
theorem C108_end_last_partial (init : List Topic) (h : RRun deser (.new init) es s) {pre post : List REv} {t c : Nat}
    (he : es = pre ++ .sawEnd t c :: post) : takenOn c pre = arrivedOn c pre ∧ arrivedOn c post = [] := by
  suffices h : ∀ pre post, es = pre ++ .sawEnd t c :: post →
      takenOn c pre = arrivedOn c pre ∧ arrivedOn c post = [] ∧ s.ended c = true from
    ⟨(h pre post he).1, (h pre post he).2.1⟩
  clear he
  induction h with
  | nil => intro pre post he; simp at he
  | snoc es s1 es' s2 h hs ih =>
    intro pre post he
    rcases List.append_eq_append_iff.1 he with ⟨l, h2, h3⟩ | ⟨l, h2, h3⟩
    · have hm : REv.sawEnd t c ∈ es' := by rw [h3]; simp
      cases hs with
      | other es cl h hr => obtain ⟨e, -, h⟩ := List.mem_map.1 hm; cases h
      | arrive => simp at hm
      | finish => simp at hm
      | recvOk => simp at hm
      | recvBad => simp at hm
      | recvEnd t' c' hu hq hd =>
        simp only [List.mem_cons, List.not_mem_nil, or_false, REv.sawEnd.injEq] at hm
        obtain ⟨rfl, rfl⟩ := hm
        cases l with
        | cons a l => simp at h3
        | nil =>
          simp only [List.nil_append, List.cons.injEq, true_and] at h3
          rw [List.append_nil] at h2
          subst h2 h3
          have := queue_run init h c
          rw [hq, List.append_nil] at this
          exact ⟨this.symm, rfl, hd⟩
    · cases l with
      | nil =>
        simp only [List.nil_append] at h3
        have hm : REv.sawEnd t c ∈ es' := by rw [← h3]; simp
        cases hs with
        | other es cl h hr => obtain ⟨e, -, h⟩ := List.mem_map.1 hm; cases h
        | arrive => simp at hm
        | finish => simp at hm
        | recvOk => simp at hm
        | recvBad => simp at hm
        | recvEnd t' c' hu hq hd =>
          simp only [List.cons.injEq, REv.sawEnd.injEq] at h3
          obtain ⟨⟨rfl, rfl⟩, rfl⟩ := h3
          rw [List.append_nil] at h2
          subst h2
          have := queue_run init h c
          rw [hq, List.append_nil] at this
          exact ⟨this.symm, rfl, hd⟩
      | cons a l =>
        simp only [List.cons_append, List.cons.injEq] at h3
        obtain ⟨rfl, rfl⟩ := h3
        obtain ⟨i1, i2, i3⟩ := ih pre l h2
        obtain ⟨j1, j2⟩ := ended_step hs c i3
        exact ⟨i1, by rw [arrivedOn_append, i2, j2]; rfl, j1⟩

/-- **C108, why receiving fails.** A call that is receiving on a connection, and neither returns a message nor is
given up, took something that is not a message or found the connection ended. -/
theorem C108_failures_partial (hs : RStep deser s es s') {t c : Nat} (hu : s.cl.pc t = .using .recv c)
    (hn : s'.cl.pc t ≠ .using .recv c) (hd : s'.cl.pc t ≠ .done) :
    (∃ raw, REv.refused t c raw ∈ es ∧ deser raw = none) ∨ REv.sawEnd t c ∈ es := by
  have hne : ∀ {t' : Nat} {p : PC}, (s.cl.goto t' p).pc t ≠ .using .recv c → t' = t := by
    intro t' p h
    by_cases e : t = t'
    · exact e.symm
    · exact absurd (by show upd s.cl.pc t' p t = _; rw [upd_ne _ _ e, hu]) h
  cases hs with
  | other es cl h hr => exact (hr t c hu).elim (fun h => absurd h hn) (fun h => absurd h.1 hd)
  | arrive => exact absurd hu hn
  | finish => exact absurd hu hn
  | recvOk t' c' raw q m h hq hm =>
    obtain rfl := hne hn
    exact absurd (upd_self _ _ _) hd
  | recvBad t' c' raw q h hq hm =>
    obtain rfl := hne hn
    rw [hu] at h
    cases h
    exact .inl ⟨raw, by simp, hm⟩
  | recvEnd t' c' h hq he =>
    obtain rfl := hne hn
    rw [hu] at h
    cases h
    exact .inr (by simp)

/-- The client has dropped connection `c`, and no call is using it. -/
structure Gone (s : St) (c : Nat) : Prop where
  made : c < s.conns
  conn : s.conn ≠ some c
  using_ : ∀ t w, s.pc t ≠ .using w c
  got : ∀ t, s.pc t ≠ .rGot c

theorem conns_step {s s' : St} {es : List Ev} (h : Step s es s') : s.conns ≤ s'.conns := by
  have hg : ∀ t w, (s.giveUp t w).1.conns = s.conns := by intro t w; cases w <;> rfl
  cases h with
  | noRead t w => exact Nat.le_of_eq (hg t w).symm
  | noSpawn t w => exact Nat.le_of_eq (hg t w).symm
  | store t w => exact Nat.le_of_eq (hg t w).symm
  | rAuthOk => exact Nat.le_succ _
  | _ => exact Nat.le_refl _

theorem gone_step {s s' : St} {es : List Ev} {c : Nat} (hi : s.Inv) (hg : Gone s c) (h : Step s es s') : Gone s' c := by
  refine ⟨Nat.lt_of_lt_of_le hg.made (conns_step h), ?_, ?_, ?_⟩
  · intro hc
    rcases conn_step h with h1 | h1 | ⟨t, c', h1, h2⟩
    · rw [h1] at hc; exact hg.conn hc
    · rw [h1] at hc; cases hc
    · rw [h2] at hc; cases hc; exact hg.got t h1
  · intro t w hu
    rcases pc_step hi h t with h1 | h1
    · rw [h1] at hu; exact hg.using_ t w hu
    · rw [hu] at h1
      generalize hp : s.pc t = p at h1
      cases h1 with
      | found w c hc he => exact hg.conn hc
  · intro t hu
    rcases pc_step hi h t with h1 | h1
    · rw [h1] at hu; exact hg.got t hu
    · rw [hu] at h1
      generalize hp : s.pc t = p at h1
      cases h1 with
      | rAuthOk he => exact Nat.lt_irrefl _ hg.made

theorem gone_run {c : Nat} {s0 : RSt} (hi : s0.cl.Inv) (hg : Gone s0.cl c) (h : RRun deser s0 es s) :
    Gone s.cl c ∧ ∀ t raw m, REv.read t c raw m ∉ es := by
  induction h with
  | nil => exact ⟨hg, fun _ _ _ h => by cases h⟩
  | snoc es s1 es' s2 h hs ih =>
    have hi1 : s1.cl.Inv := Client.inv_run hi (client_run h)
    refine ⟨?_, ?_⟩
    · rcases client_step hs with ⟨h1, -⟩ | h1
      · rw [h1]; exact ih.1
      · exact gone_step hi1 ih.1 h1
    · intro t raw m hm
      rcases List.mem_append.1 hm with hm | hm
      · exact ih.2 t raw m hm
      · cases hs with
        | other es cl h hr => obtain ⟨e, -, h⟩ := List.mem_map.1 hm; cases h
        | arrive => simp at hm
        | finish => simp at hm
        | recvOk t' c' raw' q m' h hq hd =>
          simp only [List.mem_cons, List.not_mem_nil, or_false, reduceCtorEq, false_or, REv.read.injEq] at hm
          obtain ⟨rfl, rfl, rfl, rfl⟩ := hm
          exact ih.1.using_ _ _ h
        | recvBad => simp at hm
        | recvEnd => simp at hm

theorem kept_step {s s' : St} {es : List Ev} {c : Nat} (hi : s.Inv) (hc : s.conn = some c) (h : Step s es s')
    (hd : ∀ u, Ev.dropped u c ∉ es) : s'.conn = some c := by
  have hg : ∀ t w, (s.giveUp t w).1.conn = some c := by intro t w; cases w <;> exact hc
  cases h with
  | noRead t w => exact hg t w
  | noSpawn t w => exact hg t w
  | store t w => exact hg t w
  | take t w h1 => exact absurd (by rw [hc]; simp) (hd t)
  | closeTake t h1 => exact absurd (by rw [hc]; simp) (hd t)
  | rSet t c' h1 =>
    have := hi.none t (by rw [h1]; rfl)
    rw [hc] at this; cases this
  | _ => exact hc

theorem kept_run {s s0 : St} {es : List Ev} {c : Nat} (hi : s0.Inv) (hc : s0.conn = some c) (h : Run s0 es s)
    (hd : ∀ u, Ev.dropped u c ∉ es) : s.conn = some c := by
  induction h with
  | nil => exact hc
  | snoc es s1 es' s2 h hs ih =>
    exact kept_step (Client.inv_run hi h) (ih fun u hm => hd u (List.mem_append_left _ hm)) hs
      fun u hm => hd u (List.mem_append_right _ hm)

theorem RRun.append {s0 s1 s2 : RSt} {es es' : List REv} (h : RRun deser s0 es s1) (h' : RRun deser s1 es' s2) :
    RRun deser s0 (es ++ es') s2 := by
  induction h' with
  | nil => rw [List.append_nil]; exact h
  | snoc es1 s3 es2 s4 _ hs ih => rw [← List.append_assoc]; exact .snoc _ _ _ _ ih hs

/-- A task that does not exist yet, or has ended, is not receiving; a step that moves another task leaves receiving
calls alone. -/
theorem other_step {cl : St} {es : List Ev} {t : Nat} {p : PC} (hs : Step s.cl es cl) (hp : cl.pc = upd s.cl.pc t p)
    (hu : ∀ c, s.cl.pc t ≠ .using .recv c) : RStep deser s (es.map .client) { s with cl := cl } := by
  refine .other es cl hs fun u c h => .inl ?_
  by_cases e : u = t
  · subst e; exact absurd h (hu c)
  · rw [hp, upd_ne _ _ e]; exact h

theorem goto_free {s : St} {P : PC → Bool} {t : Nat} {p : PC} (h : s.Free P) (hp : P p = false) :
    (s.goto t p).Free P := by
  intro u hu
  show P (upd s.pc t p u) = false
  by_cases e : u = t
  · subst e; rw [upd_self]; exact hp
  · rw [upd_ne _ _ e]; exact h u hu

theorem goto_step {es : List Ev} {t : Nat} {p p' : PC} (h : s.cl.pc t = p) (hp : ∀ c, p ≠ .using .recv c)
    (hs : Step s.cl es (s.cl.goto t p')) : RStep deser s (es.map .client) { s with cl := s.cl.goto t p' } :=
  other_step hs rfl fun c e => hp c (h.symm.trans e)

/-- A call of `receive_message` on a client with a connection returns the first thing that is there. -/
theorem can_read {t c : Nat} (h : s.cl.pc t = .new .recv) (hc : s.cl.conn = some c) (hW : s.cl.Free PC.holdsW)
    {raw : Bytes} {q : List Bytes} {m : Msg} (hq : s.chan c = raw :: q) (hm : deser raw = some m) :
    ∃ s', RRun deser s [.client (.returned t .recv true), .read t c raw m] s' := by
  have a1 := goto_step (deser := deser) h (fun c e => by cases e) (.recvNew t h)
  have a2 := goto_step (deser := deser) (s := { s with cl := s.cl.goto t (.ready .recv) }) (upd_self _ _ _)
    (fun c e => by cases e) (.read t .recv (upd_self _ _ _) (goto_free hW rfl))
  have a3 := goto_step (deser := deser) (s := { s with cl := (s.cl.goto t (.ready .recv)).goto t (.reading .recv) })
    (upd_self _ _ _) (fun c e => by cases e) (.found t .recv (upd_self _ _ _) c hc (by decide))
  have a4 := RStep.recvOk (deser := deser)
    (s := { s with cl := ((s.cl.goto t (.ready .recv)).goto t (.reading .recv)).goto t (.using .recv c) })
    t c raw q m (upd_self _ _ _) hq hm
  exact ⟨_, .snoc _ _ _ _ (.snoc _ _ _ _ (.snoc _ _ _ _ (.snoc _ _ _ _ .nil a1) a2) a3) a4⟩

/-- **C108, what is there can be read.** As long as the client has not dropped a connection, a call of
`receive_message` made when nobody has the connection locked can return the oldest message that has arrived on it
and was not read. -/
theorem C108_kept_partial (init : List Topic) {es1 es2 : List REv} {s1 s2 : RSt} (h1 : RRun deser (.new init) es1 s1)
    {c : Nat} (hc : s1.cl.conn = some c) (h2 : RRun deser s1 es2 s2) (hd : ∀ u, REv.client (.dropped u c) ∉ es2)
    (hW : s2.cl.Free PC.holdsW) {raw : Bytes} {q : List Bytes} {m : Msg}
    (hq : arrivedOn c (es1 ++ es2) = takenOn c (es1 ++ es2) ++ raw :: q) (hm : deser raw = some m) :
    ∃ t s3, RRun deser s2 [.client (.called t .recv), .client (.returned t .recv true), .read t c raw m] s3 := by
  have hi1 := cl_inv init h1
  have h12 := RRun.append h1 h2
  have hi2 := cl_inv init h12
  have hc2 : s2.cl.conn = some c := by
    refine kept_run hi1 hc (client_run h2) fun u hm => hd u ?_
    obtain ⟨e, h3, h4⟩ := List.mem_filterMap.1 hm
    cases e with
    | client e => cases h4; exact h3
    | _ => cases h4
  have hch : s2.chan c = raw :: q := by
    have := queue_run init h12 c
    rw [hq] at this
    exact (List.append_cancel_left this).symm
  have hidle : s2.cl.pc s2.cl.n = .idle := hi2.idle _ (Nat.le_refl _)
  have a1 : RStep deser s2 _ _ := other_step (s := s2) (t := s2.cl.n) (.call .recv) rfl (fun c h => by rw [hidle] at h; cases h)
  obtain ⟨s3, r⟩ := can_read (deser := deser)
    (s := { s2 with cl := { s2.cl with pc := upd s2.cl.pc s2.cl.n (.new .recv), n := s2.cl.n + 1 } }) (t := s2.cl.n) (c := c) (m := m) (upd_self s2.cl.pc s2.cl.n (.new .recv)) hc2 (by
    intro u hu
    show PC.holdsW (upd s2.cl.pc s2.cl.n (.new .recv) u) = false
    by_cases e : u = s2.cl.n
    · subst e; rw [upd_self]; rfl
    · rw [upd_ne _ _ e]; exact hW u (by dsimp only at hu; omega)) hch hm
  exact ⟨_, s3, RRun.append (.snoc _ _ _ _ .nil a1) r⟩

/-! ### What has arrived may be lost -/

/-- The task is a call of `receive_message` under way. -/
def receiving : PC → Bool
  | .new .recv | .ready .recv | .reading .recv | .spawned .recv _ | .using .recv _ => true
  | _ => false

theorem receiving_step {s s' : St} {es : List Ev} (hi : s.Inv) (h : Step s es s') (hn : ∀ t, receiving (s.pc t) = false)
    (hc : ∀ t, Ev.called t .recv ∉ es) (t : Nat) : receiving (s'.pc t) = false := by
  rcases pc_step hi h t with h1 | h1
  · rw [h1]; exact hn t
  · have h0 := hn t
    generalize s.pc t = p at h0 h1
    generalize s'.pc t = p' at h1
    cases h1 with
    | call op h2 h3 => cases op <;> first | rfl | exact absurd h3 (hc t)
    | read w | found w | spawn w => cases w <;> first | rfl | cases h0
    | recvNew => cases h0
    | _ => rfl

/-- A run of the client without `receive_message` is a run here. -/
theorem lift_run {s s0 : St} {es : List Ev} (hi : s0.Inv) (h : Run s0 es s) (hn : ∀ t, receiving (s0.pc t) = false)
    (hc : ∀ t, Ev.called t .recv ∉ es) (ch : Nat → List Bytes) (en : Nat → Bool) :
    RRun deser ⟨s0, ch, en⟩ (es.map .client) ⟨s, ch, en⟩ ∧ ∀ t, receiving (s.pc t) = false := by
  induction h with
  | nil => exact ⟨.nil, hn⟩
  | snoc es s1 es' s2 h hs ih =>
    obtain ⟨i1, i2⟩ := ih fun t hm => hc t (List.mem_append_left _ hm)
    refine ⟨?_, receiving_step (Client.inv_run hi h) hs i2 fun t hm => hc t (List.mem_append_right _ hm)⟩
    rw [List.map_append]
    refine .snoc _ _ _ _ i1 (.other (s := ⟨s1, ch, en⟩) es' s2 hs fun t c hu => ?_)
    have := i2 t
    rw [hu] at this; cases this

theorem gone_of {s : St} {c : Nat} (h : ∀ t, s.pc t = .done ∨ s.pc t = .idle) (hc : s.conn = none) (hn : c < s.conns) :
    Gone s c :=
  ⟨hn, (by rw [hc]; intro h; cases h), fun t _ hu => (h t).elim (fun h => by rw [h] at hu; cases hu) (fun h => by rw [h] at hu; cases hu),
    fun t hu => (h t).elim (fun h => by rw [h] at hu; cases hu) (fun h => by rw [h] at hu; cases hu)⟩

/-- A client that is connected (connection 0), and whose next call, to send something, fails: the connection is
dropped. -/
theorem run_fails (m : Msg) : ∃ s, Run (one []) [.called 2 (.send m), .dropped 2 0, .returned 2 (.send m) false] s ∧ Gone s 0 := by
  have r := (((((((((Run.nil (s := one [])).then (.call (.send m))).then (.sendNew 2 m rfl)).then
    (.read 2 (.send m) rfl (by intro t ht; rcases (by simp only [one, St.goto] at ht; omega : t = 0 ∨ t = 1 ∨ t = 2) with rfl | rfl | rfl <;> rfl))).then
    (.found 2 (.send m) rfl 0 rfl (by intro h; cases h))).then (.useErr 2 (.send m) 0 rfl)).then
    (.failFree 2 (.send m) rfl (by intro t ht; rcases (by simp only [one, St.goto] at ht; omega : t = 0 ∨ t = 1 ∨ t = 2) with rfl | rfl | rfl <;> rfl))).then
    (.lockW 2 (.send m) rfl (by intro t ht; rcases (by simp only [one, St.goto] at ht; omega : t = 0 ∨ t = 1 ∨ t = 2) with rfl | rfl | rfl <;> rfl)
      (by intro t ht; rcases (by simp only [one, St.goto] at ht; omega : t = 0 ∨ t = 1 ∨ t = 2) with rfl | rfl | rfl <;> rfl))).then
    (.take 2 (.send m) rfl))
  refine ⟨_, r, ?_⟩
  have hpc : ∀ (f : Nat → PC) (t : Nat), (∀ t, t ≠ 2 → f t = (one []).pc t) → f 2 = .done → f t = .done ∨ f t = .idle := by
    intro f t h1 h2
    by_cases e : t = 2
    · subst e; exact .inl h2
    · rw [h1 t e]
      show (if t < 2 then PC.done else .idle) = .done ∨ (if t < 2 then PC.done else .idle) = .idle
      split
      · exact .inl rfl
      · exact .inr rfl
  exact gone_of (fun t => hpc _ t (fun t e => by simp [St.goto, upd, e, show (one []).n = 2 from rfl]) rfl) rfl Nat.zero_lt_one

/-- **C108 is false**: a message that has arrived is never read if, before the application asks for it, another call
fails: the failing call drops the connection and with it whatever has arrived on it. Whatever is called afterwards,
nothing that arrived on it is read. -/
theorem C108_false (deser : Bytes → Option Msg) (raw : Bytes) (m : Msg) : ∃ es s,
    RRun deser (.new []) es s ∧ REv.arrived 0 raw ∈ es ∧ (∀ t, REv.client (.called t .close) ∉ es) ∧
    ∀ es' s', RRun deser s es' s' → ∀ t raw' m', REv.read t 0 raw' m' ∉ es ++ es' := by
  have r1 := (lift_run (deser := deser) (inv_new []) (run_one []) (fun t => rfl) (by simp) (fun _ => []) (fun _ => false)).1
  obtain ⟨s, r, hg⟩ := run_fails m
  have a : RStep deser ⟨one [], fun _ => [], fun _ => false⟩ [.arrived 0 raw] _ := .arrive 0 raw (by decide) rfl
  have r2 := (lift_run (deser := deser) (reach_inv (run_one [])) r
    (fun t => by show receiving (if t < 2 then PC.done else .idle) = false; split <;> rfl) (by simp)
    (upd (fun _ => []) 0 [raw]) (fun _ => false)).1
  refine ⟨_, _, RRun.append (RRun.append r1 (.snoc _ _ _ _ .nil a)) r2, by simp, by simp, fun es' s' h' t raw' m' hm => ?_⟩
  have hi := cl_inv [] (RRun.append (RRun.append r1 (.snoc _ _ _ _ .nil a)) r2)
  rcases List.mem_append.1 hm with hm | hm
  · simp at hm
  · exact (gone_run hi hg h').2 t raw' m' hm

/-- The hypotheses of the theorems are met: on the connection of a connected client two messages arrive; a call of
`receive_message` that was waiting for them is given up; the next call returns the first of them. -/
example (deser : Bytes → Option Msg) (m : Msg) (h1 : deser [1] = some m) :
    ∃ es s t s', RRun deser (.new []) es s ∧ REv.client (.called 2 .recv) ∈ es ∧ readBy 2 es = [] ∧
      arrivedOn 0 es = [[1], [2]] ∧ takenOn 0 es = [] ∧
      RRun deser s [.client (.called t .recv), .client (.returned t .recv true), .read t 0 [1] m] s' := by
  have r1 := (lift_run (deser := deser) (inv_new []) (run_one []) (fun t => rfl) (by simp) (fun _ => []) (fun _ => false)).1
  have c1 := other_step (deser := deser) (s := ⟨one [], fun _ => [], fun _ => false⟩) (t := 2) (.call .recv) rfl
    (fun c e => by cases e)
  have c2 := goto_step (deser := deser) (s := ⟨_, fun _ => [], fun _ => false⟩) rfl (fun c e => by cases e)
    (.recvNew (s := { one [] with pc := upd (one []).pc 2 (.new .recv), n := 3 }) 2 rfl)
  have c3 := goto_step (deser := deser) (s := ⟨_, fun _ => [], fun _ => false⟩) rfl (fun c e => by cases e)
    (.read (s := ({ one [] with pc := upd (one []).pc 2 (.new .recv), n := 3 } : St).goto 2 (.ready .recv)) 2 .recv rfl (by decide))
  have c4 := goto_step (deser := deser) (s := ⟨_, fun _ => [], fun _ => false⟩) rfl (fun c e => by cases e)
    (.found (s := (({ one [] with pc := upd (one []).pc 2 (.new .recv), n := 3 } : St).goto 2 (.ready .recv)).goto 2
      (.reading .recv)) 2 .recv rfl 0 rfl (by decide))
  have a : RStep deser ⟨((({ one [] with pc := upd (one []).pc 2 (.new .recv), n := 3 } : St).goto 2 (.ready .recv)).goto 2
      (.reading .recv)).goto 2 (.using .recv 0), fun _ => [], fun _ => false⟩ [.arrived 0 [1]] _ := .arrive 0 [1] (by decide) rfl
  have b : RStep deser ⟨((({ one [] with pc := upd (one []).pc 2 (.new .recv), n := 3 } : St).goto 2 (.ready .recv)).goto 2
      (.reading .recv)).goto 2 (.using .recv 0), upd (fun _ => []) 0 [[1]], fun _ => false⟩ [.arrived 0 [2]] _ :=
    .arrive 0 [2] (by decide) rfl
  have d : RStep deser ⟨((({ one [] with pc := upd (one []).pc 2 (.new .recv), n := 3 } : St).goto 2 (.ready .recv)).goto 2
      (.reading .recv)).goto 2 (.using .recv 0), upd (upd (fun _ => []) 0 [[1]]) 0 [[1], [2]], fun _ => false⟩ [] _ := .other [] _ (.cancel 2 .recv rfl) (by
    intro t c h
    by_cases e : t = 2
    · subst e; exact .inr ⟨rfl, rfl⟩
    · left; show upd _ 2 _ t = _; rw [upd_ne _ _ e]; exact h)
  have r := ((((((RRun.snoc _ _ _ _ r1 c1).snoc _ _ _ _ c2).snoc _ _ _ _ c3).snoc _ _ _ _ c4).snoc _ _ _ _ a).snoc _ _ _ _ b).snoc _ _ _ _ d
  obtain ⟨t, s', h⟩ := C108_kept_partial [] (c := 0) (q := [[2]]) r rfl .nil (by simp) (by decide) (by simp [arrivedOn, takenOn]) h1
  refine ⟨_, _, t, s', r, by simp [one], by simp [readBy], by simp [arrivedOn], by simp [takenOn], h⟩

end Verif.Props.Reading

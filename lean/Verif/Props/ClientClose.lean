import Verif.Props.Client

/-!
# C68: closing the client

`Client::close` (cdn-client/src/lib.rs:464-476) promises "Will block a maximum of 2 seconds".
-/

set_option linter.unusedSectionVars false

namespace Verif.Props.ClientClose
open Verif Verif.Client Verif.Props.Client

variable {s s' : St} {es : List Ev}

/-- A call of `close` (task `u`) that waits for the lock held by a reconnection task `r` nobody aborts. -/
structure Stuck (s : St) (r u : Nat) : Prop where
  closed : s.closed = true
  loops : s.pc r = .rLoop ∨ s.pc r = .rSleep
  live : s.aborted r = false
  noClose : ∀ t, s.pc t ≠ .new .close ∧ s.pc t ≠ .close1
  waits : s.pc u = .close2 ∨ s.pc u = .done

theorem stuck_step {r u : Nat} (hi : s.Inv) (hs : Step s es s') (hq : Stuck s r u)
    (hc : ∀ t, Ev.called t .close ∉ es) : Stuck s' r u ∧ ∀ op ok, Ev.returned u op ok ∉ es := by
  have hW : (s.pc r).holdsW = true := by rcases hq.loops with h | h <;> rw [h] <;> rfl
  refine ⟨⟨?_, ?_, ?_, ?_, ?_⟩, ?_⟩
  · rcases closed_step hs with h | h
    · rw [h, hq.closed]
    · exact h.1
  · rcases pc_step hi hs r with h | h
    · rw [h]; exact hq.loops
    · have hl := hq.live
      have hcl := hq.closed
      have h0 := hq.loops
      generalize s.pc r = p at h h0
      generalize s'.pc r = q at h ⊢
      cases h <;> simp_all [PC.awaits] <;> first | done | (rcases h0 with rfl | rfl <;> simp at *)
  · have hg : ∀ {v : Nat} {w : Work}, (s.giveUp v w).1.aborted = s.aborted := by
      intro v w; cases w <;> rfl
    cases hs with
    | store t w r' h =>
      have := hi.wr r t hW
      rw [h] at this; cases this
    | closeAbort t h => exact absurd h (hq.noClose t).2
    | noRead t w => rw [hg]; exact hq.live
    | noSpawn t w => rw [hg]; exact hq.live
    | _ => exact hq.live
  · intro t
    have h0 := hq.noClose t
    rcases pc_step hi hs t with h | h
    · rw [h]; exact h0
    · have hct := hc t
      generalize s.pc t = p at h h0
      generalize s'.pc t = q at h ⊢
      cases h <;> simp_all
      rintro rfl; exact hc _ ‹_›
  · rcases pc_step hi hs u with h | h
    · rw [h]; exact hq.waits
    · have h0 := hq.waits
      generalize s.pc u = p at h h0
      generalize s'.pc u = q at h ⊢
      cases h with
      | closeLock hw hr => rw [hw r] at hW; cases hW
      | _ => simp_all
  · intro op ok h
    have := (ret_step hs h).1
    rcases hq.waits with h | h <;> rw [h] at this <;> simp [PC.returns] at this

/-- C68 is false: there is a run in which `close` is called (by task 2, while task 0 sends) and then never returns,
whatever happens and however long one waits, unless `close` is called once more. The reconnection task had been
spawned by the sending task but not recorded when `close` looked for it. -/
theorem C68_false : ∃ es s, Run (St.new []) es s ∧ Ev.called 2 .close ∈ es ∧
    (∀ op ok, Ev.returned 2 op ok ∉ es) ∧
    ∀ es' s', Run s es' s' → (∀ t, Ev.called t .close ∉ es') → ∀ op ok, Ev.returned 2 op ok ∉ es' := by
  have r0 := ((((((((Run.nil (s := St.new [])).then (.call (.send (.subscribe [])))).then
    (.sendNew 0 (.subscribe []) rfl)).then (.read 0 (.send (.subscribe [])) rfl (by decide))).then
    (.spawn 0 (.send (.subscribe [])) rfl rfl rfl (by decide))).then (.call .close)).then
    (.closeGuard 2 rfl)).then (.closeAbort 2 rfl))
  have r1 := (r0.then (.store 0 (.send (.subscribe [])) 1 rfl)).then (.rLock 1 rfl (by decide) (by decide))
  refine ⟨_, _, r1, by simp [St.new, St.goto], by simp [St.giveUp, Work.op], fun es' s' h hc => ?_⟩
  have hi := reach_inv r1
  have hn : ∀ t, (match t with | 0 => PC.done | 1 => PC.rLoop | 2 => PC.close2 | _ => PC.idle) ≠ .new .close ∧
      (match t with | 0 => PC.done | 1 => PC.rLoop | 2 => PC.close2 | _ => PC.idle) ≠ .close1 := by
    intro t; split <;> exact ⟨PC.noConfusion, PC.noConfusion⟩
  have key : ∀ {s0 s : St} {es : List Ev}, s0.Inv → Stuck s0 1 2 → Run s0 es s → (∀ t, Ev.called t .close ∉ es) →
      Stuck s 1 2 ∧ ∀ op ok, Ev.returned 2 op ok ∉ es := by
    intro s0 s es hi hq h hc
    induction h with
    | nil => exact ⟨hq, by simp⟩
    | snoc e1 s1 e2 s2 h1 hs ih =>
      obtain ⟨i1, i2⟩ := ih fun t h => hc t (List.mem_append_left _ h)
      obtain ⟨i3, i4⟩ := stuck_step (inv_run hi h1) hs i1 fun t h => hc t (List.mem_append_right _ h)
      refine ⟨i3, fun op ok h => ?_⟩
      rcases List.mem_append.1 h with h | h
      · exact i2 op ok h
      · exact i4 op ok h
  refine (key hi ⟨rfl, Or.inl rfl, rfl, fun t => ?_, Or.inl rfl⟩ h hc).2
  rcases t with _ | _ | _ | t
  · exact hn 0
  · exact hn 1
  · exact hn 2
  · exact hn 3

/-! ## What holds -/

theorem aborted_step (hs : Step s es s') (r : Nat) (h : s.aborted r = true) : s'.aborted r = true := by
  have hg : ∀ {v : Nat} {w : Work}, (s.giveUp v w).1.aborted = s.aborted := by
    intro v w; cases w <;> rfl
  have hu : ∀ r0, upd s.aborted r0 true r = true := by
    intro r0; unfold upd; split
    · rfl
    · exact h
  cases hs with
  | store t w r' _ =>
    show (match s.handle with | some r0 => upd s.aborted r0 true | none => s.aborted) r = true
    cases s.handle with
    | none => exact h
    | some r0 => exact hu r0
  | closeAbort t _ =>
    show (match s.handle with | some r0 => upd s.aborted r0 true | none => s.aborted) r = true
    cases s.handle with
    | none => exact h
    | some r0 => exact hu r0
  | noRead t w => rw [hg]; exact h
  | noSpawn t w => rw [hg]; exact h
  | _ => exact h

theorem handle_step (hs : Step s es s') : s'.handle = s.handle ∨ ∀ r, s.handle = some r → s'.aborted r = true := by
  have hg : ∀ {v : Nat} {w : Work}, (s.giveUp v w).1.handle = s.handle := by
    intro v w; cases w <;> rfl
  cases hs with
  | store t w r' _ =>
    right; intro r hr
    show (match s.handle with | some r0 => upd s.aborted r0 true | none => s.aborted) r = true
    rw [hr]; exact upd_self _ _ _
  | closeAbort t _ =>
    right; intro r hr
    show (match s.handle with | some r0 => upd s.aborted r0 true | none => s.aborted) r = true
    rw [hr]; exact upd_self _ _ _
  | noRead t w => exact Or.inl hg
  | noSpawn t w => exact Or.inl hg
  | _ => exact Or.inl rfl

theorem spawned_step (hi : s.Inv) (hs : Step s es s') {t : Nat} {w : Work} {r : Nat} (h : s.pc t = .spawned w r) :
    s'.pc t = .spawned w r ∨ s'.handle = some r := by
  by_cases hst : ∃ w' r', s'.handle = some r' ∧ s.pc t = .spawned w' r'
  · obtain ⟨w', r', h1, h2⟩ := hst
    rw [h] at h2; cases h2
    exact Or.inr h1
  have hgp : ∀ {v : Nat} {w' : Work}, v ≠ t → (s.giveUp v w').1.pc t = s.pc t := by
    intro v w' e
    cases w' <;> exact upd_ne _ _ (fun e' => e e'.symm)
  left
  have ht : t < s.n := hi.lt (by rw [h]; exact PC.noConfusion)
  cases hs with
  | store u w' r' h1 =>
    by_cases e : u = t
    · subst e; exact absurd ⟨w', r', rfl, h1⟩ hst
    · show (s.giveUp u w').1.pc t = _
      rw [hgp e]; exact h
  | noRead u w' h1 =>
    rw [hgp (by rintro rfl; rw [h] at h1; cases h1)]; exact h
  | noSpawn u w' h1 =>
    rw [hgp (by rintro rfl; rw [h] at h1; cases h1)]; exact h
  | spawn u w' h1 =>
    show upd (upd s.pc u _) s.n _ t = _
    rw [upd_ne _ _ (by omega), upd_ne _ _ (by rintro rfl; rw [h] at h1; cases h1)]; exact h
  | call op => show upd s.pc s.n _ t = _; rw [upd_ne _ _ (by omega)]; exact h
  | rAbort u h1 => show upd s.pc u _ t = _; rw [upd_ne _ _ (by rintro rfl; rw [h] at h1; cases h1)]; exact h
  | cancel u op h1 => show upd s.pc u _ t = _; rw [upd_ne _ _ (by rintro rfl; rw [h] at h1; cases h1)]; exact h
  | rFail u h1 =>
    show upd s.pc u _ t = _
    rw [upd_ne _ _ (by rintro rfl; rw [h] at h1; rcases h1 with h1 | h1 | h1 <;> cases h1)]; exact h
  | _ =>
    show upd s.pc _ _ t = _
    rw [upd_ne _ _ (by rintro rfl; simp_all)]; exact h

/-- Every live reconnection task is recorded, aborted, or its spawner is about to record it. -/
def Known (s : St) : Prop := ∀ r, Reconnecting (s.pc r) →
  s.handle = some r ∨ s.aborted r = true ∨ ∃ t w, s.pc t = .spawned w r

theorem known_step (hi : s.Inv) (hk : Known s) (hs : Step s es s') : Known s' := by
  intro r hr
  have hold : Reconnecting (s.pc r) ∨ ∃ t w, s'.pc t = .spawned w r := by
    by_cases h0 : Reconnecting (s.pc r)
    · exact Or.inl h0
    right
    have hgp : ∀ {v : Nat} {w : Work} {x : Nat}, Reconnecting ((s.giveUp v w).1.pc x) → Reconnecting (s.pc x) := by
      intro v w x h
      have : (s.giveUp v w).1.pc = upd s.pc v .done ∨ (s.giveUp v w).1.pc = upd s.pc v .ensureWait := by
        cases w <;> simp [St.giveUp, St.goto]
      by_cases e : x = v
      · subst e
        rcases this with h1 | h1 <;> rw [h1, upd_self] at h <;> simp [Reconnecting] at h
      · rcases this with h1 | h1 <;> rw [h1, upd_ne _ _ e] at h <;> exact h
    have hgo : ∀ {v : Nat} {p : PC}, Reconnecting (upd s.pc v p r) → r = v ∧ Reconnecting p := by
      intro v p h
      by_cases e : r = v
      · subst e; rw [upd_self] at h; exact ⟨rfl, h⟩
      · rw [upd_ne _ _ e] at h; exact absurd h h0
    cases hs with
    | spawn t w h hn ho hp =>
      by_cases e : r = s.n
      · refine ⟨t, w, ?_⟩
        have ht : t < s.n := hi.lt (by rw [h]; exact PC.noConfusion)
        show upd (upd s.pc t (.spawned w s.n)) s.n .rWait t = _
        rw [upd_ne _ _ (by omega), upd_self, e]
      · have hr : Reconnecting (upd (upd s.pc t (.spawned w s.n)) s.n .rWait r) := hr
        rw [upd_ne _ _ e] at hr
        obtain ⟨-, h2⟩ := hgo hr
        simp [Reconnecting] at h2
    | noRead t w => exact absurd (hgp hr) h0
    | noSpawn t w => exact absurd (hgp hr) h0
    | store t w => exact absurd (hgp hr) h0
    | rLock t h => obtain ⟨rfl, -⟩ := hgo hr; exact absurd (by simp [Reconnecting, h]) h0
    | rClosed t h => obtain ⟨rfl, -⟩ := hgo hr; exact absurd (by simp [Reconnecting, h]) h0
    | rConnect t h => obtain ⟨rfl, -⟩ := hgo hr; exact absurd (by simp [Reconnecting, h]) h0
    | rMarshal t h => obtain ⟨rfl, -⟩ := hgo hr; exact absurd (by simp [Reconnecting, h]) h0
    | rSubs t h => obtain ⟨rfl, -⟩ := hgo hr; exact absurd (by simp [Reconnecting, h]) h0
    | rAuthOk t h => obtain ⟨rfl, -⟩ := hgo hr; exact absurd (by simp [Reconnecting, h]) h0
    | rSet t c h => obtain ⟨rfl, -⟩ := hgo hr; exact absurd (by simp [Reconnecting, h]) h0
    | rPermit t h => obtain ⟨rfl, -⟩ := hgo hr; exact absurd (by simp [Reconnecting, h]) h0
    | rWake t h => obtain ⟨rfl, -⟩ := hgo hr; exact absurd (by simp [Reconnecting, h]) h0
    | rFail t h =>
      obtain ⟨rfl, -⟩ := hgo hr
      exact absurd (by rcases h with h | h | h <;> simp [Reconnecting, h]) h0
    | _ => obtain ⟨-, h2⟩ := hgo hr; simp [Reconnecting] at h2
  rcases hold with h0 | h0
  · rcases hk r h0 with h1 | h1 | ⟨t, w, h1⟩
    · rcases handle_step hs with h2 | h2
      · exact Or.inl (h2.trans h1)
      · exact Or.inr (Or.inl (h2 r h1))
    · exact Or.inr (Or.inl (aborted_step hs r h1))
    · rcases spawned_step hi hs h1 with h2 | h2
      · exact Or.inr (Or.inr ⟨t, w, h2⟩)
      · exact Or.inl h2
  · exact Or.inr (Or.inr h0)

theorem known_run (init : List Topic) (h : Run (St.new init) es s) : Known s := by
  induction h with
  | nil => intro r hr; simp [St.new, Reconnecting] at hr
  | snoc e1 s1 e2 s2 h1 hs ih => exact known_step (reach_inv h1) ih hs

/-- Closed, and every live reconnection task was told to stop. -/
def Stopping (s : St) : Prop := s.closed = true ∧ ∀ r, Reconnecting (s.pc r) → s.aborted r = true

theorem stopping_step (hi : s.Inv) (hs : Step s es s') (h : Stopping s) : Stopping s' := by
  refine ⟨?_, fun r hr => ?_⟩
  · rcases closed_step hs with h1 | h1
    · rw [h1, h.1]
    · exact h1.1
  · rcases becomes hi hs hr with h1 | ⟨-, h1, -⟩
    · exact aborted_step hs r (h.2 r h1)
    · rw [h.1] at h1; cases h1

/-- No event of this list concerns the network. -/
def Local (es : List Ev) : Prop :=
  ∀ e ∈ es, (∃ t op ok, e = .returned t op ok) ∨ ∃ t c, e = .dropped t c

theorem Local.append {es' : List Ev} (h : Local es) (h' : Local es') : Local (es ++ es') := by
  intro e he
  rcases List.mem_append.1 he with he | he
  · exact h e he
  · exact h' e he

/-- The task with the write guard lets go of it. -/
theorem release (hi : s.Inv) (hst : Stopping s) (u : Nat) (hu : (s.pc u).holdsW = true) :
    ∃ es s', Run s es s' ∧ Local es ∧ (∀ t, (s'.pc t).holdsW = false) ∧ ∀ t, t ≠ u → s'.pc t = s.pc t := by
  have fin : ∀ {s' : St} {p : PC}, s'.pc u = p → p.holdsW = false → (∀ t, t ≠ u → s'.pc t = s.pc t) →
      (∀ t, (s'.pc t).holdsW = false) ∧ ∀ t, t ≠ u → s'.pc t = s.pc t := by
    intro s' p h1 h2 h3
    refine ⟨fun t => ?_, h3⟩
    by_cases e : t = u
    · rw [e, h1, h2]
    · rw [h3 t e]
      cases h4 : (s.pc t).holdsW with
      | false => rfl
      | true => exact absurd (hi.uW t u h4 hu) e
  have ab : (s.pc u).abortable = true → Reconnecting (s.pc u) →
      ∃ es s', Run s es s' ∧ Local es ∧ (∀ t, (s'.pc t).holdsW = false) ∧ ∀ t, t ≠ u → s'.pc t = s.pc t := by
    intro h1 h2
    exact ⟨_, _, Run.nil.then (.rAbort u h1 (hst.2 u h2)), by simp [Local],
      fin (upd_self _ _ _) rfl fun t ht => upd_ne _ _ ht⟩
  cases hp : s.pc u with
  | holdW w =>
    refine ⟨_, _, Run.nil.then (.take u w hp), ?_, fin (upd_self _ _ _) rfl fun t ht => upd_ne _ _ ht⟩
    intro e he
    simp only [List.nil_append, List.mem_append, List.mem_map, List.mem_singleton] at he
    rcases he with ⟨c, -, rfl⟩ | rfl
    · exact Or.inr ⟨_, _, rfl⟩
    · exact Or.inl ⟨_, _, _, rfl⟩
  | close3 =>
    refine ⟨_, _, Run.nil.then (.closeTake u hp), ?_, fin (upd_self _ _ _) rfl fun t ht => upd_ne _ _ ht⟩
    intro e he
    simp only [List.nil_append, List.mem_append, List.mem_map, List.mem_singleton] at he
    rcases he with ⟨c, -, rfl⟩ | rfl
    · exact Or.inr ⟨_, _, rfl⟩
    · exact Or.inl ⟨_, _, _, rfl⟩
  | rSleep => exact ab (by rw [hp]; rfl) (by simp [hp, Reconnecting])
  | rConnecting => exact ab (by rw [hp]; rfl) (by simp [hp, Reconnecting])
  | rWantSubs => exact ab (by rw [hp]; rfl) (by simp [hp, Reconnecting])
  | rAuth => exact ab (by rw [hp]; rfl) (by simp [hp, Reconnecting])
  | rLoop =>
    have h1 := Run.nil.then (Step.rClosed u hp hst.1)
    have h2 := h1.then (.rAbort u (by show (upd s.pc u _ u).abortable = true; rw [upd_self]; rfl)
      (hst.2 u (by simp [hp, Reconnecting])))
    exact ⟨_, _, h2, by simp [Local], fin (upd_self _ _ _) rfl fun t ht => by
      show upd (upd s.pc u _) u _ t = _
      rw [upd_ne _ _ ht, upd_ne _ _ ht]⟩
  | rGot c =>
    have h1 := Run.nil.then (Step.rSet u c hp)
    have h2 := h1.then (.rPermit u (upd_self _ _ _))
    have h3 := h2.then (.rDone u (upd_self _ _ _))
    exact ⟨_, _, h3, by simp [Local], fin (upd_self _ _ _) rfl fun t ht => by
      show upd (upd (upd s.pc u _) u _) u _ t = _
      rw [upd_ne _ _ ht, upd_ne _ _ ht, upd_ne _ _ ht]⟩
  | rSet =>
    have h2 := Run.nil.then (Step.rPermit u hp)
    have h3 := h2.then (.rDone u (upd_self _ _ _))
    exact ⟨_, _, h3, by simp [Local], fin (upd_self _ _ _) rfl fun t ht => by
      show upd (upd s.pc u _) u _ t = _
      rw [upd_ne _ _ ht, upd_ne _ _ ht]⟩
  | rPermit =>
    exact ⟨_, _, Run.nil.then (.rDone u hp), by simp [Local], fin (upd_self _ _ _) rfl fun t ht => upd_ne _ _ ht⟩
  | _ => rw [hp] at hu; cases hu

theorem giveUp_local (t : Nat) (w : Work) : Local (s.giveUp t w).2 := by
  cases w <;> simp [St.giveUp, Local]

/-- A task with a read guard lets go of it. -/
theorem unread (hc : s.closed = true) (u : Nat) (hu : (s.pc u).holdsR = true) :
    ∃ es s', Step s es s' ∧ Local es ∧ (s'.pc u).holdsR = false ∧ (s'.pc u).holdsW = false ∧
      ∀ t, t ≠ u → s'.pc t = s.pc t := by
  have hg : ∀ w, ((s.giveUp u w).1.pc u).holdsR = false ∧ ((s.giveUp u w).1.pc u).holdsW = false ∧
      ∀ t, t ≠ u → (s.giveUp u w).1.pc t = s.pc t := by
    intro w
    cases w <;> exact ⟨by simp [St.giveUp, St.goto, upd_self, PC.holdsR], by simp [St.giveUp, St.goto, upd_self, PC.holdsW],
      fun t ht => upd_ne _ _ ht⟩
  cases hp : s.pc u with
  | reading w =>
    cases hn : s.conn with
    | none => exact ⟨_, _, .noSpawn u w hp hn (Or.inl hc), giveUp_local u w, hg w⟩
    | some c =>
      by_cases he : w = .ensure
      · subst he
        exact ⟨_, _, .foundEnsure u hp c hn, by simp [Local], by simp [St.goto, upd_self, PC.holdsR],
          by simp [St.goto, upd_self, PC.holdsW], fun t ht => upd_ne _ _ ht⟩
      · exact ⟨_, _, .found u w hp c hn he, by simp [Local], by simp [St.goto, upd_self, PC.holdsR],
          by simp [St.goto, upd_self, PC.holdsW], fun t ht => upd_ne _ _ ht⟩
  | spawned w r => exact ⟨_, _, .store u w r hp, giveUp_local u w, hg w⟩
  | _ => rw [hp] at hu; cases hu

/-- All tasks with read guards let go of them. -/
theorem drain (hc : s.closed = true) (hW : ∀ t, (s.pc t).holdsW = false) (m : Nat) :
    ∃ es s', Run s es s' ∧ Local es ∧ s'.closed = true ∧ (∀ t, (s'.pc t).holdsW = false) ∧
      (∀ t < m, (s'.pc t).holdsR = false) ∧ ∀ t, (s.pc t).holdsR = false → s'.pc t = s.pc t := by
  induction m with
  | zero => exact ⟨_, _, .nil, by simp [Local], hc, hW, by simp, fun _ _ => rfl⟩
  | succ m ih =>
    obtain ⟨es, s1, h1, h2, h3, h4, h5, h6⟩ := ih
    cases hm : (s1.pc m).holdsR with
    | false =>
      refine ⟨es, s1, h1, h2, h3, h4, fun t ht => ?_, h6⟩
      rcases Nat.lt_succ_iff_lt_or_eq.1 ht with h | rfl
      · exact h5 t h
      · exact hm
    | true =>
      obtain ⟨es', s2, g1, g2, g3, g4, g5⟩ := unread h3 m hm
      refine ⟨_, _, h1.then g1, h2.append g2, ?_, fun t => ?_, fun t ht => ?_, fun t ht => ?_⟩
      · rcases closed_step g1 with h | h
        · rw [h, h3]
        · exact h.1
      · by_cases e : t = m
        · rw [e, g4]
        · rw [g5 t e, h4 t]
      · by_cases e : t = m
        · rw [e, g3]
        · rw [g5 t e]; exact h5 t (by omega)
      · have e : t ≠ m := by
          rintro rfl
          rw [h6 t ht, ht] at hm; cases hm
        rw [g5 t e, h6 t ht]

/-- A call of `close` can return. -/
theorem can_return (hi : s.Inv) (hst : Stopping s) (t : Nat) (ht : s.pc t = .close2) :
    ∃ es s', Run s es s' ∧ Local es ∧ Ev.returned t .close true ∈ es := by
  have hW : ∃ es s', Run s es s' ∧ Local es ∧ s'.closed = true ∧ s'.pc t = .close2 ∧ ∀ t, (s'.pc t).holdsW = false := by
    by_cases h : ∃ u, (s.pc u).holdsW = true
    · obtain ⟨u, hu⟩ := h
      obtain ⟨es, s1, h1, h2, h3, h4⟩ := release hi hst u hu
      refine ⟨es, s1, h1, h2, ?_, ?_, h3⟩
      · clear h2 h3 h4
        induction h1 with
        | nil => exact hst.1
        | snoc e1 a e2 b _ hs ih =>
          rcases closed_step hs with h | h
          · rw [h]; exact ih
          · exact h.1
      · rw [h4 t (by rintro rfl; rw [ht] at hu; cases hu), ht]
    · refine ⟨_, _, .nil, by simp [Local], hst.1, ht, fun u => ?_⟩
      cases hu : (s.pc u).holdsW with
      | false => rfl
      | true => exact absurd ⟨u, hu⟩ h
  obtain ⟨es1, s1, r1, l1, c1, t1, w1⟩ := hW
  have hi1 := inv_run hi r1
  obtain ⟨es2, s2, r2, l2, c2, w2, d2, k2⟩ := drain c1 w1 s1.n
  have t2 : s2.pc t = .close2 := by rw [k2 t (by rw [t1]; rfl), t1]
  have d2 : ∀ u, (s2.pc u).holdsR = false := by
    intro u
    rcases Nat.lt_or_ge u s1.n with h | h
    · exact d2 u h
    · rw [k2 u (by rw [hi1.idle u h]; rfl), hi1.idle u h]; rfl
  have r3 := (r1.trans r2).then (.closeLock t t2 (fun u _ => w2 u) (fun u _ => d2 u))
  have r4 := r3.then (.closeTake t (upd_self _ _ _))
  refine ⟨_, _, r4, ?_, by simp⟩
  refine ((l1.append l2).append (by simp [Local])).append ?_
  intro e he
  rcases List.mem_append.1 he with he | he
  · obtain ⟨c, -, rfl⟩ := List.mem_map.1 he
    exact Or.inr ⟨_, _, rfl⟩
  · rw [List.mem_singleton.1 he]; exact Or.inl ⟨_, _, _, rfl⟩

/-- **C68, as far as it holds.** If no other call is just about to record a reconnection task it has spawned when
`close` looks for one to abort, then at every later moment at which `close` is still waiting it can return, by
steps of the client's own tasks that need nothing from the network (no connection attempt begins, proceeds or
succeeds, nothing is sent). Missing against C68: the case excluded (`C68_false`), and a bound on time. -/
theorem C68_partial (init : List Topic) (h : Run (St.new init) es s) (t : Nat) (ht : s.pc t = .close1)
    (hq : ∀ u w r, s.pc u ≠ .spawned w r) {es1 es2 : List Ev} {s1 s2 : St} (hs : Step s es1 s1)
    (h1 : s1.pc t = .close2) (h2 : Run s1 es2 s2) (hw : s2.pc t = .close2) :
    ∃ es3 s3, Run s2 es3 s3 ∧ Ev.returned t .close true ∈ es3 ∧
      ∀ e ∈ es3, (∃ u op ok, e = .returned u op ok) ∨ ∃ u c, e = .dropped u c := by
  have hclosed : ∀ {es : List Ev} {s : St}, Run (St.new init) es s → ∀ t, s.pc t = .close1 → s.closed = true := by
    intro es s h
    induction h with
    | nil => intro t h; simp [St.new] at h
    | snoc e1 a e2 b ha hs ih =>
      intro t h
      rcases pc_step (reach_inv ha) hs t with h3 | h3
      · rw [h3] at h
        rcases closed_step hs with h4 | h4
        · rw [h4, ih t h]
        · exact h4.1
      · rw [h] at h3
        generalize a.pc t = p at h3
        cases h3 with
        | closeGuard hc => exact hc
  have hst : Stopping s1 := by
    have hc := hclosed h t ht
    refine ⟨?_, fun r hr => ?_⟩
    · rcases closed_step hs with h3 | h3
      · rw [h3, hc]
      · exact h3.1
    · rcases becomes (reach_inv h) hs hr with h3 | ⟨-, h3, -⟩
      · rcases known_run init h r h3 with h4 | h4 | ⟨u, w, h4⟩
        · have hab : ∀ r, s.handle = some r → s1.aborted r = true := by
            have hgp : ∀ {v : Nat} {w : Work}, s.pc v ≠ .close1 → (s.giveUp v w).1.pc t ≠ .close2 := by
              intro v w hv
              have e : t ≠ v := by rintro rfl; exact hv ht
              cases w <;> (show upd s.pc v _ t ≠ _; rw [upd_ne _ _ e, ht]; exact PC.noConfusion)
            have hgo : ∀ {v : Nat} {p : PC}, s.pc v ≠ .close1 → upd s.pc v p t ≠ .close2 := by
              intro v p hv
              have e : t ≠ v := by rintro rfl; exact hv ht
              rw [upd_ne _ _ e, ht]; exact PC.noConfusion
            rcases handle_step hs with h5 | h5
            · intro r0 hr0
              cases hs with
              | closeAbort u hu =>
                rw [hr0] at h5; cases h5
              | noRead u w hu => exact absurd h1 (hgp (by rw [hu]; exact PC.noConfusion))
              | noSpawn u w hu => exact absurd h1 (hgp (by rw [hu]; exact PC.noConfusion))
              | store u w r hu => exact absurd h1 (hgp (by rw [hu]; exact PC.noConfusion))
              | call op =>
                have : t < s.n := (reach_inv h).lt (by rw [ht]; exact PC.noConfusion)
                have h6 : upd s.pc s.n (.new op) t = .close2 := h1
                rw [upd_ne _ _ (by omega), ht] at h6; cases h6
              | spawn u w hu =>
                exact absurd hu (by
                  intro hu
                  have h6 : upd (upd s.pc u _) s.n _ t = .close2 := h1
                  have : t < s.n := (reach_inv h).lt (by rw [ht]; exact PC.noConfusion)
                  rw [upd_ne _ _ (by omega)] at h6
                  exact hgo (by rw [hu]; exact PC.noConfusion) h6)
              | rFail u hu =>
                exact absurd h1 (hgo (by rcases hu with hu | hu | hu <;> rw [hu] <;> exact PC.noConfusion))
              | rAbort u hu => exact absurd h1 (hgo (by intro e; rw [e] at hu; cases hu))
              | cancel u op hu => exact absurd h1 (hgo (by intro e; rw [e] at hu; cases hu))
              | _ => exact absurd h1 (hgo (by simp_all))
            · exact h5
          exact hab r h4
        · exact aborted_step hs r h4
        · exact absurd h4 (hq u w r)
      · rw [hc] at h3; cases h3
  have hi1 := inv_step (reach_inv h) hs
  have hst2 : Stopping s2 := by
    clear hw h1
    induction h2 with
    | nil => exact hst
    | snoc e1 a e2 b ha hs' ih => exact stopping_step (inv_run hi1 ha) hs' ih
  obtain ⟨es3, s3, r3, l3, e3⟩ := can_return (inv_run hi1 h2) hst2 t hw
  exact ⟨es3, s3, r3, e3, l3⟩

/-- Non-trivial instance of `C68_partial`: `close` is called while a reconnection task is connecting with the lock
held. -/
example : ∃ es s, Run (St.new []) es s ∧ s.pc 2 = .close1 ∧ s.pc 1 = .rConnecting ∧ s.handle = some 1 ∧
    ∀ u w r, s.pc u ≠ .spawned w r := by
  have r0 := ((((((Run.nil (s := St.new [])).then (.call .recv)).then (.recvNew 0 rfl)).then
    (.read 0 .recv rfl (by decide))).then (.spawn 0 .recv rfl rfl rfl (by decide))).then (.store 0 .recv 1 rfl)).then
    (.rLock 1 rfl (by decide) (by decide))
  have r1 := ((r0.then (.rConnect 1 rfl rfl)).then (.call .close)).then (.closeGuard 2 rfl)
  have hi := reach_inv r1
  refine ⟨_, _, r1, rfl, rfl, rfl, fun u w r => ?_⟩
  rcases u with _ | _ | _ | u
  · exact PC.noConfusion
  · exact PC.noConfusion
  · exact PC.noConfusion
  · rw [hi.idle (u + 3) (by show 3 ≤ _; omega)]; exact PC.noConfusion

end Verif.Props.ClientClose

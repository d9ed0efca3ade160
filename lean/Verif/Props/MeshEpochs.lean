import Verif.Props.MeshOnce

/-!
# Property C74, continued: users who move, while links come and go in between
-/

set_option linter.unusedSectionVars false

namespace Verif.Props.MeshEpochs
open Verif Verif.Conns Verif.MNet Verif.Props.Mesh Verif.Props.MeshUsers Verif.Props.MeshTurn
  Verif.Props.MeshCrash Verif.Props.MeshFailover Verif.Props.MeshBack Verif.Props.MeshOnce

variable {U B T H : Type} [DecidableEq U] [DecidableEq B] [DecidableEq T] [DecidableEq H]
  [LT B] [DecidableLT B]

/-! ## Specification -/

/-- Schedules in which the user, who is at `loc` (or nowhere), stays: they do not connect, and if they are at `y` they do not
leave, `y` is not restarted and no new link of `y` to a greater broker comes up. All other links may come and go, and all
other brokers may be restarted. -/
def Calm (u : U) (loc : Option B) (ls : List (MLabel U B T H)) : Prop :=
  ∀ l ∈ ls, ¬ Connects u l ∧ ∀ y, loc = some y → NoGreaterLink y l ∧ l ≠ .disconnect y u ∧ l ≠ .restart y

/-- All brokers are linked, all initial user syncs have been started, and nothing about `u` is unannounced or under way. -/
structure Ready (u : U) (n : MNet U B T H) : Prop where
  linked : ∀ b b', b ≠ b' → Linked n b b'
  initial : n.fullU = []
  quiet : NothingUnderWay u n
  told : ∀ b, ¬ Unannounced u n b

/-- The history is a sequence of epochs, from a state where the user is at `loc`. In the first part of each epoch the user
stays, while links come and go; in the second, links are stable, and the user connects, moves and leaves, each change after the
previous one has been announced. When the second part begins all brokers are linked and everything about the user is said;
when it ends everything about the user is said. -/
def Epochs (u : U) : MNet U B T H → Option B → List (List (MLabel U B T H) × List (MLabel U B T H)) → Prop
  | _, _, [] => True
  | n, loc, (c, m) :: es =>
    Calm u loc c ∧ Ready u (n.run c) ∧ InTurn u (n.run c) m ∧
    NothingUnderWay u ((n.run c).run m) ∧ (∀ b, ¬ Unannounced u ((n.run c).run m) b) ∧
    Epochs u ((n.run c).run m) (whereabouts u m loc) es

/-- All that happens in the epochs. -/
def flat (es : List (List (MLabel U B T H) × List (MLabel U B T H))) : List (MLabel U B T H) :=
  es.flatMap fun p => p.1 ++ p.2

/-! ## While the user is nowhere -/

/-- No broker knows `u`, and nothing under way is about `u`. -/
structure Gone (n : MNet U B T H) (u : U) : Prop where
  ident : ∀ x, (n.st x).identity = x
  tab : ∀ x, UNet.view (n.st x) u = ⟨none, false, false⟩
  task : ∀ τ ∈ n.tasks, entryOf u τ.msg = none ∨ τ.dests = some []
  ch : ∀ x y, ∀ m ∈ n.ch x y, entryOf u m = none

theorem gone_act {n : MNet U B T H} {u : U} (h : Gone n u) (x : B) (op : Op U B T H)
    (hadd : ∀ h ts, op ≠ .addUser u h ts) (hmsg : ∀ m, op = .applyUserSync m → m.map.get u = none) :
    Gone (n.act x op) u := by
  refine ⟨identity_act n x op h.ident, ?_, h.task, h.ch⟩
  intro y
  rw [st_act]; split
  · rename_i e
    subst e
    have h0 := h.tab y
    by_cases hun : UNet.Unrelated u op
    · rw [UNet.view_unrelated _ _ _ hun]; exact h0
    · cases op with
      | addUser u' hd ts =>
        have : u' = u := Classical.not_not.1 hun
        subst this; exact absurd rfl (hadd hd ts)
      | removeUser u' =>
        have : u' = u := Classical.not_not.1 hun
        subst this
        show UNet.view ((n.st y).removeUser u') u' = _
        rw [UNet.view_removeUser, h0]; rfl
      | partialUserSync =>
        show UNet.view (n.st y).getPartialUserSync.1 u = _
        rw [UNet.view_sync, h0]; rfl
      | applyUserSync m =>
        show UNet.view ((n.st y).applyUserSync m) u = _
        rw [UNet.view_apply_none _ _ _ (hmsg m rfl)]; exact h0
      | _ => exact absurd trivial hun
  · exact h.tab y

theorem gone_setCh {n : MNet U B T H} {u : U} (h : Gone n u) (x y : B) (q : List (SyncMsg U B T))
    (hq : ∀ m ∈ q, entryOf u m = none) : Gone (n.setCh x y q) u := by
  refine ⟨h.ident, h.tab, h.task, ?_⟩
  intro x' y' m hm
  simp only [setCh] at hm
  split at hm
  · exact hq m hm
  · exact h.ch x' y' m hm

theorem gone_spawn {n : MNet U B T H} {u : U} (h : Gone n u) (τ : SyncTask U B T)
    (hq : entryOf u τ.msg = none) : Gone (n.spawn τ) u :=
  ⟨h.ident, h.tab, by
    intro σ hσ
    rcases List.mem_append.1 hσ with h1 | h1
    · exact h.task σ h1
    · simp only [List.mem_singleton] at h1; subst h1; exact Or.inl hq, h.ch⟩

theorem gone_set {n : MNet U B T H} {u : U} (h : Gone n u) (i : Nat)
    (here : B) (m : SyncMsg U B T) (d d' : Option (List B)) (hi : n.tasks[i]? = some ⟨here, m, d⟩)
    (hd : d ≠ some []) :
    Gone { n with tasks := n.tasks.set i ⟨here, m, d'⟩ } u :=
  ⟨h.ident, h.tab, by
    intro σ hσ
    rcases List.mem_or_eq_of_mem_set hσ with h1 | rfl
    · exact h.task σ h1
    · exact Or.inl ((h.task ⟨here, m, d⟩ (List.mem_of_getElem? hi)).resolve_right hd), h.ch⟩

theorem gone_step {n : MNet U B T H} {u : U} (h : Gone n u) (l : MLabel U B T H)
    (hl : ¬ Connects u l) : Gone (n.step l) u := by
  cases l with
  | connect x u' hd ts =>
    exact gone_act h x _ (by intro h' ts' e; cases e; exact hl rfl) (by simp)
  | disconnect x u' => exact gone_act h x (.removeUser u') (by simp) (by simp)
  | subscribe x u' ts => exact gone_act h x (.subscribeUser u' ts) (by simp) (by simp)
  | unsubscribe x u' ts => exact gone_act h x (.unsubscribeUser u' ts) (by simp) (by simp)
  | startTopic x =>
    have h1 := gone_act h x .partialTopicSync (by simp) (by simp)
    simp only [MNet.step]; split
    · exact h1
    · exact gone_spawn h1 _ rfl
  | startUser x =>
    have h1 := gone_act h x .partialUserSync (by simp) (by simp)
    simp only [MNet.step]; split
    · exact h1
    · rename_i m hm
      apply gone_spawn h1
      have h2 := UNet.sync_msg (n.st x) u
      rw [hm, h.tab] at h2
      exact h2
  | readDests i =>
    simp only [MNet.step]; split
    · rename_i x m hi; exact gone_set h i x m _ _ hi (by simp)
    · exact h
  | send i ok =>
    simp only [MNet.step]; split
    · rename_i x m d ds hi
      have h1 := gone_set h i x m _ (some ds) hi (by simp)
      split
      · split
        · apply gone_setCh h1
          intro m' hm'
          rcases List.mem_append.1 hm' with h2 | h2
          · exact h.ch _ _ m' h2
          · simp only [List.mem_singleton] at h2; subst h2
            exact (h.task _ (List.mem_of_getElem? hi)).resolve_right (by simp)
        · exact gone_setCh (gone_act h1 x (.removeBroker d) (by simp) (by simp)) _ _ _ (by simp)
      · exact h1
    · exact h
  | linkUp x y c c' =>
    simp only [MNet.step]; split
    · exact h
    · have h1 := gone_act h x (.addBroker y c) (by simp) (by simp)
      have h2 := gone_act h1 y (.addBroker x c') (by simp) (by simp)
      have h3 := gone_setCh (gone_setCh h2 x y [] (by simp)) y x [] (by simp)
      exact ⟨h3.ident, h3.tab, h3.task, h3.ch⟩
  | fullTopic x y =>
    simp only [MNet.step]; split
    · have h1 : Gone { n with fullT := n.fullT.erase (x, y) } u := ⟨h.ident, h.tab, h.task, h.ch⟩
      split
      · exact h1
      · exact gone_spawn h1 _ rfl
    · exact h
  | fullUser x y =>
    simp only [MNet.step]; split
    · have h1 : Gone { n with fullU := n.fullU.erase (x, y) } u := ⟨h.ident, h.tab, h.task, h.ch⟩
      split
      · exact h1
      · rename_i m hm
        apply gone_spawn h1
        unfold getFullUserSync at hm
        split at hm
        · cases hm
        · cases hm; exact congrArg UNet.View.e (h.tab x)
    · exact h
  | drop x y =>
    exact gone_setCh (gone_act h x (.removeBroker y) (by simp) (by simp)) _ _ _ (by simp)
  | deliver x y =>
    simp only [MNet.step]; split
    · split
      · exact h
      · rename_i m rest hq
        refine gone_setCh (gone_act h y (.applyUserSync m) (by simp) ?_) _ _ _ ?_
        · rintro m' e; cases e
          exact h.ch x y (.user m) (by rw [hq]; simp)
        · intro m' hm'; exact h.ch x y m' (by rw [hq]; simp [hm'])
      · rename_i m rest hq
        refine gone_setCh (gone_act h y (.applyTopicSync x m) (by simp) (by simp)) _ _ _ ?_
        intro m' hm'; exact h.ch x y m' (by rw [hq]; simp [hm'])
    · exact h
  | restart x =>
    have hst : ∀ y, (n.step (.restart x)).st y = if y = x then Conns.new x else n.st y := fun _ => rfl
    refine ⟨?_, ?_, ?_, ?_⟩
    · intro y; rw [hst]; split
      · rename_i e; subst e; rfl
      · exact h.ident y
    · intro y; rw [hst]; split
      · simp [UNet.view, Conns.new, VMap.new]
      · exact h.tab y
    · intro τ hτ; exact h.task τ (List.mem_filter.1 hτ).1
    · intro y z m hm
      simp only [MNet.step] at hm
      split at hm
      · cases hm
      · exact h.ch y z m hm

theorem gone_run {u : U} (ls : List (MLabel U B T H)) (n : MNet U B T H) (h : Gone n u)
    (hl : ∀ l ∈ ls, ¬ Connects u l) : Gone (n.run ls) u := by
  induction ls generalizing n with
  | nil => exact h
  | cons l ls ih =>
    exact ih (n.step l) (gone_step h l (hl l (by simp))) (fun l' h' => hl l' (by simp [h']))

/-! ## Between the parts -/

/-- What holds between the parts of epochs. -/
def Between (n : MNet U B T H) (u : U) (k : Nat) : Option B → Prop
  | none => Gone n u
  | some y => ∃ v, v ≤ k ∧ Known n y u v

theorem between_calm {n : MNet U B T H} {u : U} {k : Nat} {loc : Option B} (h : Between n u k loc)
    (ls : List (MLabel U B T H)) (hc : Calm u loc ls) : Between (n.run ls) u k loc := by
  cases loc with
  | none => exact gone_run ls n h (fun l hl => (hc l hl).1)
  | some y =>
    obtain ⟨v, hv, hk⟩ := h
    exact ⟨v, hv, known_run ls n hk fun l hl => ⟨((hc l hl).2 y rfl).1, (hc l hl).1, ((hc l hl).2 y rfl).2⟩⟩

/-- When everything is said everybody has the same entry. -/
theorem known_ready {n : MNet U B T H} {u : U} {y : B} {v : Nat} (h : Known n y u v) (hr : Ready u n) (x : B) :
    UNet.view (n.st x) u = ⟨new y v, false, decide (x = y)⟩ := by
  have hm : ∀ b, (UNet.view (n.st b) u).m = false := fun b => decide_eq_false (hr.told b)
  by_cases e : x = y
  · subst e
    obtain ⟨m, hy⟩ := h.atY
    have := hm x
    rw [hy] at this
    rw [hy]; simp only at this; subst this; simp
  · have hl := hr.linked y x (Ne.symm e)
    have he : (UNet.view (n.st x) u).e = new y v := by
      rcases h.cov x e ((knows_iff _ _ _).1 hl.1) ((knows_iff _ _ _).1 hl.2) with h1 | h1 | ⟨τ, hτ, _, h1, h2⟩ | ⟨m, hmm, h1⟩ | h1
      · exact h1
      · rw [hm y] at h1; cases h1
      · exfalso
        rcases hr.quiet.2 τ hτ with h3 | h3
        · rw [h3] at h1; cases h1
        · exact absurd (h2 [] h3) List.not_mem_nil
      · rw [hr.quiet.1 y x m hmm] at h1; cases h1
      · rw [hr.initial] at h1; exact absurd h1 List.not_mem_nil
    rcases h.atO x e with h1 | h1
    · rw [h1] at he; cases he
    · rw [h1]; simp [e]

theorem stable_ready {n : MNet U B T H} {u : U} (hr : Ready u n) (hid : ∀ x, (n.st x).identity = x)
    (hirr : ∀ x, (n.st x).brokers.get x = none) : Stable n u := by
  refine ⟨hid, ?_, hr.initial, ?_⟩
  · intro x y
    constructor
    · rintro h rfl; exact h (hirr x)
    · intro h; exact (knows_iff _ _ _).1 (hr.linked x y h).1
  · intro τ hτ h ds hds
    rcases hr.quiet.2 τ hτ with h1 | h1
    · exact absurd h1 h
    · rw [h1] at hds; cases hds; simp

theorem inv_ready {n : MNet U B T H} {u : U} {k : Nat} {loc : Option B} (b0 : B) (h : Between n u k loc) (hr : Ready u n)
    (hid : ∀ x, (n.st x).identity = x) : UserSync.Inv u (ghost n) loc k := by
  have hch : ∀ x y, UserSync.chU u (ghost n) x y = [] := UserSync.chU_nil_of u _ (nothing_ghost hr.quiet)
  cases loc with
  | none =>
    have hg : Gone n u := h
    refine ⟨hid, none, b0, ⟨1, none⟩, Or.inr ⟨⟨by intro e h; simp at h, rfl, by simp [UserSync.next],
      rfl, Or.inl rfl⟩, ?_, ?_, ?_, ?_, fun x y _ => hch x y⟩⟩
    · show (UNet.view (n.st b0) u).e = _; rw [hg.tab]; rfl
    · show (UNet.view (n.st b0) u).m = _; rw [hg.tab]
    · show (UNet.view (n.st b0) u).c = _ ↔ _; rw [hg.tab]; simp
    · intro x _
      show (UNet.view (n.st x) u).m = _ ∧ (_ ∨ (_ ∧ (UNet.view (n.st x) u).e = _ ∧ (UNet.view (n.st x) u).c = _))
      rw [hg.tab, hch]
      exact ⟨rfl, Or.inr ⟨rfl, rfl, rfl⟩⟩
  | some y =>
    obtain ⟨v, hv, hk⟩ := h
    have hall := known_ready hk hr
    have hbase : ∃ base : Option (VV B), UserSync.Live base ∧ UserSync.next base = v + 1 := by
      cases v with
      | zero => exact ⟨none, (fun e h => nomatch h), rfl⟩
      | succ w => exact ⟨some ⟨w + 1, some y⟩, (fun e h => by cases h; rfl), rfl⟩
    obtain ⟨base, hb1, hb2⟩ := hbase
    refine ⟨hid, base, y, ⟨v + 1, some y⟩, Or.inr ⟨⟨hb1, hb2.symm, by omega, rfl, Or.inr rfl⟩, ?_, ?_, ?_, ?_,
      fun x y _ => hch x y⟩⟩
    · show (UNet.view (n.st y) u).e = _; rw [hall]; rfl
    · show (UNet.view (n.st y) u).m = _; rw [hall]
    · show (UNet.view (n.st y) u).c = _ ↔ _; rw [hall]; simp
    · intro x hx
      show (UNet.view (n.st x) u).m = _ ∧ (_ ∨ (_ ∧ (UNet.view (n.st x) u).e = _ ∧ (UNet.view (n.st x) u).c = _))
      rw [hall, hch]
      exact ⟨rfl, Or.inr ⟨rfl, rfl, by simp [hx]⟩⟩

/-- Back from the second part of an epoch. -/
theorem between_of_inv {n : MNet U B T H} {u : U} {k : Nat} {loc : Option B} (h : UserSync.Inv u (ghost n) loc k)
    (hs : Stable n u) (hdid : ∀ x, (n.st x).direct.ident = x) (hq : NothingUnderWay u n)
    (ht : ∀ b, ¬ Unannounced u n b) : Between n u k loc := by
  have hch : ∀ x y, UserSync.chU u (ghost n) x y = [] := UserSync.chU_nil_of u _ (nothing_ghost hq)
  obtain ⟨_, base, ed, e, h | h⟩ := h
  · exact absurd (by have := h.edM; simpa [UNet.view, Unannounced, ghost] using this) (ht ed)
  have hE : (UNet.view (n.st ed) u).e = VMap.adopted e := h.edE
  have hM : (UNet.view (n.st ed) u).m = false := h.edM
  have hC : (UNet.view (n.st ed) u).c = true ↔ loc = some ed := h.edC
  have ho : ∀ x, x ≠ ed → UNet.view (n.st x) u = ⟨VMap.adopted e, false, false⟩ := by
    intro x hx
    obtain ⟨h1, h2 | h2⟩ := h.others x hx
    · rw [hch] at h2; exact absurd h2.1 (by simp)
    · have a1 : (UNet.view (n.st x) u).m = false := h1
      have a2 : (UNet.view (n.st x) u).e = VMap.adopted e := h2.2.1
      have a3 : (UNet.view (n.st x) u).c = false := h2.2.2
      rcases hw : UNet.view (n.st x) u with ⟨w1, w2, w3⟩
      rw [hw] at a1 a2 a3
      simp only at a1 a2 a3
      rw [a1, a2, a3]
  have hval := h.core.val
  obtain ⟨ver, value⟩ := e
  simp only at hval
  subst hval
  have hver := h.core.ver
  have hbound := h.core.bound
  simp only at hver
  cases value with
  | none =>
    refine ⟨hs.ident, ?_, hq.2, hq.1⟩
    intro x
    by_cases hx : x = ed
    · subst hx
      have a3 : (UNet.view (n.st x) u).c = false := by
        rw [Bool.eq_false_iff]; intro h4; exact nomatch hC.1 h4
      rcases hw : UNet.view (n.st x) u with ⟨w1, w2, w3⟩
      rw [hw] at hE hM a3
      simp only at hE hM a3
      rw [hE, hM, a3]; rfl
    · exact ho x hx
  | some y =>
    have hy : y = ed := by
      rcases h.core.here with h4 | h4
      · cases h4
      · exact Option.some.inj h4
    subst hy
    have hpos : 1 ≤ ver := by
      rw [hver]; cases base <;> simp [UserSync.next]
    obtain ⟨v, rfl⟩ : ∃ v, ver = v + 1 := ⟨ver - 1, by omega⟩
    refine ⟨v, by omega, hs.ident, hdid, ?_, ⟨false, ?_⟩, ?_, ?_, ?_, ?_, ?_⟩
    · intro x
      exact Classical.byContradiction fun h4 => (hs.links x x).1 h4 rfl
    · rcases hw : UNet.view (n.st y) u with ⟨w1, w2, w3⟩
      rw [hw] at hE hM hC
      have hw3 : w3 = true := hC.2 rfl
      simp only at hE hM
      rw [hE, hM, hw3]; rfl
    · intro x hx; rw [ho x hx]; exact Or.inr rfl
    · rw [hs.initial]; intro p hp; exact absurd hp List.not_mem_nil
    · intro τ hτ
      rcases hq.2 τ hτ with h4 | h4
      · exact Or.inl h4
      · exact Or.inr (Or.inl h4)
    · intro a b m hm; exact Or.inl (hq.1 a b m hm)
    · intro x hx _ _; left; rw [ho x hx]; rfl

theorem stable_run {u : U} (ls : List (MLabel U B T H)) (n : MNet U B T H) (hs : Stable n u) (hl : InTurn u n ls) :
    Stable (n.run ls) u := by
  induction ls generalizing n with
  | nil => exact hs
  | cons l ls ih => exact ih (n.step l) (stable_step hs l ⟨hl.1, trivial⟩) hl.2

/-- Where the user is after the epochs, according to the history. -/
theorem whereabouts_append (u : U) (a c : List (MLabel U B T H)) (loc : Option B) :
    whereabouts u (a ++ c) loc = whereabouts u c (whereabouts u a loc) := by
  induction a generalizing loc with
  | nil => rfl
  | cons l a ih => rw [List.cons_append, whereabouts_cons, ih, ← whereabouts_cons]

/-- A calm part does not change where the user is. -/
theorem whereabouts_calm (u : U) (c : List (MLabel U B T H)) (loc : Option B) (hc : Calm u loc c) :
    whereabouts u c loc = loc := by
  induction c with
  | nil => rfl
  | cons l c ih =>
    have h1 := hc l (by simp)
    have hl : whereabouts u [l] loc = loc := by
      cases l with
      | connect b u' hd ts =>
        have : ¬ u' = u := h1.1
        simp [whereabouts, this]
      | disconnect b u' =>
        simp only [whereabouts]
        split
        · rename_i h2
          obtain ⟨rfl, h3⟩ := h2
          exact absurd rfl (h1.2 b h3).2.1
        · rfl
      | _ => rfl
    rw [whereabouts_cons, hl]
    exact ih fun l' h' => hc l' (by simp [h'])

theorem between_mono {n : MNet U B T H} {u : U} {k k' : Nat} {loc : Option B} (h : Between n u k loc) (hk : k ≤ k') :
    Between n u k' loc := by
  cases loc with
  | none => exact h
  | some y =>
    obtain ⟨v, hv, h⟩ := h
    exact ⟨v, Nat.le_trans hv hk, h⟩

theorem epochs_run {u : U} (b0 : B) (es : List (List (MLabel U B T H) × List (MLabel U B T H)))
    (pre : List (MLabel U B T H)) (loc : Option B) (k : Nat)
    (h : Between ((start : MNet U B T H).run pre) u k loc)
    (he : Epochs u ((start : MNet U B T H).run pre) loc es)
    (hlen : 2 * (pre.length + (flat es).length) + 2 < 2 ^ 64) (hk : k + (flat es).length + 1 < 2 ^ 64) :
    Between ((start : MNet U B T H).run (pre ++ flat es)) u (k + (flat es).length) (whereabouts u (flat es) loc) := by
  induction es generalizing pre loc k with
  | nil => simpa [flat, whereabouts] using h
  | cons p es ih =>
    obtain ⟨c, m⟩ := p
    obtain ⟨hc, hr, hturn, hq, ht, hrest⟩ := he
    have hf : flat ((c, m) :: es) = (c ++ m) ++ flat es := by simp [flat]
    rw [hf] at hlen hk ⊢
    simp only [List.length_append] at hlen hk
    rw [← Mesh.run_append _ pre c] at hr hturn hq ht hrest
    rw [← Mesh.run_append] at hq ht hrest
    have h1 := between_calm h c hc
    rw [← Mesh.run_append] at h1
    have hid := MeshFound.ident_run (pre ++ c) (start : MNet U B T H) (fun _ => rfl)
    have hirr := (MNet.inv_run (inv_start (U := U) (B := B) (T := T) (H := H)) (pre ++ c)
      (by simp only [List.length_append]; omega)).irrefl
    have hs := stable_ready hr hid hirr
    have h2 := turn_run m _ loc k (inv_ready b0 h1 hr hid) hs hturn (by omega)
    have hs2 := stable_run m _ hs hturn
    rw [← Mesh.run_append] at h2 hs2
    have h3 := between_of_inv h2 hs2 (MeshOnce.dident_run (pre ++ c ++ m) (start : MNet U B T H) (fun _ => rfl)) hq ht
    have h4 := ih (pre ++ c ++ m) (whereabouts u m loc) (k + m.length) h3 hrest
      (by simp only [List.length_append]; omega) (by omega)
    rw [whereabouts_append, whereabouts_append, whereabouts_calm u c loc hc]
    simp only [List.length_append]
    rw [show pre ++ (c ++ m ++ flat es) = pre ++ c ++ m ++ flat es by simp]
    exact between_mono h4 (by omega)

/-- What `Between` says of the whole mesh. -/
theorem between_concl {n : MNet U B T H} {u : U} {k : Nat} {loc : Option B} (h : Between n u k loc) :
    (∀ b, At n b u ↔ loc = some b) ∧
    (∀ b, (n.st b).getBrokerOfUser u = loc ∨ (n.st b).getBrokerOfUser u = none) ∧
    (∀ y x, loc = some y → Linked n y x → UsersSettled n y x → (n.st x).getBrokerOfUser u = some y) ∧
    (Ready u n → ∀ b, (n.st b).getBrokerOfUser u = loc) := by
  cases loc with
  | none =>
    have hv : ∀ b, UNet.view (n.st b) u = ⟨none, false, false⟩ := fun b => Gone.tab h b
    have hg : ∀ b, (n.st b).getBrokerOfUser u = none := by
      intro b
      show (UNet.view (n.st b) u).e.bind VV.value = none
      rw [hv]; rfl
    refine ⟨fun b => ⟨fun h => ?_, (fun h => nomatch h)⟩, fun b => Or.inl (hg b), (fun y x h => nomatch h), fun _ => hg⟩
    have h' : (UNet.view (n.st b) u).c = true := h
    rw [hv] at h'; cases h'
  | some y =>
    obtain ⟨v, _, hk⟩ := h
    obtain ⟨c1, _, c3, c4⟩ := known_concl hk
    refine ⟨fun b => ⟨fun hx => ?_, fun h => by cases h; exact c1⟩, c4, fun y' x h => by cases h; exact c3 x, fun hr b => ?_⟩
    · refine Classical.byContradiction fun hne => ?_
      have hne' : b ≠ y := fun h => hne (by rw [h])
      have hx' : (UNet.view (n.st b) u).c = true := hx
      rcases hk.atO b hne' with h1 | h1 <;> rw [h1] at hx' <;> cases hx'
    · show (UNet.view (n.st b) u).e.bind VV.value = some y
      rw [known_ready hk hr]; rfl

/-- What holds after the epochs and a last calm part. -/
theorem between_end (u : U) (es : List (List (MLabel U B T H) × List (MLabel U B T H))) (c : List (MLabel U B T H))
    (hes : Epochs u (start : MNet U B T H) none es) (hc : Calm u (whereabouts u (flat es) none) c)
    (hlen : 2 * (flat es).length + 2 < 2 ^ 64) (b0 : B) :
    Between ((start : MNet U B T H).run (flat es ++ c)) u (0 + (flat es).length) (whereabouts u (flat es ++ c) none) := by
  have h0 : Between ((start : MNet U B T H).run []) u 0 none := by
    have := unknown_start (U := U) (B := B) (T := T) (H := H) u
    exact ⟨this.ident, this.tab, fun τ hτ => Or.inl (this.task τ hτ), this.ch⟩
  have h1 := epochs_run b0 es [] none 0 h0 hes (by simp only [List.length_nil]; omega) (by omega)
  have h2 := between_calm h1 c hc
  rw [← Mesh.run_append] at h2
  rw [whereabouts_append, whereabouts_calm u c _ hc]
  exact h2

/-- **C74, partial.** A user connects, moves between brokers and leaves, any number of times, while links come and go and
brokers are restarted any number of times; but the two do not happen together: links change only while the user
stays (`Calm`), and the user changes only while links are stable, with each change announced before the next (`InTurn`). Then, also
while links are coming and going after the last epoch (`c`): the user is connected exactly to the broker where the history puts
them; every broker routes them there or nowhere; it routes them there if it is linked to that broker and has been told
everything, and every broker does once all are linked and everything about the user is said. Missing: links of the user's
broker to greater brokers that come up while the user is there (`C73_false`), changes of the user while links change
(`C74_false`, `C124_false`), changes that overlap (C24). -/
theorem C74_epochs_partial (u : U) (es : List (List (MLabel U B T H) × List (MLabel U B T H))) (c : List (MLabel U B T H))
    (hes : Epochs u (start : MNet U B T H) none es) (hc : Calm u (whereabouts u (flat es) none) c)
    (hlen : 2 * (flat es).length + 2 < 2 ^ 64) :
    let n := (start : MNet U B T H).run (flat es ++ c)
    let loc := whereabouts u (flat es ++ c) none
    (∀ b, At n b u ↔ loc = some b) ∧
    (∀ b, (n.st b).getBrokerOfUser u = loc ∨ (n.st b).getBrokerOfUser u = none) ∧
    (∀ y x, loc = some y → Linked n y x → UsersSettled n y x → (n.st x).getBrokerOfUser u = some y) ∧
    (Ready u n → ∀ b, (n.st b).getBrokerOfUser u = loc) := by
  intro n loc
  have key := fun b0 => between_concl (between_end u es c hes hc hlen b0)
  exact ⟨fun b => (key b).1 b, fun b => (key b).2.1 b, fun y => (key y).2.2.1 y, fun hr b => (key b).2.2.2 hr b⟩

/-! ### A case

First epoch: the links come up, user 7 connects to broker 0 and moves to broker 2 (`demoLinks`, `demoUsers`). Second epoch: the link
between brokers 0 and 1 fails and comes back, broker 0 is restarted and linked to both others again, and is told where the users
are; the user moves to broker 1, at version 3. In the end links fail and come back again. -/

section
variable {U T H : Type} [DecidableEq U] [DecidableEq T] [DecidableEq H]

/-- `Calm`, as a computation. -/
def calmB (u : U) (loc : Option (Fin 3)) : MLabel U (Fin 3) T H → Bool
  | .connect _ u' _ _ => u' != u
  | .disconnect b u' => u' != u || some b != loc
  | .restart b => some b != loc
  | .linkUp x x' _ _ => loc.all fun y => (x != y || !decide (y < x')) && (x' != y || !decide (y < x))
  | _ => true

theorem calmB_sound (u : U) (loc : Option (Fin 3)) (ls : List (MLabel U (Fin 3) T H)) (h : ls.all (calmB u loc) = true) :
    Calm u loc ls := by
  intro l hl
  have h1 := List.all_eq_true.1 h l hl
  cases l with
  | connect b u' hd ts =>
    have h2 : u' ≠ u := by simpa [calmB] using h1
    exact ⟨h2, fun y _ => ⟨trivial, by simp, by simp⟩⟩
  | disconnect b u' =>
    refine ⟨id, fun y e => ⟨trivial, ?_, by simp⟩⟩
    subst e
    intro e; cases e
    simp [calmB] at h1
  | restart b =>
    refine ⟨id, fun y e => ⟨trivial, by simp, ?_⟩⟩
    subst e
    intro e; cases e
    simp [calmB] at h1
  | linkUp x x' a a' =>
    refine ⟨id, fun y e => ⟨?_, by simp, by simp⟩⟩
    subst e
    simp only [calmB, Option.all_some, Bool.and_eq_true, Bool.or_eq_true, bne_iff_ne, Bool.not_eq_true',
      decide_eq_false_iff_not] at h1
    exact ⟨fun h => h1.1.resolve_left (fun h' => h' h), fun h => h1.2.resolve_left (fun h' => h' h)⟩
  | _ => exact ⟨id, fun y _ => ⟨trivial, by simp, by simp⟩⟩

end

def demoBreak : List (MLabel Nat (Fin 3) Nat Nat) :=
  [.drop 0 1, .drop 1 0, .linkUp 1 0 120 121, .drop 1 0, .drop 2 0, .restart 0, .linkUp 0 1 122 123, .linkUp 2 0 124 125,
   .fullUser 1 0, .fullUser 2 0, .fullUser 1 0, .fullUser 0 1, .fullUser 0 1, .fullUser 0 2, .send 4 true, .send 3 true,
   .send 5 true, .deliver 2 0, .deliver 1 0, .deliver 1 0]

def demoMove : List (MLabel Nat (Fin 3) Nat Nat) :=
  [.connect 1 7 130 [], .startUser 1, .readDests 6, .send 6 true, .send 6 true, .deliver 1 0, .deliver 1 2]

def demoEnd : List (MLabel Nat (Fin 3) Nat Nat) :=
  [.drop 0 1, .drop 1 0, .linkUp 0 1 140 141, .fullUser 1 0, .drop 2 0, .drop 0 2]

def demoEpochs : List (List (MLabel Nat (Fin 3) Nat Nat) × List (MLabel Nat (Fin 3) Nat Nat)) :=
  [(demoLinks, demoUsers), (demoBreak, demoMove)]

theorem demo_epochs : Epochs 7 (start : MNet Nat (Fin 3) Nat Nat) none demoEpochs := by
  refine ⟨calmB_sound _ _ _ (by decide +kernel), ⟨?_, by decide +kernel, nothingB_sound _ _ (by decide +kernel), ?_⟩,
    inTurnB_sound _ _ _ (by decide +kernel), nothingB_sound _ _ (by decide +kernel), ?_,
    calmB_sound _ _ _ (by decide +kernel), ⟨?_, by decide +kernel, nothingB_sound _ _ (by decide +kernel), ?_⟩,
    inTurnB_sound _ _ _ (by decide +kernel), nothingB_sound _ _ (by decide +kernel), ?_, trivial⟩
  · unfold Linked; decide +kernel
  · unfold Unannounced; decide +kernel
  · unfold Unannounced; decide +kernel
  · unfold Linked; decide +kernel
  · unfold Unannounced; decide +kernel
  · unfold Unannounced; decide +kernel

example : Calm 7 (whereabouts 7 (flat demoEpochs) none) demoEnd ∧ whereabouts 7 (flat demoEpochs ++ demoEnd) none = some 1 ∧
    2 * (flat demoEpochs).length + 2 < 2 ^ 64 :=
  ⟨calmB_sound _ _ _ (by decide +kernel), by decide +kernel, by decide +kernel⟩

/-- In the end everybody still has the user at broker 1, at version 3; broker 0 had lost its tables in between. -/
example : (∀ b, (((start : MNet Nat (Fin 3) Nat Nat).run (flat demoEpochs ++ demoEnd)).st b).direct.map.get 7 = some ⟨3, some 1⟩) ∧
    (((start : MNet Nat (Fin 3) Nat Nat).run (demoLinks ++ demoUsers ++ demoBreak.take 6)).st 0).direct.map.get 7 = none := by
  decide +kernel

end Verif.Props.MeshEpochs

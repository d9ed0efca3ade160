import Verif.Model.Mesh
import Verif.Lemmas.TopicSync

/-!
# Lemmas about sync tasks in a mesh: topic interest
-/

set_option linter.unusedSectionVars false

namespace Verif.MNet
open Verif Verif.Conns

variable {U B T H : Type} [DecidableEq U] [DecidableEq B] [DecidableEq T] [DecidableEq H]
  [LT B] [DecidableLT B]

/-- The message says `x` about topic `t`. -/
def Says (m : SyncMsg U B T) (t : T) (x : VV SubStatus) : Prop :=
  ∃ m', m = .topic m' ∧ m'.map.get t = some x

/-- The message, if it is a topic sync, contains only earlier or current entries of `S`. -/
def Old (m : SyncMsg U B T) (S : TopicSync T) : Prop :=
  ∀ m', m = .topic m' → Past m' S ∧ ∀ t x, m'.map.get t = some x → x.value ≠ none

/-- The topic sync map of broker `b`. -/
abbrev S (n : MNet U B T H) (b : B) : TopicSync T := (n.st b).topicSync

/-- `b'` knows entry `x` of `b` about `t`, or will be told. -/
def Covered (n : MNet U B T H) (b b' : B) (t : T) (x : VV SubStatus) : Prop :=
  (∃ e, (n.st b').brokers.get b = some e ∧ e.topicSync.map.get t = some x) ∨
  (b, b') ∈ n.fullT ∨
  (∃ (i : Nat) (τ : SyncTask U B T), n.tasks[i]? = some τ ∧ τ.here = b ∧ Says τ.msg t x ∧ ∀ ds, τ.dests = some ds → b' ∈ ds) ∨
  ∃ m ∈ n.ch b b', Says m t x

/-- Invariant for topic interest after at most `k` steps. -/
structure Inv (n : MNet U B T H) (k : Nat) : Prop where
  ident : ∀ b, (n.st b).identity = b
  irrefl : ∀ b, (n.st b).brokers.get b = none
  own : ∀ b, TInv (n.st b) k
  view : ∀ b b', (n.st b).brokers.get b' ≠ none → (n.st b').brokers.get b ≠ none → RInv (n.st b') b (n.S b)
  taskOld : ∀ (i : Nat) (τ : SyncTask U B T), n.tasks[i]? = some τ → Old τ.msg (n.S τ.here)
  chOld : ∀ b b', (n.st b).brokers.get b' ≠ none → (n.st b').brokers.get b ≠ none →
    ∀ m ∈ n.ch b b', Old m (n.S b)
  cov : ∀ b b', (n.st b).brokers.get b' ≠ none → (n.st b').brokers.get b ≠ none →
    ∀ t x, (n.S b).map.get t = some x → Covered n b b' t x

theorem inv_start : Inv (start : MNet U B T H) 0 := by
  refine ⟨fun _ => rfl, fun _ => rfl, fun b => tinv_new b, ?_, ?_, ?_, ?_⟩
  · intro b b' h; exact absurd rfl h
  · intro i τ h; simp [start] at h
  · intro b b' h; exact absurd rfl h
  · intro b b' h; exact absurd rfl h

theorem knows_iff (n : MNet U B T H) (b b' : B) :
    n.knows b b' = true ↔ (n.st b).brokers.get b' ≠ none := by
  unfold knows getBrokerConnection
  cases (n.st b).brokers.get b' <;> simp

theorem Inv.mono {n : MNet U B T H} {k l : Nat} (h : Inv n k) (hkl : k ≤ l) : Inv n l :=
  { h with own := fun b => (h.own b).mono hkl }

theorem Old.mono {m : SyncMsg U B T} {S S' : TopicSync T} (h : Old m S) (hp : Past S S') : Old m S' :=
  fun m' e => ⟨(h m' e).1.trans hp, (h m' e).2⟩

theorem rinv_mono {r : Conns U B T H} {b : B} {S S' : TopicSync T} (h : RInv r b S)
    (hp : Past S S') : RInv r b S' := by
  obtain ⟨h1, e, h2, h3, h4, h5⟩ := h
  exact ⟨h1, e, h2, h3.trans hp, h4, h5⟩

theorem rinv_congr {r r' : Conns U B T H} {b : B} {S : TopicSync T} (h : RInv r b S)
    (hidx : r'.IndexInv) (he : r'.brokers.get b = r.brokers.get b)
    (hb : ∀ t, r'.bcBrokers.Bwd b t ↔ r.bcBrokers.Bwd b t) : RInv r' b S := by
  obtain ⟨h1, e, h2, h3, h4, h5⟩ := h
  exact ⟨hidx, e, by rw [he]; exact h2, h3, h4, fun t => (hb t).trans (h5 t)⟩

/-! ## Calls -/

theorem st_act (n : MNet U B T H) (b : B) (op : Op U B T H) (x : B) :
    (n.act b op).st x = if x = b then (n.st b).step op else n.st x := rfl

theorem st_act_self (n : MNet U B T H) (b : B) (op : Op U B T H) :
    (n.act b op).st b = (n.st b).step op := by rw [st_act, if_pos rfl]

theorem st_act_ne (n : MNet U B T H) (b : B) (op : Op U B T H) {x : B} (h : x ≠ b) :
    (n.act b op).st x = n.st x := by rw [st_act, if_neg h]

theorem identity_act (n : MNet U B T H) (b : B) (op : Op U B T H) (h : ∀ b, (n.st b).identity = b)
    (x : B) : ((n.act b op).st x).identity = x := by
  rw [st_act]; split
  · rename_i e; subst e; rw [identity_step]; exact h _
  · exact h x

theorem own_act (n : MNet U B T H) (b : B) (op : Op U B T H) {k : Nat} (h : ∀ b, TInv (n.st b) k)
    (x : B) : TInv ((n.act b op).st x) (k + 1) := by
  rw [st_act]; split
  · exact tinv_step (h b) op
  · exact (h x).mono (by omega)

theorem S_act_quiet (n : MNet U B T H) (b : B) (op : Op U B T H) (hop : op ≠ .partialTopicSync)
    (x : B) : (n.act b op).S x = n.S x := by
  unfold S; rw [st_act]; split
  · rename_i e; subst e; exact (topicSync_step _ _ hop).1
  · rfl

/-- A call that concerns no broker. -/
theorem inv_quiet {n : MNet U B T H} {k : Nat} (h : Inv n k) (b : B) (op : Op U B T H)
    (hop : op ≠ .partialTopicSync) (hna : ∀ b', NotAbout b' op) : Inv (n.act b op) (k + 1) := by
  have hg : ∀ x b', ((n.act b op).st x).brokers.get b' = (n.st x).brokers.get b' := by
    intro x b'
    rw [st_act]; split
    · rename_i e; subst e; exact (notAbout_step _ b' op (h.own _).index (hna b')).1
    · rfl
  refine ⟨identity_act n b op h.ident, ?_, own_act n b op h.own, ?_, ?_, ?_, ?_⟩
  · intro x; rw [hg]; exact h.irrefl x
  · intro b1 b2 hk0 hk
    rw [hg] at hk0 hk
    rw [S_act_quiet n b op hop]
    refine rinv_congr (h.view b1 b2 hk0 hk) ((own_act n b op h.own b2).index) (hg b2 b1) ?_
    intro t
    rw [st_act]; split
    · rename_i e; subst e; exact (notAbout_step _ b1 op (h.own _).index (hna b1)).2 t
    · rfl
  · intro i τ hi; rw [S_act_quiet n b op hop]; exact h.taskOld i τ hi
  · intro b1 b2 h1 h2 m hm; rw [hg] at h1 h2; rw [S_act_quiet n b op hop]; exact h.chOld b1 b2 h1 h2 m hm
  · intro b1 b2 h1 h2 t x hx
    rw [hg] at h1 h2
    rw [S_act_quiet n b op hop] at hx
    rcases h.cov b1 b2 h1 h2 t x hx with ⟨e, h3, h4⟩ | h3
    · left; exact ⟨e, by rw [hg]; exact h3, h4⟩
    · right; exact h3

/-- `b` forgets `b'`. -/
theorem inv_remove {n : MNet U B T H} {k : Nat} (h : Inv n k) (b b' : B) :
    Inv ((n.act b (.removeBroker b')).setCh b' b []) (k + 1) := by
  have hop : (Op.removeBroker b' : Op U B T H) ≠ .partialTopicSync := by simp
  have hS : ∀ x, ((n.act b (.removeBroker b')).setCh b' b []).S x = n.S x :=
    S_act_quiet n b _ hop
  have hg : ∀ x y, (((n.act b (.removeBroker b')).setCh b' b []).st x).brokers.get y =
      if x = b ∧ y = b' then none else (n.st x).brokers.get y := by
    intro x y
    show ((n.act b (.removeBroker b')).st x).brokers.get y = _
    rw [st_act]; split
    · rename_i e; subst e
      show ((n.st x).removeBroker b').brokers.get y = _
      rw [removeBroker_brokers_get]
      by_cases hy : b' = y
      · simp [hy]
      · simp [hy, Ne.symm hy]
    · rename_i e; simp [e]
  have hch : ∀ x y m, m ∈ ((n.act b (.removeBroker b')).setCh b' b []).ch x y →
      m ∈ n.ch x y := by
    intro x y m hm
    simp only [setCh] at hm
    split at hm
    · simp at hm
    · exact hm
  refine ⟨identity_act n b _ h.ident, ?_, own_act n b _ h.own, ?_, ?_, ?_, ?_⟩
  · intro x; rw [hg, h.irrefl]; split <;> rfl
  · intro b1 b2 hk0 hk
    rw [hS]
    rw [hg] at hk hk0
    have hne : ¬ (b2 = b ∧ b1 = b') := by
      intro e; rw [if_pos e] at hk; exact hk rfl
    have hne0 : ¬ (b1 = b ∧ b2 = b') := by
      intro e; rw [if_pos e] at hk0; exact hk0 rfl
    rw [if_neg hne] at hk
    rw [if_neg hne0] at hk0
    refine rinv_congr (h.view b1 b2 hk0 hk) ((own_act n b _ h.own b2).index)
      (by rw [hg, if_neg hne]) ?_
    intro t
    show ((n.act b (.removeBroker b')).st b2).bcBrokers.Bwd b1 t ↔ _
    rw [st_act]; split
    · rename_i e; subst e
      have : b' ≠ b1 := fun e => hne ⟨rfl, e.symm⟩
      exact (notAbout_step _ b1 (.removeBroker b') (h.own _).index this).2 t
    · rfl
  · intro i τ hi; rw [hS]; exact h.taskOld i τ hi
  · intro b1 b2 h1 h2 m hm
    rw [hg] at h1 h2
    have n1 : ¬ (b1 = b ∧ b2 = b') := by
      intro e; rw [if_pos e] at h1; exact h1 rfl
    have n2 : ¬ (b2 = b ∧ b1 = b') := by
      intro e; rw [if_pos e] at h2; exact h2 rfl
    rw [if_neg n1] at h1
    rw [if_neg n2] at h2
    rw [hS]; exact h.chOld b1 b2 h1 h2 m (hch _ _ _ hm)
  · intro b1 b2 h1 h2 t x hx
    rw [hg] at h1 h2
    rw [hS] at hx
    have n1 : ¬ (b1 = b ∧ b2 = b') := by
      intro e; rw [if_pos e] at h1; exact h1 rfl
    have n2 : ¬ (b2 = b ∧ b1 = b') := by
      intro e; rw [if_pos e] at h2; exact h2 rfl
    rw [if_neg n1] at h1
    rw [if_neg n2] at h2
    rcases h.cov b1 b2 h1 h2 t x hx with ⟨e, h3, h4⟩ | h3 | h3 | ⟨m, h3, h4⟩
    · left; exact ⟨e, by rw [hg, if_neg n2]; exact h3, h4⟩
    · right; left; exact h3
    · right; right; left; exact h3
    · right; right; right
      refine ⟨m, ?_, h4⟩
      simp only [setCh]
      rw [if_neg (fun e => n2 ⟨e.2, e.1⟩)]; exact h3

/-- `b` registers `b'` (first half of a new link), where `b'` is then to register `b`. -/
theorem get_addBroker (s : Conns U B T H) (b : B) (h : H) (y : B) :
    (s.addBroker b h).brokers.get y = if b = y then some ⟨h, VMap.new 0⟩ else s.brokers.get y := by
  simp only [addBroker, AMap.get_insert]
  split
  · rfl
  · rw [removeBroker_brokers_get]; rename_i e; simp [e]

theorem bwd_addBroker (s : Conns U B T H) (hidx : s.IndexInv) (b : B) (h : H) (y : B) (t : T) :
    (s.addBroker b h).bcBrokers.Bwd y t ↔ y ≠ b ∧ s.bcBrokers.Bwd y t := by
  simp only [addBroker, removeBroker_bcBrokers]
  rw [RMap.bwd_removeKey hidx.2]

/-- A new link. -/
theorem inv_linkUp {n : MNet U B T H} {k : Nat} (h : Inv n k) (b b' : B) (c c' : H) (hne : b ≠ b') :
    Inv (n.step (.linkUp b b' c c')) (k + 1 + 1) := by
  have hne' : b' ≠ b := fun e => hne e.symm
  generalize hn' : n.step (.linkUp b b' c c') = n'
  have hst : n'.st = ((n.act b (.addBroker b' c)).act b' (.addBroker b c')).st := by
    rw [← hn']; simp only [step, if_neg hne]; rfl
  have htasks : n'.tasks = n.tasks := by
    rw [← hn']; simp only [step, if_neg hne]; rfl
  have hfull : n'.fullT = (b, b') :: (b', b) :: n.fullT := by
    rw [← hn']; simp only [step, if_neg hne]; rfl
  have hch : ∀ x y, n'.ch x y = if x = b ∧ y = b' ∨ x = b' ∧ y = b then [] else n.ch x y := by
    intro x y
    rw [← hn']; simp only [step, if_neg hne, setCh, act]
    by_cases h1 : x = b' ∧ y = b
    · simp [h1]
    · by_cases h2 : x = b ∧ y = b'
      · simp [h2]
      · simp [h1, h2]
  have hS : ∀ x, n'.S x = n.S x := by
    intro x
    show (n'.st x).topicSync = _
    rw [hst]
    exact (S_act_quiet _ b' _ (by simp) x).trans (S_act_quiet n b _ (by simp) x)
  have hsb : n'.st b = (n.st b).addBroker b' c := by
    rw [hst, st_act_ne _ _ _ hne, st_act_self]; rfl
  have hsb' : n'.st b' = (n.st b').addBroker b c' := by
    rw [hst, st_act_self, st_act_ne _ _ _ hne']; rfl
  have hso : ∀ x, x ≠ b → x ≠ b' → n'.st x = n.st x := by
    intro x h1 h2
    rw [hst, st_act_ne _ _ _ h2, st_act_ne _ _ _ h1]
  have hid : ∀ x, (n'.st x).identity = x := by
    rw [hst]; exact identity_act _ b' _ (identity_act n b _ h.ident)
  have hown : ∀ x, TInv (n'.st x) (k + 1 + 1) := by
    rw [hst]; exact own_act _ b' _ (own_act n b _ h.own)
  have hfresh : ∀ (x y : B) (hd : H), n'.st x = (n.st x).addBroker y hd → RInv (n'.st x) y (n'.S y) := by
    intro x y hd e
    refine ⟨(hown x).index, ⟨hd, VMap.new 0⟩, ?_, ?_, ?_, ?_⟩
    · rw [e, get_addBroker, if_pos rfl]
    · intro t z hz; simp [VMap.new] at hz
    · intro t z hz; simp [VMap.new] at hz
    · intro t
      rw [e, bwd_addBroker _ (h.own x).index]
      simp [VMap.get, VMap.new]
  have hg : ∀ x y, ¬ (x = b ∧ y = b') → ¬ (x = b' ∧ y = b) →
      (n'.st x).brokers.get y = (n.st x).brokers.get y ∧
      ∀ t, (n'.st x).bcBrokers.Bwd y t ↔ (n.st x).bcBrokers.Bwd y t := by
    intro x y h1 h2
    by_cases hx : x = b
    · subst hx
      have hy : ¬ y = b' := fun e => h1 ⟨rfl, e⟩
      rw [hsb]
      refine ⟨by rw [get_addBroker, if_neg (Ne.symm hy)], fun t => ?_⟩
      rw [bwd_addBroker _ (h.own x).index]; simp [hy]
    · by_cases hx' : x = b'
      · subst hx'
        have hy : ¬ y = b := fun e => h2 ⟨rfl, e⟩
        rw [hsb']
        refine ⟨by rw [get_addBroker, if_neg (Ne.symm hy)], fun t => ?_⟩
        rw [bwd_addBroker _ (h.own x).index]; simp [hy]
      · rw [hso x hx hx']; exact ⟨rfl, fun _ => Iff.rfl⟩
  refine ⟨hid, ?_, hown, ?_, ?_, ?_, ?_⟩
  · intro x
    rw [(hg x x (by rintro ⟨rfl, e⟩; exact hne e) (by rintro ⟨rfl, e⟩; exact hne' e)).1]
    exact h.irrefl x
  · intro b1 b2 hk0 hk
    by_cases h1 : b2 = b ∧ b1 = b'
    · obtain ⟨rfl, rfl⟩ := h1; exact hfresh _ _ _ hsb
    · by_cases h2 : b2 = b' ∧ b1 = b
      · obtain ⟨rfl, rfl⟩ := h2; exact hfresh _ _ _ hsb'
      · obtain ⟨g1, g2⟩ := hg b2 b1 h1 h2
        have g0 := (hg b1 b2 (fun e => h2 ⟨e.2, e.1⟩) (fun e => h1 ⟨e.2, e.1⟩)).1
        rw [g1] at hk
        rw [g0] at hk0
        rw [hS]
        exact rinv_congr (h.view b1 b2 hk0 hk) (hown b2).index g1 g2
  · intro i τ hi; rw [hS]; rw [htasks] at hi; exact h.taskOld i τ hi
  · intro b1 b2 k1 k2 m hm
    rw [hS]; rw [hch] at hm
    split at hm
    · simp at hm
    · rename_i hne2
      have e1 : ¬ (b1 = b ∧ b2 = b') := fun e => hne2 (Or.inl e)
      have e2 : ¬ (b1 = b' ∧ b2 = b) := fun e => hne2 (Or.inr e)
      rw [(hg b1 b2 e1 e2).1] at k1
      rw [(hg b2 b1 (fun e => e2 ⟨e.2, e.1⟩) (fun e => e1 ⟨e.2, e.1⟩)).1] at k2
      exact h.chOld b1 b2 k1 k2 m hm
  · intro b1 b2 h1 h2 t x hx
    rw [hS] at hx
    by_cases e1 : b1 = b ∧ b2 = b'
    · right; left; rw [hfull]; simp [e1]
    · by_cases e2 : b1 = b' ∧ b2 = b
      · right; left; rw [hfull]; simp [e2]
      · have g1 := (hg b1 b2 e1 e2).1
        have g2 := (hg b2 b1 (fun e => e2 ⟨e.2, e.1⟩) (fun e => e1 ⟨e.2, e.1⟩)).1
        rw [g1] at h1
        rw [g2] at h2
        rcases h.cov b1 b2 h1 h2 t x hx with ⟨e, h3, h4⟩ | h3 | ⟨i, τ, h3, h4⟩ | ⟨m, h3, h4⟩
        · left; exact ⟨e, by rw [g2]; exact h3, h4⟩
        · right; left; rw [hfull]; simp [h3]
        · right; right; left; exact ⟨i, τ, by rw [htasks]; exact h3, h4⟩
        · right; right; right
          refine ⟨m, ?_, h4⟩
          rw [hch, if_neg (by rintro (e | e); exact e1 e; exact e2 e)]; exact h3

/-! ## Syncs -/

theorem getElem?_append_some {A : Type} {l : List A} {i : Nat} {a x : A} (h : (l ++ [x])[i]? = some a) :
    l[i]? = some a ∨ (i = l.length ∧ a = x) := by
  rcases Nat.lt_or_ge i l.length with h1 | h1
  · left; rw [List.getElem?_append_left h1] at h; exact h
  · right
    rw [List.getElem?_append_right h1] at h
    have h2 : i - l.length = 0 := by
      rcases Nat.eq_zero_or_pos (i - l.length) with h2 | h2
      · exact h2
      · rw [List.getElem?_eq_none (by simp; omega)] at h; simp at h
    rw [h2] at h
    simp at h
    exact ⟨by omega, h.symm⟩

theorem getElem?_append_of_some {A : Type} {l : List A} {i : Nat} {a x : A} (h : l[i]? = some a) :
    (l ++ [x])[i]? = some a := by
  rw [List.getElem?_append_left (List.getElem?_eq_some_iff.1 h).1]; exact h

/-- A new sync whose message is old. -/
theorem inv_spawn {n : MNet U B T H} {k : Nat} (h : Inv n k) (τ : SyncTask U B T)
    (ho : Old τ.msg (n.S τ.here)) : Inv (n.spawn τ) k := by
  refine ⟨h.ident, h.irrefl, h.own, h.view, ?_, h.chOld, ?_⟩
  · intro i σ hi
    rcases getElem?_append_some hi with h1 | ⟨_, rfl⟩
    · exact h.taskOld i σ h1
    · exact ho
  · intro b b' h1 h2 t x hx
    rcases h.cov b b' h1 h2 t x hx with h3 | h3 | ⟨i, σ, h3, h4⟩ | h3
    · left; exact h3
    · right; left; exact h3
    · right; right; left; exact ⟨i, σ, getElem?_append_of_some h3, h4⟩
    · right; right; right; exact h3

theorem inv_startTopic {n : MNet U B T H} {k : Nat} (h : Inv n k) (hk : k + 1 < 2 ^ 64) (b : B) :
    Inv (n.step (.startTopic b)) (k + 1) := by
  obtain ⟨_, _, _, _, h5, h6⟩ := partialTopicSync_spec (n.st b) (h.own b).index (h.own b).clean
  have hna : ∀ b', NotAbout b' (Op.partialTopicSync : Op U B T H) := fun _ => trivial
  have hg : ∀ x y, ((n.act b .partialTopicSync).st x).brokers.get y = (n.st x).brokers.get y ∧
      ∀ t, ((n.act b .partialTopicSync).st x).bcBrokers.Bwd y t ↔ (n.st x).bcBrokers.Bwd y t := by
    intro x y
    rw [st_act]; split
    · rename_i e; subst e
      exact notAbout_step _ y .partialTopicSync (h.own _).index (hna y)
    · exact ⟨rfl, fun _ => Iff.rfl⟩
  have hpast : ∀ x, Past (n.S x) ((n.act b .partialTopicSync).S x) := by
    intro x
    unfold S; rw [st_act]; split
    · rename_i e; subst e; exact past_step (h.own _) hk _
    · exact Past.refl _
  have hown := own_act n b .partialTopicSync h.own
  -- what does not concern the new message
  have hbase : ∀ b1 b2, ((n.act b .partialTopicSync).st b1).brokers.get b2 ≠ none →
      ((n.act b .partialTopicSync).st b2).brokers.get b1 ≠ none →
      RInv ((n.act b .partialTopicSync).st b2) b1 ((n.act b .partialTopicSync).S b1) := by
    intro b1 b2 hk0 hk
    rw [(hg b2 b1).1] at hk
    rw [(hg b1 b2).1] at hk0
    exact rinv_mono (rinv_congr (h.view b1 b2 hk0 hk) (hown b2).index (hg b2 b1).1 (hg b2 b1).2) (hpast b1)
  have hcov : ∀ b1 b2, ((n.act b .partialTopicSync).st b1).brokers.get b2 ≠ none →
      ((n.act b .partialTopicSync).st b2).brokers.get b1 ≠ none →
      ∀ t x, (n.S b1).map.get t = some x → Covered (n.act b .partialTopicSync) b1 b2 t x := by
    intro b1 b2 h1 h2 t x hx
    rw [(hg b1 b2).1] at h1
    rw [(hg b2 b1).1] at h2
    rcases h.cov b1 b2 h1 h2 t x hx with ⟨e, h3, h4⟩ | h3
    · left; exact ⟨e, by rw [(hg b2 b1).1]; exact h3, h4⟩
    · right; exact h3
  simp only [step]
  cases hr : (n.st b).getPartialTopicSync.2 with
  | none =>
    rw [hr] at h6
    simp only []
    refine ⟨identity_act n b _ h.ident, fun x => (hg x x).1.trans (h.irrefl x), hown, hbase, ?_, ?_, ?_⟩
    · intro i τ hi; exact (h.taskOld i τ hi).mono (hpast _)
    · intro b1 b2 h1 h2 m hm
      have h1' : ((n.act b .partialTopicSync).st b1).brokers.get b2 ≠ none := h1
      have h2' : ((n.act b .partialTopicSync).st b2).brokers.get b1 ≠ none := h2
      rw [(hg b1 b2).1] at h1'
      rw [(hg b2 b1).1] at h2'
      exact (h.chOld b1 b2 h1' h2' m hm).mono (hpast _)
    · intro b1 b2 h1 h2 t x hx
      apply hcov b1 b2 h1 h2 t x
      have : (n.act b .partialTopicSync).S b1 = (n.act b .partialTopicSync).S b1 := rfl
      revert hx
      unfold S
      rw [st_act]; split
      · rename_i e; subst e
        intro hx
        simp only [Conns.step] at hx
        rw [h5] at hx
        have h7 := h6 t
        rw [if_neg (by rintro ⟨h8, h9⟩; exact h9 (h7.2 h8)),
          if_neg (by rintro ⟨h8, h9⟩; exact h9 (h7.1 h8))] at hx
        exact hx
      · exact fun hx => hx
  | some m =>
    rw [hr] at h6
    simp only []
    have hm : ∀ t x, m.map.get t = some x → ((n.act b .partialTopicSync).S b).map.get t = some x := by
      intro t x hx
      rw [h6.2] at hx
      split at hx
      · unfold S; rw [st_act_self]; exact hx
      · simp at hx
    refine ⟨identity_act n b _ h.ident, fun x => (hg x x).1.trans (h.irrefl x), hown, hbase, ?_, ?_, ?_⟩
    · intro i τ hi
      rcases getElem?_append_some hi with h1 | ⟨_, rfl⟩
      · exact (h.taskOld i τ h1).mono (hpast _)
      · rintro m' ⟨⟩
        refine ⟨fun t x hx => ⟨x, hm t x hx, Or.inr rfl⟩, fun t x hx => ?_⟩
        exact ((hown b).ent t x (hm t x hx)).1
    · intro b1 b2 h1 h2 m hm
      have h1' : ((n.act b .partialTopicSync).st b1).brokers.get b2 ≠ none := h1
      have h2' : ((n.act b .partialTopicSync).st b2).brokers.get b1 ≠ none := h2
      rw [(hg b1 b2).1] at h1'
      rw [(hg b2 b1).1] at h2'
      exact (h.chOld b1 b2 h1' h2' m hm).mono (hpast _)
    · intro b1 b2 h1 h2 t x hx
      have hlift : Covered (n.act b .partialTopicSync) b1 b2 t x →
          Covered ((n.act b .partialTopicSync).spawn ⟨b, .topic m, none⟩) b1 b2 t x := by
        rintro (h3 | h3 | ⟨i, σ, h3, h4⟩ | h3)
        · left; exact h3
        · right; left; exact h3
        · right; right; left; exact ⟨i, σ, getElem?_append_of_some h3, h4⟩
        · right; right; right; exact h3
      by_cases hb : b1 = b
      · subst hb
        have hx' : ((n.st b1).getPartialTopicSync.1).topicSync.map.get t = some x := by
          have : ((n.act b1 .partialTopicSync).S b1).map.get t = some x := hx
          unfold S at this; rw [st_act_self] at this; exact this
        by_cases hc : ((n.st b1).LocalTopic t ∧ t ∉ (n.st b1).prev) ∨
            (t ∈ (n.st b1).prev ∧ ¬ (n.st b1).LocalTopic t)
        · right; right; left
          refine ⟨n.tasks.length, ⟨b1, .topic m, none⟩, ?_, rfl, ⟨m, rfl, ?_⟩, by simp⟩
          · simp [spawn, act]
          · rw [h6.2, if_pos hc]; exact hx'
        · apply hlift
          apply hcov b1 b2 h1 h2 t x
          rw [h5, if_neg (fun h8 => hc (Or.inl h8)), if_neg (fun h8 => hc (Or.inr h8))] at hx'
          exact hx'
      · apply hlift
        apply hcov b1 b2 h1 h2 t x
        have : ((n.act b .partialTopicSync).S b1).map.get t = some x := hx
        unfold S at this; rw [st_act_ne _ _ _ hb] at this; exact this

theorem inv_fullTopic {n : MNet U B T H} {k : Nat} (h : Inv n k) (b b' : B) :
    Inv (n.step (.fullTopic b b')) k := by
  simp only [step]
  split
  · rename_i hmem
    cases hf : (n.st b).getFullTopicSync with
    | none =>
      simp only []
      refine ⟨h.ident, h.irrefl, h.own, h.view, h.taskOld, h.chOld, ?_⟩
      intro b1 b2 h1 h2 t x hx
      rcases h.cov b1 b2 h1 h2 t x hx with h3 | h3 | h3 | h3
      · left; exact h3
      · by_cases e : (b1, b2) = (b, b')
        · exfalso
          cases e
          unfold getFullTopicSync at hf
          split at hf
          · rename_i he
            rw [AMap.isEmpty_iff] at he
            have := he t
            have hx' : (n.st b).topicSync.map.get t = some x := hx
            rw [this] at hx'; simp at hx'
          · simp at hf
        · right; left
          exact (List.mem_erase_of_ne e).2 h3
      · right; right; left; exact h3
      · right; right; right; exact h3
    | some m =>
      have hm : m = n.S b := by
        unfold getFullTopicSync at hf
        split at hf
        · simp at hf
        · exact (Option.some.inj hf).symm
      simp only []
      refine ⟨h.ident, h.irrefl, h.own, h.view, ?_, h.chOld, ?_⟩
      · intro i τ hi
        rcases getElem?_append_some hi with h1 | ⟨_, rfl⟩
        · exact h.taskOld i τ h1
        · rintro m' ⟨⟩
          rw [hm]
          exact ⟨Past.refl _, fun t x hx => ((h.own b).ent t x hx).1⟩
      · intro b1 b2 h1 h2 t x hx
        rcases h.cov b1 b2 h1 h2 t x hx with h3 | h3 | ⟨i, σ, h3, h4⟩ | h3
        · left; exact h3
        · by_cases e : (b1, b2) = (b, b')
          · cases e
            right; right; left
            refine ⟨n.tasks.length, ⟨b, .topic m, some [b']⟩, by simp [spawn], rfl, ⟨m, rfl, ?_⟩, ?_⟩
            · rw [hm]; exact hx
            · rintro ds ⟨⟩; simp
          · right; left
            exact (List.mem_erase_of_ne e).2 h3
        · right; right; left; exact ⟨i, σ, getElem?_append_of_some h3, h4⟩
        · right; right; right; exact h3
  · exact h

theorem inv_fullUser {n : MNet U B T H} {k : Nat} (h : Inv n k) (b b' : B) :
    Inv (n.step (.fullUser b b')) k := by
  simp only [step]
  split
  · cases (n.st b).getFullUserSync with
    | none => exact ⟨h.ident, h.irrefl, h.own, h.view, h.taskOld, h.chOld, h.cov⟩
    | some m =>
      exact inv_spawn (n := { n with fullU := n.fullU.erase (b, b') })
        ⟨h.ident, h.irrefl, h.own, h.view, h.taskOld, h.chOld, h.cov⟩ _ (by rintro m' ⟨⟩)
  · exact h

/-- Progress of a sync that does not lose anything. -/
theorem inv_setTask {n : MNet U B T H} {k : Nat} (h : Inv n k) (i : Nat) (τ τ' : SyncTask U B T)
    (hi : n.tasks[i]? = some τ) (hh : τ'.here = τ.here) (hm : τ'.msg = τ.msg)
    (hlose : ∀ b', (n.st τ.here).brokers.get b' ≠ none → (∀ ds, τ.dests = some ds → b' ∈ ds) →
      ∀ ds, τ'.dests = some ds → b' ∈ ds) :
    Inv { n with tasks := n.tasks.set i τ' } k := by
  have hset : ∀ j, (n.tasks.set i τ')[j]? = if j = i then some τ' else n.tasks[j]? := by
    intro j
    by_cases e : j = i
    · subst e
      rw [if_pos rfl, List.getElem?_set_self (List.getElem?_eq_some_iff.1 hi).1]
    · rw [if_neg e, List.getElem?_set_ne (Ne.symm e)]
  refine ⟨h.ident, h.irrefl, h.own, h.view, ?_, h.chOld, ?_⟩
  · intro j σ hj
    have hj' : (n.tasks.set i τ')[j]? = some σ := hj
    rw [hset] at hj'
    split at hj'
    · cases hj'
      have := h.taskOld i τ hi
      rw [hm]
      show Old τ.msg (n.S τ'.here)
      rw [hh]; exact this
    · exact h.taskOld j σ hj'
  · intro b b' h1 h2 t x hx
    rcases h.cov b b' h1 h2 t x hx with h3 | h3 | ⟨j, σ, h3, h4, h5, h6⟩ | h3
    · left; exact h3
    · right; left; exact h3
    · right; right; left
      by_cases e : j = i
      · subst e
        rw [hi] at h3; cases h3
        refine ⟨j, τ', ?_, hh.trans h4, hm ▸ h5, ?_⟩
        · show (n.tasks.set j τ')[j]? = _
          rw [hset, if_pos rfl]
        · rw [← h4] at h1
          exact hlose b' h1 h6
      · refine ⟨j, σ, ?_, h4, h5, h6⟩
        show (n.tasks.set i τ')[j]? = _
        rw [hset, if_neg e]; exact h3
    · right; right; right; exact h3

theorem inv_readDests {n : MNet U B T H} {k : Nat} (h : Inv n k) (i : Nat) :
    Inv (n.step (.readDests i)) k := by
  simp only [step]
  split
  · rename_i b m hi
    refine inv_setTask h i _ _ hi rfl rfl ?_
    intro b' hb' _ ds hds
    cases hds
    exact AMap.mem_keys.2 (by
      show ((n.st b).brokers.get b').isSome
      have hb'' : (n.st b).brokers.get b' ≠ none := hb'
      cases hh : (n.st b).brokers.get b' with
      | none => exact absurd hh hb''
      | some _ => rfl)
  · exact h

theorem inv_send {n : MNet U B T H} {k : Nat} (h : Inv n k) (i : Nat) (ok : Bool) :
    Inv (n.step (.send i ok)) (k + 1) := by
  simp only [step]
  split
  · rename_i b m d ds hi
    have hset : ∀ j, (n.tasks.set i ⟨b, m, some ds⟩)[j]? =
        if j = i then some ⟨b, m, some ds⟩ else n.tasks[j]? := by
      intro j
      by_cases e : j = i
      · subst e
        rw [if_pos rfl, List.getElem?_set_self (List.getElem?_eq_some_iff.1 hi).1]
      · rw [if_neg e, List.getElem?_set_ne (Ne.symm e)]
    by_cases hk : n.knows b d = true
    · rw [if_pos hk]
      cases ok with
      | true =>
        simp only [if_true]
        -- the message moves from the task to the queue
        have hchm : ∀ x y z, z ∈ n.ch x y → z ∈ ((({ n with tasks := n.tasks.set i ⟨b, m, some ds⟩ } :
            MNet U B T H).setCh b d (n.ch b d ++ [m])).ch x y) := by
          intro x y z hz
          simp only [setCh]
          split
          · rename_i e; rw [e.1, e.2] at hz; simp [hz]
          · exact hz
        refine Inv.mono (k := k) ⟨h.ident, h.irrefl, h.own, h.view, ?_, ?_, ?_⟩ (by omega)
        · intro j σ hj
          have hj' : (n.tasks.set i ⟨b, m, some ds⟩)[j]? = some σ := hj
          rw [hset] at hj'
          split at hj'
          · cases hj'; exact h.taskOld i ⟨b, m, some (d :: ds)⟩ hi
          · exact h.taskOld j σ hj'
        · intro b1 b2 k1 k2 z hz
          simp only [setCh] at hz
          split at hz
          · rename_i e
            obtain ⟨rfl, rfl⟩ := e
            rcases List.mem_append.1 hz with h1 | h1
            · exact h.chOld _ _ k1 k2 z h1
            · rw [List.mem_singleton] at h1; subst h1; exact h.taskOld i _ hi
          · exact h.chOld b1 b2 k1 k2 z hz
        · intro b1 b2 h1 h2 t x hx
          rcases h.cov b1 b2 h1 h2 t x hx with h3 | h3 | ⟨j, σ, h3, h4, h5, h6⟩ | ⟨z, h3, h4⟩
          · left; exact h3
          · right; left; exact h3
          · by_cases e : j = i
            · subst e
              rw [hi] at h3; cases h3
              have h7 := h6 _ rfl
              simp only [] at h4
              subst h4
              rcases List.mem_cons.1 h7 with rfl | h7
              · right; right; right
                refine ⟨m, ?_, h5⟩
                simp [setCh]
              · right; right; left
                refine ⟨j, ⟨b, m, some ds⟩, ?_, rfl, h5, ?_⟩
                · show (n.tasks.set j _)[j]? = _
                  rw [hset, if_pos rfl]
                · rintro ds' ⟨⟩; exact h7
            · right; right; left
              refine ⟨j, σ, ?_, h4, h5, h6⟩
              show (n.tasks.set i _)[j]? = _
              rw [hset, if_neg e]; exact h3
          · right; right; right
            exact ⟨z, hchm _ _ _ h3, h4⟩
      | false =>
        simp only [Bool.false_eq_true, if_false]
        -- first forget the peer, then advance the task
        have h' := inv_remove h b d
        have := inv_setTask h' i ⟨b, m, some (d :: ds)⟩ ⟨b, m, some ds⟩ hi rfl rfl (by
          intro b' hb' hds ds' e
          cases e
          rcases List.mem_cons.1 (hds _ rfl) with rfl | h1
          · exfalso
            apply hb'
            show (((n.act b (.removeBroker b')).st b).brokers.get b') = none
            rw [st_act_self]
            show ((n.st b).removeBroker b').brokers.get b' = none
            rw [removeBroker_brokers_get, if_pos rfl]
          · exact h1)
        exact this
    · rw [if_neg hk]
      refine Inv.mono (k := k) (inv_setTask h i _ ⟨b, m, some ds⟩ hi rfl rfl ?_) (by omega)
      intro b' hb' hds ds' e
      cases e
      rcases List.mem_cons.1 (hds _ rfl) with rfl | h1
      · exact absurd ((knows_iff n b b').2 hb') hk
      · exact h1
  · exact h.mono (by omega)

/-! ## Deliveries -/

/-- Taking a user sync off a queue. -/
theorem inv_pop {n : MNet U B T H} {k : Nat} (h : Inv n k) (b b' : B) (q : List (SyncMsg U B T))
    (hq : ∀ z ∈ q, z ∈ n.ch b b')
    (hlose : (n.st b).brokers.get b' ≠ none → ∀ z ∈ n.ch b b', z ∈ q ∨ ∀ t x, Says z t x → (n.S b).map.get t = some x →
      ∃ e, (n.st b').brokers.get b = some e ∧ e.topicSync.map.get t = some x) :
    Inv (n.setCh b b' q) k := by
  refine ⟨h.ident, h.irrefl, h.own, h.view, h.taskOld, ?_, ?_⟩
  · intro b1 b2 k1 k2 z hz
    simp only [setCh] at hz
    split at hz
    · rename_i e; obtain ⟨rfl, rfl⟩ := e; exact h.chOld _ _ k1 k2 z (hq z hz)
    · exact h.chOld b1 b2 k1 k2 z hz
  · intro b1 b2 h1 h2 t x hx
    rcases h.cov b1 b2 h1 h2 t x hx with h3 | h3 | h3 | ⟨z, h3, h4⟩
    · left; exact h3
    · right; left; exact h3
    · right; right; left; exact h3
    · by_cases e : b1 = b ∧ b2 = b'
      · obtain ⟨rfl, rfl⟩ := e
        rcases hlose h1 z h3 with h5 | h5
        · right; right; right
          exact ⟨z, by simp [setCh, h5], h4⟩
        · left; exact h5 t x h4 hx
      · right; right; right
        exact ⟨z, by simp only [setCh]; rw [if_neg e]; exact h3, h4⟩

/-- `b'` applies a topic sync of `b`. -/
theorem inv_applyTopic {n : MNet U B T H} {k : Nat} (h : Inv n k) (b b' : B) (m : TopicSync T)
    (hk : (n.st b').brokers.get b ≠ none)
    (ho : (n.st b).brokers.get b' ≠ none → Old (.topic m : SyncMsg U B T) (n.S b)) :
    Inv (n.act b' (.applyTopicSync b m)) (k + 1) ∧
    ((n.st b).brokers.get b' ≠ none → ∀ t x, m.map.get t = some x → (n.S b).map.get t = some x →
      ∃ e, ((n.act b' (.applyTopicSync b m)).st b').brokers.get b = some e ∧
        e.topicSync.map.get t = some x) := by
  have hop : (Op.applyTopicSync b m : Op U B T H) ≠ .partialTopicSync := by simp
  have hS := S_act_quiet n b' (.applyTopicSync b m) hop
  have hne : b ≠ b' := by
    rintro rfl; exact hk (h.irrefl b)
  have hr : (n.st b).brokers.get b' ≠ none → _ := fun hk0 =>
    rinv_apply (n.st b') b (n.S b) m (h.view b b' hk0 hk) (ho hk0 m rfl).1 (ho hk0 m rfl).2
  obtain ⟨e0, he0⟩ : ∃ e, (n.st b').brokers.get b = some e := by
    cases hh : (n.st b').brokers.get b with
    | none => exact absurd hh hk
    | some e => exact ⟨e, rfl⟩
  have hst : (n.act b' (.applyTopicSync b m)).st b' = (n.st b').applyTopicSync b m := by
    rw [st_act_self]; rfl
  have hg : ∀ x y, ¬ (x = b' ∧ y = b) →
      ((n.act b' (.applyTopicSync b m)).st x).brokers.get y = (n.st x).brokers.get y ∧
      ∀ t, ((n.act b' (.applyTopicSync b m)).st x).bcBrokers.Bwd y t ↔ (n.st x).bcBrokers.Bwd y t := by
    intro x y hxy
    by_cases hx : x = b'
    · subst hx
      rw [st_act_self]
      have : b ≠ y := fun e => hxy ⟨rfl, e.symm⟩
      exact notAbout_step _ y (.applyTopicSync b m) (h.own x).index this
    · rw [st_act_ne _ _ _ hx]; exact ⟨rfl, fun _ => Iff.rfl⟩
  have hcur : (n.st b).brokers.get b' ≠ none → ∃ e1, ((n.st b').applyTopicSync b m).brokers.get b = some e1 ∧
      ∀ t x, (e0.topicSync.map.get t = some x ∨ m.map.get t = some x) →
      (n.S b).map.get t = some x → e1.topicSync.map.get t = some x := by
    intro hk0
    obtain ⟨r1, r2⟩ := hr hk0
    obtain ⟨e1, he1, _⟩ := r1.view
    exact ⟨e1, he1, fun t x hor hx => r2 e0 e1 he0 he1 t x hx hor⟩
  have hnone : ∀ x y, ((n.act b' (.applyTopicSync b m)).st x).brokers.get y ≠ none →
      (n.st x).brokers.get y ≠ none := by
    intro x y hxy
    by_cases e : x = b' ∧ y = b
    · rw [e.1, e.2]; exact hk
    · rw [(hg x y e).1] at hxy; exact hxy
  refine ⟨⟨identity_act n b' _ h.ident, ?_, own_act n b' _ h.own, ?_, ?_, ?_, ?_⟩, ?_⟩
  · intro x
    rw [(hg x x (by rintro ⟨rfl, e⟩; exact hne e.symm)).1]; exact h.irrefl x
  · intro b1 b2 hk0 hk'
    rw [hS]
    by_cases e : b2 = b' ∧ b1 = b
    · obtain ⟨rfl, rfl⟩ := e
      rw [hst]; exact (hr (hnone _ _ hk0)).1
    · exact rinv_congr (h.view b1 b2 (hnone _ _ hk0) (hnone _ _ hk')) (own_act n b' _ h.own b2).index (hg b2 b1 e).1
        (hg b2 b1 e).2
  · intro i τ hi; rw [hS]; exact h.taskOld i τ hi
  · intro b1 b2 k1 k2 z hz; rw [hS]; exact h.chOld b1 b2 (hnone _ _ k1) (hnone _ _ k2) z hz
  · intro b1 b2 h1 h2 t x hx
    rw [hS] at hx
    rcases h.cov b1 b2 (hnone _ _ h1) (hnone _ _ h2) t x hx with ⟨e, h3, h4⟩ | h3
    · left
      by_cases eq : b2 = b' ∧ b1 = b
      · obtain ⟨rfl, rfl⟩ := eq
        obtain ⟨e1, he1, hcur⟩ := hcur (hnone _ _ h1)
        refine ⟨e1, by rw [hst]; exact he1, ?_⟩
        rw [he0] at h3; cases h3
        exact hcur t x (Or.inl h4) hx
      · exact ⟨e, by rw [(hg b2 b1 eq).1]; exact h3, h4⟩
    · right; exact h3
  · intro hk0 t x hm hx
    obtain ⟨e1, he1, hcur⟩ := hcur hk0
    exact ⟨e1, by rw [hst]; exact he1, hcur t x (Or.inr hm) hx⟩

theorem inv_deliver {n : MNet U B T H} {k : Nat} (h : Inv n k) (b b' : B) :
    Inv (n.step (.deliver b b')) (k + 1) := by
  simp only [step]
  split
  · rename_i hk
    rw [knows_iff] at hk
    cases hq : n.ch b b' with
    | nil => exact h.mono (by omega)
    | cons m rest =>
      have hmem : ∀ z ∈ rest, z ∈ n.ch b b' := by
        intro z hz; rw [hq]; exact List.mem_cons_of_mem _ hz
      cases m with
      | user m =>
        simp only []
        have h' := inv_quiet h b' (.applyUserSync m) (by simp) (fun _ => trivial)
        refine inv_pop h' b b' rest hmem ?_
        intro _ z hz
        rw [show (n.act b' (.applyUserSync m)).ch b b' = n.ch b b' from rfl, hq] at hz
        rcases List.mem_cons.1 hz with rfl | h1
        · right; rintro t x ⟨m', e, _⟩; cases e
        · left; exact h1
      | topic m =>
        simp only []
        obtain ⟨h', hcur⟩ := inv_applyTopic h b b' m hk
          (fun hk0 => h.chOld b b' hk0 hk (.topic m) (by rw [hq]; exact List.mem_cons_self ..))
        refine inv_pop h' b b' rest hmem ?_
        intro hk0 z hz
        have hne : b ≠ b' := by rintro rfl; exact hk (h.irrefl b)
        rw [st_act_ne _ _ _ hne] at hk0
        rw [show (n.act b' (.applyTopicSync b m)).ch b b' = n.ch b b' from rfl, hq] at hz
        rcases List.mem_cons.1 hz with rfl | h1
        · right
          rintro t x ⟨m', e, hx⟩ hS
          cases e
          rw [S_act_quiet n b' _ (by simp)] at hS
          exact hcur hk0 t x hx hS
        · left; exact h1
  · exact h.mono (by omega)

/-- A restart: nobody is linked with `b` afterwards. -/
theorem inv_restart {n : MNet U B T H} {k : Nat} (h : Inv n k) (b : B) :
    Inv (n.step (.restart b)) k := by
  have hst : ∀ x, (n.step (.restart b)).st x = if x = b then Conns.new b else n.st x := fun _ => rfl
  have hself : ∀ y, ((n.step (.restart b)).st b).brokers.get y = none := by
    intro y; rw [hst, if_pos rfl]; rfl
  have hne : ∀ x y, ((n.step (.restart b)).st x).brokers.get y ≠ none → x ≠ b := by
    rintro x y h1 rfl; exact h1 (hself y)
  have hS : ∀ x, x ≠ b → (n.step (.restart b)).S x = n.S x := by
    intro x hx; unfold S; rw [hst, if_neg hx]
  refine ⟨?_, ?_, ?_, ?_, ?_, ?_, ?_⟩
  · intro x; rw [hst]; split
    · rename_i e; subst e; rfl
    · exact h.ident x
  · intro x; rw [hst]; split
    · rfl
    · exact h.irrefl x
  · intro x; rw [hst]; split
    · exact (tinv_new b).mono (by omega)
    · exact h.own x
  · intro b1 b2 h1 h2
    have n1 := hne _ _ h1
    have n2 := hne _ _ h2
    rw [hS _ n1]
    rw [hst, if_neg n1] at h1
    rw [hst, if_neg n2] at h2 ⊢
    exact h.view b1 b2 h1 h2
  · intro i τ hi
    have hm : τ ∈ n.tasks.filter (fun τ => τ.here ≠ b) := List.mem_of_getElem? hi
    rw [List.mem_filter] at hm
    obtain ⟨j, hj⟩ := List.mem_iff_getElem?.1 hm.1
    rw [hS _ (by simpa using hm.2)]
    exact h.taskOld j τ hj
  · intro b1 b2 h1 h2 m hm
    have n1 := hne _ _ h1
    have n2 := hne _ _ h2
    rw [hS _ n1]
    rw [hst, if_neg n1] at h1
    rw [hst, if_neg n2] at h2
    refine h.chOld b1 b2 h1 h2 m ?_
    simpa [step, n2] using hm
  · intro b1 b2 h1 h2 t x hx
    have n1 := hne _ _ h1
    have n2 := hne _ _ h2
    rw [hS _ n1] at hx
    rw [hst, if_neg n1] at h1
    rw [hst, if_neg n2] at h2
    rcases h.cov b1 b2 h1 h2 t x hx with ⟨e, h3, h4⟩ | h3 | ⟨i, τ, h3, h4, h5, h6⟩ | ⟨m, h3, h4⟩
    · left; exact ⟨e, by rw [hst, if_neg n2]; exact h3, h4⟩
    · right; left
      show _ ∈ n.fullT.filter _
      rw [List.mem_filter]; exact ⟨h3, by simpa using n1⟩
    · right; right; left
      have hm : τ ∈ n.tasks.filter (fun τ => τ.here ≠ b) := by
        rw [List.mem_filter]; exact ⟨List.mem_of_getElem? h3, by simpa [h4] using n1⟩
      obtain ⟨j, hj⟩ := List.mem_iff_getElem?.1 hm
      exact ⟨j, τ, hj, h4, h5, h6⟩
    · right; right; right
      exact ⟨m, by simpa [step, n2] using h3, h4⟩

/-- Every step keeps the invariant; it counts as at most two table operations of one broker. -/
theorem inv_step {n : MNet U B T H} {k : Nat} (h : Inv n k) (hk : k + 1 < 2 ^ 64)
    (l : MLabel U B T H) : Inv (n.step l) (k + 2) := by
  cases l with
  | connect b u hd ts => exact (inv_quiet h b (.addUser u hd ts) (by simp) (fun _ => trivial)).mono (by omega)
  | disconnect b u => exact (inv_quiet h b (.removeUser u) (by simp) (fun _ => trivial)).mono (by omega)
  | subscribe b u ts => exact (inv_quiet h b (.subscribeUser u ts) (by simp) (fun _ => trivial)).mono (by omega)
  | unsubscribe b u ts => exact (inv_quiet h b (.unsubscribeUser u ts) (by simp) (fun _ => trivial)).mono (by omega)
  | startTopic b => exact (inv_startTopic h hk b).mono (by omega)
  | startUser b =>
    have h' := inv_quiet h b .partialUserSync (by simp) (fun _ => trivial)
    simp only [step]
    cases (n.st b).getPartialUserSync.2 with
    | none => exact h'.mono (by omega)
    | some m => exact (inv_spawn h' ⟨b, .user m, none⟩ (by rintro m' ⟨⟩)).mono (by omega)
  | readDests i => exact (inv_readDests h i).mono (by omega)
  | send i ok => exact (inv_send h i ok).mono (by omega)
  | linkUp b b' c c' =>
    by_cases e : b = b'
    · have : n.step (.linkUp b b' c c') = n := by simp only [step]; rw [if_pos e]
      rw [this]; exact h.mono (by omega)
    · exact inv_linkUp h b b' c c' e
  | fullTopic b b' => exact (inv_fullTopic h b b').mono (by omega)
  | fullUser b b' => exact (inv_fullUser h b b').mono (by omega)
  | drop b b' => exact (inv_remove h b b').mono (by omega)
  | deliver b b' => exact (inv_deliver h b b').mono (by omega)
  | restart b => exact (inv_restart h b).mono (by omega)

theorem inv_run {n : MNet U B T H} {k : Nat} (h : Inv n k) (ls : List (MLabel U B T H))
    (hk : k + 2 * ls.length < 2 ^ 64) : Inv (n.run ls) (k + 2 * ls.length) := by
  induction ls generalizing n k with
  | nil => exact h
  | cons l ls ih =>
    rw [List.length_cons] at hk
    have := ih (inv_step h (by omega) l) (by omega)
    rw [List.length_cons, show k + 2 * (ls.length + 1) = k + 2 + 2 * ls.length by omega]
    exact this

end Verif.MNet
